import Verif.Model.CoeffsRounded
import Verif.Lemmas.RoundedSum
import Verif.Lemmas.Shift
import Verif.Props.FirError

/-!
# Tables of coefficients in floating point (C88)
-/

namespace DSP.Coeffs

section
variable {p : ℕ} [NeZero p]

theorem abs_val (a : Binary p) : ((Rounded.abs a).val : ℝ) = |(a.val : ℝ)| := by
  unfold Rounded.abs
  by_cases h : a < 0
  · have h' : a.val < 0 := h
    have h2 : (a.val : ℝ) < 0 := by exact_mod_cast h'
    rw [if_pos h, abs_of_neg h2]
    exact Rat.cast_neg _
  · have h' : 0 ≤ a.val := not_lt.mp h
    have h2 : 0 ≤ (a.val : ℝ) := by exact_mod_cast h'
    rw [if_neg h, abs_of_nonneg h2]

theorem zero_add' (a : Binary p) : ((0 : ℤ) : Binary p) + a = a := by
  refine Binary.val_injective p ?_
  show Binary.round p (Binary.round p ((0 : ℤ) : ℚ) + a.val) = a.val
  rw [Int.cast_zero, Binary.round_of_representable p 0 ⟨0, 0, by positivity, by simp⟩, zero_add, Binary.round_of_representable p _ a.representable]

/-- A sum that starts with zero. -/
theorem sum_loop' (f : ℕ → Binary p) (N : ℕ) (hN : 1 ≤ N) : (List.range N).foldlM (fun sum (n : ℕ) => do
    let v ← rd ((List.range N).map f) n
    return sum + v) ((0 : ℤ) : Binary p) = .ok (leftSum f N) := by
  obtain ⟨b, e, hb⟩ := foldlM_inv (fun k s => s = if k = 0 then ((0 : ℤ) : Binary p) else leftSum f k) (fun sum (n : ℕ) => do
    let v ← rd ((List.range N).map f) n
    return sum + v) N ((0 : ℤ) : Binary p) (by simp) (by
    rintro i hi s rfl
    refine ⟨_, by rw [rd_map_range f N i i rfl hi]; rfl, ?_⟩
    rw [if_neg (Nat.succ_ne_zero i)]
    by_cases h : i = 0
    · subst h
      rw [if_pos rfl, zero_add']
      rfl
    · rw [if_neg h]
      obtain ⟨j, rfl⟩ : ∃ j, i = j + 1 := ⟨i - 1, by omega⟩
      simp only [leftSum]
      rw [show j + 1 + 1 - 1 = j + 1 by omega, show j + 1 - 1 = j by omega, List.range_succ, List.foldl_append]
      rfl)
  rw [e, hb, if_neg (by omega)]

theorem normalize_ok' (f : ℕ → Binary p) (N : ℕ) (hN : 1 ≤ N) (d : Binary p) (h : ((d * Rounded.abs (leftSum f N)).val : ℝ) ≠ 0) :
    Rounded.normalize Rounded.abs N ((List.range N).map f) d = .ok ((List.range N).map fun n => f n / (d * Rounded.abs (leftSum f N))) := by
  have hs := sum_loop' f N hN
  simp only [bind, Except.bind] at hs
  simp only [Rounded.normalize, bind, Except.bind]
  rw [hs]
  refine update_loop _ _ _ _ (by simp) (by simp) fun b i u v hi hb hu hu2 hv => ?_
  rw [List.getElem?_map, List.getElem?_range hi, Option.map_some, Option.some.injEq] at hu2 hv
  rw [rd_of_getElem? (by omega) (by simpa using hu)]
  simp only [Fir.fdiv_ok' p _ _ h]
  rw [wr_nat (by omega), ← hv, hu2]

end

/-- The divisor is about right. -/
theorem divisor_near (d W S D u η : ℝ) (hd' : 0 < d) (hS0 : 0 < S) (hu0 : 0 ≤ u) (hu : u ≤ 1 / 1000) (hη0 : 0 ≤ η) (hS : -(1.1 * η * W) ≤ S - W ∧ S - W ≤ 1.1 * η * W)
    (hS1 : 0.89 * W ≤ S) (hmul : -(u * (d * S)) ≤ D - d * S ∧ D - d * S ≤ u * (d * S)) (hD0 : 0 < D) : |1 / D * (d * W) - 1| ≤ 1.3 * η + 1.1 * u := by
  rw [show 1 / D * (d * W) - 1 = (d * W - D) / D by field_simp, abs_div, abs_of_pos hD0, div_le_iff₀ hD0]
  have hDl : d * S * (1 - u) ≤ D := by linarith [hmul.1]
  have h1 : |d * W - D| ≤ d * (1.1 * η * W) + u * (d * S) := by
    rw [abs_le]
    constructor
    · nlinarith [hS.1, hS.2, hmul.1, hmul.2]
    · nlinarith [hS.1, hS.2, hmul.1, hmul.2]
  refine h1.trans ?_
  have h2 : 1.1 * η * W + u * S ≤ (1.3 * η + 1.1 * u) * (S * (1 - u)) := by
    have a1 : W ≤ 1.124 * S := by linarith
    have a2 : η * W ≤ η * (1.124 * S) := mul_le_mul_of_nonneg_left a1 hη0
    have a3 : 0.999 * S ≤ S * (1 - u) := by nlinarith
    have a4 : (1.3 * η + 1.1 * u) * (0.999 * S) ≤ (1.3 * η + 1.1 * u) * (S * (1 - u)) := mul_le_mul_of_nonneg_left a3 (by positivity)
    have a5 : 0 ≤ η * S := by positivity
    have a6 : 0 ≤ u * S := by positivity
    nlinarith
  calc d * (1.1 * η * W) + u * (d * S) = d * (1.1 * η * W + u * S) := by ring
    _ ≤ d * ((1.3 * η + 1.1 * u) * (S * (1 - u))) := mul_le_mul_of_nonneg_left h2 hd'.le
    _ = (1.3 * η + 1.1 * u) * (d * S * (1 - u)) := by ring
    _ ≤ _ := mul_le_mul_of_nonneg_left hDl (by positivity)

/-- The new sum is about right. -/
theorem new_sum (X F d W D u η κ N : ℝ) (hF : |F| = W) (hd' : 0 < d) (hW : 0 < W) (hD0 : 0 < D) (hu0 : 0 ≤ u) (hu : u ≤ 1 / 1000) (hN1 : 1 ≤ N) (hκ1 : 1 ≤ κ) (hη : η = N * κ * u) (hη1 : η ≤ 0.1)
    (key : |1 / D * (d * W) - 1| ≤ 1.3 * η + 1.1 * u) (e1 : |X - 1 / D * F| ≤ u * (1 / D) * (κ * W)) : |X - F / W / d| ≤ (2 * N + 2) * κ * u / d := by
  have e2 : |1 / D * F - F / W / d| = |1 / D * (d * W) - 1| / d := by
    have : 1 / D * F - F / W / d = F / W * ((1 / D * (d * W) - 1) / d) := by field_simp
    rw [this, abs_mul, abs_div, hF, abs_of_pos hW, div_self hW.ne', one_mul, abs_div, abs_of_pos hd']
  have e3 : u * (1 / D) * (κ * W) = u * κ * (1 / D * (d * W)) / d := by field_simp
  have e4 : 1 / D * (d * W) ≤ 1.25 := by
    have := (abs_le.mp key).2
    linarith
  calc _ ≤ _ := abs_sub_le _ (1 / D * F) _
    _ ≤ u * κ * 1.25 / d + (1.3 * η + 1.1 * u) / d := by
      rw [e2]
      refine add_le_add (e1.trans ?_) (div_le_div_of_nonneg_right key hd'.le)
      rw [e3]
      gcongr
    _ = (u * κ * 1.25 + (1.3 * η + 1.1 * u)) / d := by ring
    _ ≤ _ := by
      rw [hη]
      refine div_le_div_of_nonneg_right ?_ hd'.le
      have a1 : u ≤ u * κ := by nlinarith
      have a2 : u * κ ≤ N * κ * u := by nlinarith [mul_nonneg hu0 (by linarith : (0 : ℝ) ≤ κ)]
      nlinarith

variable (p : ℕ) [NeZero p] (hp : 10 ≤ p)

/-- The sum of the first `N` weights and of their magnitudes. -/
noncomputable abbrev sumOf (f : ℕ → Binary p) (N : ℕ) : ℝ := ∑ n ∈ Finset.range N, ((f n).val : ℝ)
noncomputable abbrev sizeOf' (f : ℕ → Binary p) (N : ℕ) : ℝ := ∑ n ∈ Finset.range N, |((f n).val : ℝ)|

include hp in
/-- **C88** Normalising a table of `N` weights whose magnitudes add up to at most `κ` times the magnitude of their sum, as long as `N κ` is small compared to `2^p`: up to one rounding
each, all weights are multiplied by the same positive number, which is off by few more than `N κ` roundings; the new weights add up to the sign of the sum over the divisor, up to
`(2N + 2) κ` roundings. Equal weights stay exactly equal, opposite weights exactly opposite. -/
theorem C88_normalize (f : ℕ → Binary p) (N : ℕ) (hN : 1 ≤ N) (d : Binary p) (hd : 0 < d.val) (κ : ℝ) (hs : sumOf p f N ≠ 0) (hκ : sizeOf' p f N ≤ κ * |sumOf p f N|) (hsize : 10 * N * κ ≤ 2 ^ p) :
    ∃ (g : ℕ → Binary p) (k : ℝ), Rounded.normalize Rounded.abs N ((List.range N).map f) d = .ok ((List.range N).map g) ∧ 0 < k ∧
      (∀ n < N, |((g n).val : ℝ) - k * (f n).val| ≤ 1 / 2 ^ p * |k * (f n).val|) ∧
      |k * (d.val * |sumOf p f N|) - 1| ≤ (1.3 * N * κ + 1.1) / 2 ^ p ∧
      |sumOf p g N - sumOf p f N / |sumOf p f N| / d.val| ≤ (2 * N + 2) * κ / 2 ^ p / d.val ∧
      (∀ i < N, ∀ j < N, (f i).val = (f j).val → (g i).val = (g j).val) ∧ (∀ i < N, ∀ j < N, (f i).val = -(f j).val → (g i).val = -(g j).val) := by
  have hR := binary_roundedField p
  have hu0 : (0 : ℝ) ≤ 1 / 2 ^ p := by positivity
  have hu := Win.unit_small p hp
  have hW : 0 < |sumOf p f N| := abs_pos.mpr hs
  have hκ1 : 1 ≤ κ := by
    have h1 : |sumOf p f N| ≤ sizeOf' p f N := Finset.abs_sum_le_sum_abs _ _
    have h2 : 1 * |sumOf p f N| ≤ κ * |sumOf p f N| := by linarith
    exact le_of_mul_le_mul_right h2 hW
  have hN1 : (1 : ℝ) ≤ N := by exact_mod_cast hN
  have hNκ : 10 * (N * κ) * (1 / 2 ^ p) ≤ 1 := by
    rw [mul_one_div, div_le_one (by positivity)]
    linarith
  have hsum := leftSum_error (1 / 2 ^ p) rfl f (fun n => ((f n).val : ℝ)) 0 N hN fun i _ => Rel.refl _ _
  have hpow : ((1 : ℝ) + 1 / 2 ^ p) ^ (0 + (N - 1)) - 1 ≤ 1.1 * N * (1 / 2 ^ p) := by
    rw [Nat.zero_add]
    have hle : ((N - 1 : ℕ) : ℝ) ≤ N := by exact_mod_cast Nat.sub_le N 1
    refine (pow_units _ hu0 (N - 1) ?_).trans (by gcongr)
    calc 10 * (((N - 1 : ℕ) : ℝ) * (1 / 2 ^ p)) ≤ 10 * (N * κ) * (1 / 2 ^ p) := by
          have : ((N - 1 : ℕ) : ℝ) ≤ N * κ := by nlinarith
          nlinarith
      _ ≤ 1 := hNκ
  have hd' : (0 : ℝ) < d.val := by exact_mod_cast hd
  have hmul := hR.mul d (Rounded.abs (leftSum f N))
  rw [abs_val] at hmul
  have hden : ((d * Rounded.abs (leftSum f N)).val : ℝ) ≠ 0 → Rounded.normalize Rounded.abs N ((List.range N).map f) d = .ok ((List.range N).map fun n => f n / (d * Rounded.abs (leftSum f N))) := normalize_ok' f N hN d
  obtain ⟨D, hD⟩ : ∃ D : Binary p, D = d * Rounded.abs (leftSum f N) := ⟨_, rfl⟩
  rw [← hD] at hmul hden
  have hdiv := fun n => hR.div (f n) D
  -- the magnitude of the sum is about right
  have herr : |((leftSum f N).val : ℝ) - sumOf p f N| ≤ 1.1 * N * (1 / 2 ^ p) * (κ * |sumOf p f N|) :=
    hsum.trans (mul_le_mul hpow hκ (Finset.sum_nonneg fun _ _ => abs_nonneg _) (by positivity))
  have hS : |(|((leftSum f N).val : ℝ)| - |sumOf p f N|)| ≤ 1.1 * (N * κ * (1 / 2 ^ p)) * |sumOf p f N| :=
    (abs_abs_sub_abs_le _ _).trans (herr.trans (le_of_eq (by ring)))
  obtain ⟨S, hS'⟩ : ∃ S, S = |((leftSum f N).val : ℝ)| := ⟨_, rfl⟩
  obtain ⟨W, hW'⟩ : ∃ W, W = |sumOf p f N| := ⟨_, rfl⟩
  obtain ⟨u, hu'⟩ : ∃ u : ℝ, u = 1 / 2 ^ p := ⟨_, rfl⟩
  obtain ⟨η, hη⟩ : ∃ η : ℝ, η = N * κ * u := ⟨_, rfl⟩
  rw [← hu'] at hu0 hu hNκ hdiv hmul
  rw [← hS', ← hW', ← hu', ← hη] at hS
  rw [← hW'] at hW hκ
  rw [← hS'] at hmul
  have hη0 : 0 ≤ η := by rw [hη]; positivity
  have hη1 : η ≤ 0.1 := by rw [hη]; linarith
  have huη : u ≤ η := by
    have : 1 ≤ N * κ := by nlinarith
    rw [hη]
    nlinarith
  rw [abs_le] at hS
  have hS1 : 0.89 * W ≤ S := by nlinarith
  have hS0 : 0 < S := by linarith
  have hdS : 0 < d.val * S := mul_pos hd' hS0
  rw [abs_mul, abs_of_pos hd', abs_of_pos hS0, abs_le] at hmul
  have hD0 : (0 : ℝ) < D.val := by nlinarith
  have key := divisor_near d.val W S D.val u η hd' hS0 hu0 hu hη0 hS hS1 hmul hD0
  refine ⟨fun n => f n / D, 1 / D.val, ?_, by positivity, fun n hn => ?_, ?_, ?_, ?_, ?_⟩
  · rw [hden hD0.ne', hD]
  · have := hdiv n hD0.ne'
    rw [← hu', show 1 / (D.val : ℝ) * (f n).val = (f n).val / D.val by ring]
    exact this
  · rw [← hW', show ((1.3 * N * κ + 1.1) / 2 ^ p : ℝ) = 1.3 * (N * κ * (1 / 2 ^ p)) + 1.1 * (1 / 2 ^ p) by ring, ← hu', ← hη]
    exact key
  · rw [← hW']
    have e1 : |sumOf p (fun n => f n / D) N - 1 / (D.val : ℝ) * sumOf p f N| ≤ u * (1 / D.val) * (κ * W) := by
      rw [Finset.mul_sum, ← Finset.sum_sub_distrib]
      refine (Finset.abs_sum_le_sum_abs _ _).trans ?_
      calc _ ≤ ∑ n ∈ Finset.range N, u * (1 / D.val) * |((f n).val : ℝ)| := by
            refine Finset.sum_le_sum fun n _ => ?_
            have := hdiv n hD0.ne'
            rw [abs_div, abs_of_pos hD0] at this
            rw [show 1 / (D.val : ℝ) * (f n).val = (f n).val / D.val by ring]
            exact this.trans (le_of_eq (by ring))
        _ = u * (1 / D.val) * sizeOf' p f N := by rw [Finset.mul_sum]
        _ ≤ _ := mul_le_mul_of_nonneg_left hκ (by positivity)
    rw [show (2 * (N : ℝ) + 2) * κ / 2 ^ p = (2 * N + 2) * κ * (1 / 2 ^ p) by ring, ← hu']
    exact new_sum _ _ _ W D.val u η κ N hW'.symm hd' hW hD0 hu0 hu hN1 hκ1 hη hη1 key e1
  · intro i _ j _ h
    show Binary.round p ((f i).val / D.val) = Binary.round p ((f j).val / D.val)
    rw [h]
  · intro i _ j _ h
    show Binary.round p ((f i).val / D.val) = -Binary.round p ((f j).val / D.val)
    rw [h, neg_div, Binary.round_neg]

/-- **C88** The constructors tabulate the function, or the product of both functions with one rounding, and normalise the table if asked to, whatever was in the array. -/
theorem C88_table (N : ℕ) (func0 func1 : ℤ → ℤ → M (Binary p)) (f g : ℕ → Binary p) (hf : ∀ n < N, func0 n N = .ok (f n)) (hg : ∀ n < N, func1 n N = .ok (g n)) (w : List (Binary p)) (hw : w.length = N) :
    Rounded.make Rounded.abs N false func0 w = .ok ((List.range N).map f) ∧
    Rounded.make Rounded.abs N true func0 w = Rounded.normalize Rounded.abs N ((List.range N).map f) ((1 : ℤ) : Binary p) ∧
    Rounded.make2 Rounded.abs N false func0 func1 w = .ok ((List.range N).map fun n => f n * g n) ∧
    Rounded.make2 Rounded.abs N true func0 func1 w = Rounded.normalize Rounded.abs N ((List.range N).map fun n => f n * g n) ((1 : ℤ) : Binary p) := by
  have h1 := DSP.fill_ok w N hw (fun n => func0 n N) f hf
  have h2 : (List.range N).foldlM (fun w (n : ℕ) => do
      let a ← func0 n N
      let b ← func1 n N
      wr w n (a * b)) w = .ok ((List.range N).map fun n => f n * g n) := by
    refine update_loop _ _ _ _ hw (by simp) fun b i u v hi hb _ _ hv => ?_
    rw [List.getElem?_map, List.getElem?_range hi, Option.map_some, Option.some.injEq] at hv
    rw [hf i hi, hg i hi]
    simp only [bind, Except.bind]
    rw [hv]
    exact wr_nat (by omega)
  simp only [bind, Except.bind] at h1 h2
  simp only [Rounded.make, Rounded.make2, bind, Except.bind, pure, Except.pure]
  rw [h1, h2]
  exact ⟨rfl, rfl, rfl, rfl⟩

/-- A triangular window of three taps, whose weights are not negative. -/
example : ∃ g k, Rounded.normalize Rounded.abs 3 ((List.range 3).map fun n => if n = 1 then ((2 : ℤ) : Binary 24) else ((1 : ℤ) : Binary 24)) ((1 : ℤ) : Binary 24) = .ok ((List.range 3).map g) ∧
    (0 : ℝ) < k ∧ (g 0).val = (g 2).val := by
  have e1 : ((1 : ℤ) : Binary 24).val = 1 := by decide +kernel
  have e2 : ((2 : ℤ) : Binary 24).val = 2 := by decide +kernel
  obtain ⟨g, k, e, hk, -, -, -, h, -⟩ := C88_normalize 24 (by norm_num) (fun n => if n = 1 then ((2 : ℤ) : Binary 24) else ((1 : ℤ) : Binary 24)) 3 (by norm_num) ((1 : ℤ) : Binary 24) (by rw [e1]; norm_num) 1
    (by simp [sumOf, Finset.sum_range_succ, e1, e2]; norm_num) (by simp [sumOf, sizeOf', Finset.sum_range_succ, e1, e2]; norm_num) (by norm_num)
  exact ⟨g, k, e, hk, h 0 (by norm_num) 2 (by norm_num) rfl⟩

set_option maxRecDepth 100000 in
theorem cancels : (match Rounded.normalize Rounded.abs 3 [((1 : ℤ) : Binary 53), Binary.literal 64 53 (1 / 2 ^ 60), ((-1 : ℤ) : Binary 53)] ((1 : ℤ) : Binary 53) with
    | .error .divZero => decide (((1 : ℤ) : Binary 53).val + (Binary.literal 64 53 (1 / 2 ^ 60)).val + ((-1 : ℤ) : Binary 53).val = 1 / 2 ^ 60) | _ => false) = true := by decide +kernel

/-- **C88** Without the condition on `κ`: the weights `1`, `2^-60` and `-1` do not add up to zero, but their sum in floating point is zero and all of them are divided by it. -/
theorem C88_cancels : Rounded.normalize Rounded.abs 3 [((1 : ℤ) : Binary 53), Binary.literal 64 53 (1 / 2 ^ 60), ((-1 : ℤ) : Binary 53)] ((1 : ℤ) : Binary 53) = .error .divZero ∧
    ((1 : ℤ) : Binary 53).val + (Binary.literal 64 53 (1 / 2 ^ 60)).val + ((-1 : ℤ) : Binary 53).val = 1 / 2 ^ 60 := by
  have := cancels
  revert this
  rcases Rounded.normalize Rounded.abs 3 [((1 : ℤ) : Binary 53), Binary.literal 64 53 (1 / 2 ^ 60), ((-1 : ℤ) : Binary 53)] ((1 : ℤ) : Binary 53) with e | w <;> intro h
  · cases e <;> first | exact ⟨rfl, of_decide_eq_true h⟩ | exact absurd h (by simp)
  · exact absurd h (by simp)

end DSP.Coeffs
