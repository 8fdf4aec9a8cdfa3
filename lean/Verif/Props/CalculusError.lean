import Verif.Model.Calculus
import Verif.Model.BinaryOrder
import Verif.Lemmas.RoundedSum
import Verif.Lemmas.IntRound
import Verif.Lemmas.Base

/-!
# Integrator and differentiator in floating point (C89)
-/

namespace DSP.Calculus

variable (p : ℕ) [NeZero p]

/-- The exact values of a list of numbers. -/
def values (xs : List (Binary p)) : List ℝ := xs.map fun x => (x.val : ℝ)

theorem integrator_error (u : ℝ) (hu : u = 1 / 2 ^ p) (xs : List (Binary p)) : ∀ (s : Binary p) (k : ℕ) (S A : ℝ), |(s.val : ℝ) - S| ≤ ((1 + u) ^ k - 1) * A → |S| ≤ A →
    ∀ n < xs.length, ∃ y, (outputs integrator s xs)[n]? = some y ∧
      |(y.val : ℝ) - (S + ((values p xs).take (n + 1)).sum)| ≤ ((1 + u) ^ (k + n + 1) - 1) * (A + (((values p xs).take (n + 1)).map abs).sum) := by
  have hR := binary_roundedField p
  rw [← hu] at hR
  have hu0 : 0 ≤ u := by rw [hu]; positivity
  induction xs with
  | nil => intro s k S A _ _ n hn; simp at hn
  | cons x xs ih =>
    intro s k S A hs hA n hn
    have hr := hR.add s x
    have hP1 : 1 ≤ (1 + u) ^ k := one_le_pow₀ (by linarith)
    have hx := abs_nonneg (x.val : ℝ)
    have hstep : |((s + x).val : ℝ) - (S + x.val)| ≤ ((1 + u) ^ (k + 1) - 1) * (A + |(x.val : ℝ)|) := by
      rw [pow_succ]
      generalize (1 + u) ^ k = P at *
      have h1 : |(s.val : ℝ) + x.val - (S + x.val)| ≤ (P - 1) * (A + |(x.val : ℝ)|) := by
        rw [add_sub_add_right_eq_sub]
        exact hs.trans (mul_le_mul_of_nonneg_left (by linarith) (by linarith))
      have h2 : |(s.val : ℝ) + x.val| ≤ P * (A + |(x.val : ℝ)|) := by
        calc |(s.val : ℝ) + x.val| = |((s.val : ℝ) + x.val - (S + x.val)) + (S + x.val)| := by congr 1; ring
          _ ≤ (P - 1) * (A + |(x.val : ℝ)|) + (A + |(x.val : ℝ)|) := (abs_add_le _ _).trans (add_le_add h1 ((abs_add_le _ _).trans (by linarith)))
          _ = _ := by ring
      calc _ ≤ |((s + x).val : ℝ) - (s.val + x.val)| + |(s.val : ℝ) + x.val - (S + x.val)| := abs_sub_le _ _ _
        _ ≤ u * (P * (A + |(x.val : ℝ)|)) + (P - 1) * (A + |(x.val : ℝ)|) := add_le_add (hr.trans (mul_le_mul_of_nonneg_left h2 hu0)) h1
        _ = _ := by ring
    cases n with
    | zero =>
      refine ⟨s + x, rfl, ?_⟩
      simpa [values] using hstep
    | succ n =>
      obtain ⟨y, ey, hy⟩ := ih (s + x) (k + 1) (S + x.val) (A + |(x.val : ℝ)|) hstep ((abs_add_le _ _).trans (by linarith)) n (by simpa using hn)
      refine ⟨y, by simpa [outputs, integrator] using ey, ?_⟩
      simp only [values, List.map_cons, List.take_succ_cons, List.sum_cons] at hy ⊢
      rw [show k + (n + 1) + 1 = k + 1 + n + 1 by ring, ← add_assoc, ← add_assoc]
      exact hy

/-- **C89** The integrator: after `n` additions the sum is off by at most about `n` units, compared to the sum of all magnitudes. -/
theorem C89_integrator (s : Binary p) (xs : List (Binary p)) (n : ℕ) (hn : n < xs.length) (hsize : 10 * (n + 1) ≤ 2 ^ p) : ∃ y, (outputs integrator s xs)[n]? = some y ∧
    |(y.val : ℝ) - (s.val + ((values p xs).take (n + 1)).sum)| ≤ 1.1 * (n + 1) / 2 ^ p * (|(s.val : ℝ)| + (((values p xs).take (n + 1)).map abs).sum) := by
  obtain ⟨y, ey, hy⟩ := integrator_error p (1 / 2 ^ p) rfl xs s 0 s.val |(s.val : ℝ)| (by simp) le_rfl n hn
  refine ⟨y, ey, hy.trans (mul_le_mul_of_nonneg_right ?_ ?_)⟩
  · rw [Nat.zero_add]
    refine (pow_units _ (by positivity) (n + 1) ?_).trans (le_of_eq (by push_cast; ring))
    rw [mul_one_div, ← mul_div_assoc, div_le_one (by positivity)]
    exact_mod_cast hsize
  · refine add_nonneg (abs_nonneg _) (List.sum_nonneg fun v hv => ?_)
    obtain ⟨w, -, rfl⟩ := List.mem_map.mp hv
    exact abs_nonneg w

/-- **C89** The integrator is exact for multiples of a power of two, as long as no sum has more than `p` bits. -/
theorem C89_integrator_exact (e : ℤ) (s : Binary p) (a : ℤ) (hs : s.val = a * 2 ^ e) (xs : List (Binary p)) (ks : List ℤ) (hx : xs.map (fun x => x.val) = ks.map fun k : ℤ => (k : ℚ) * 2 ^ e)
    (hb : ∀ n ≤ xs.length, |a + (ks.take n).sum| < 2 ^ p) : (outputs integrator s xs).map (fun y => y.val) = (List.range xs.length).map fun n => ((a + (ks.take (n + 1)).sum : ℤ) : ℚ) * 2 ^ e := by
  induction xs generalizing s a ks with
  | nil => rfl
  | cons x xs ih =>
    cases ks with
    | nil => simp at hx
    | cons k ks =>
      simp only [List.map_cons, List.cons.injEq] at hx
      have h1 := hb 1 (by simp)
      have hadd : (s + x).val = ((a + k : ℤ) : ℚ) * 2 ^ e := by
        show Binary.round p (s.val + x.val) = _
        rw [hs, hx.1, ← add_mul, ← Int.cast_add]
        exact Binary.round_of_representable p _ ⟨a + k, e, by simpa using h1, rfl⟩
      have := ih (s + x) (a + k) hadd ks hx.2 fun n hn => by
        have := hb (n + 1) (by simpa using hn)
        simpa [← add_assoc] using this
      simp only [outputs, integrator, List.map_cons, List.length_cons, List.range_succ_eq_map, List.map_map, this]
      rw [hadd]
      congr 1
      · simp
      · refine List.map_congr_left fun n _ => ?_
        simp [List.take_succ_cons, add_assoc]

theorem round_stuck (hp : 3 ≤ p) : Binary.round p (2 ^ p + 1) = 2 ^ p := by
  have h := Binary.round_int p (by omega) (2 ^ p + 1) (by
    have : (0 : ℤ) < 2 ^ p := by positivity
    have h8 : (2 : ℤ) ^ 3 ≤ 2 ^ p := pow_le_pow_right₀ (by norm_num) hp
    rw [abs_of_pos (by linarith)]
    linarith)
  push_cast at h
  rw [h]
  have h8 : (2 : ℤ) ^ 3 ≤ 2 ^ p := pow_le_pow_right₀ (by norm_num) hp
  have hm : (2 : ℤ) ^ p % 4 = 0 := by
    obtain ⟨q, rfl⟩ : ∃ q, p = q + 2 := ⟨p - 2, by omega⟩
    rw [pow_add]
    omega
  have : Binary.intRound (2 ^ p) (2 ^ p + 1) = 2 ^ p := by
    unfold Binary.intRound
    simp only []
    rw [abs_of_pos (by linarith), if_neg (show ¬ (2 : ℤ) ^ p + 1 < 0 by linarith), if_neg (show ¬ (2 : ℤ) ^ p + 1 < 2 ^ p by linarith), if_pos (show (2 : ℤ) ^ p + 1 < 2 * 2 ^ p by linarith),
      if_pos (by omega)]
    ring
  rw [this]
  push_cast
  rfl

/-- **C89** The integrator gets stuck: once the sum is `2^p`, adding ones does not change it any more, however often. -/
theorem C89_stuck (hp : 3 ≤ p) (s one : Binary p) (hs : s.val = 2 ^ p) (h1 : one.val = 1) (T : ℕ) : outputs integrator s (List.replicate T one) = List.replicate T s := by
  have h : s + one = s := by
    refine Binary.val_injective p ?_
    show Binary.round p (s.val + one.val) = s.val
    rw [hs, h1, round_stuck p hp]
  induction T with
  | zero => rfl
  | succ T ih =>
    rw [List.replicate_succ, List.replicate_succ, outputs, integrator]
    simp only [h, ih]

theorem differentiator_get (xs : List (Binary p)) : ∀ (s : Binary p) (n : ℕ), n < xs.length → ∃ a b, (if n = 0 then some s else xs[n - 1]?) = some a ∧ xs[n]? = some b ∧ (outputs differentiator s xs)[n]? = some (b - a) := by
  induction xs with
  | nil => intro s n hn; simp at hn
  | cons x xs ih =>
    intro s n hn
    cases n with
    | zero => exact ⟨s, x, rfl, rfl, rfl⟩
    | succ n =>
      obtain ⟨a, b, ha, hb, ho⟩ := ih x n (by simpa using hn)
      refine ⟨a, b, ?_, by simpa using hb, by simpa [outputs, differentiator] using ho⟩
      rw [if_neg (Nat.succ_ne_zero n), Nat.add_sub_cancel]
      cases n with
      | zero => simpa using ha
      | succ n => simpa using ha

omit [NeZero p] in
theorem representable_sub (a b : ℚ) (ha : Binary.Representable p a) (hb : Binary.Representable p b) (h : |a - b| ≤ |a|) (h' : |a - b| ≤ |b|) : Binary.Representable p (a - b) := by
  obtain ⟨m, e, hm, rfl⟩ := ha
  obtain ⟨n, f, hn, rfl⟩ := hb
  have key : ∀ (m n e f : ℤ), |m| < 2 ^ p → e ≤ f → |(m : ℚ) * 2 ^ e - n * 2 ^ f| ≤ |(m : ℚ) * 2 ^ e| → Binary.Representable p ((m : ℚ) * 2 ^ e - n * 2 ^ f) := by
    intro m n e f hm hef h
    obtain ⟨k, rfl⟩ : ∃ k : ℕ, f = e + k := ⟨(f - e).toNat, by omega⟩
    have e1 : (m : ℚ) * 2 ^ e - n * 2 ^ (e + (k : ℤ)) = ((m - n * 2 ^ k : ℤ) : ℚ) * 2 ^ e := by
      rw [zpow_add₀ (by norm_num), zpow_natCast]
      push_cast
      ring
    refine ⟨m - n * 2 ^ k, e, ?_, e1⟩
    rw [e1, abs_mul, abs_mul, mul_le_mul_iff_left₀ (abs_pos.mpr (by positivity))] at h
    have h2 : |m - n * 2 ^ k| ≤ |m| := by exact_mod_cast h
    exact lt_of_le_of_lt h2 hm
  rcases le_total e f with hef | hef
  · exact key m n e f hm hef h
  · have := key n m f e hn hef (by rwa [abs_sub_comm])
    obtain ⟨r, g, hr, hg⟩ := this
    refine ⟨-r, g, by rwa [abs_neg], ?_⟩
    rw [← neg_sub, hg]
    push_cast
    ring

/-- **C89** The differentiator: every output is the difference of neighbours with one rounding. It is exact if neither is more than twice the other, and zero only if they are equal. -/
theorem C89_differentiator (s : Binary p) (xs : List (Binary p)) (n : ℕ) (hn : n < xs.length) : ∃ a b y, (if n = 0 then some s else xs[n - 1]?) = some a ∧ xs[n]? = some b ∧
    (outputs differentiator s xs)[n]? = some y ∧ |(y.val : ℝ) - (b.val - a.val)| ≤ 1 / 2 ^ p * |(b.val : ℝ) - a.val| ∧
    (0 ≤ a.val → a.val ≤ 2 * b.val → b.val ≤ 2 * a.val → y.val = b.val - a.val) ∧ (y.val = 0 → b.val = a.val) := by
  obtain ⟨a, b, ha, hb, hy⟩ := differentiator_get p xs s n hn
  have hsub := (binary_roundedField p).sub b a
  refine ⟨a, b, b - a, ha, hb, hy, hsub, fun h0 h1 h2 => ?_, fun h => ?_⟩
  · show Binary.round p (b.val - a.val) = b.val - a.val
    refine Binary.round_of_representable p _ (representable_sub p _ _ b.representable a.representable ?_ ?_)
    · rw [abs_of_nonneg (by linarith : 0 ≤ b.val), abs_le]
      constructor <;> linarith
    · rw [abs_of_nonneg h0, abs_le]
      constructor <;> linarith
  · have h' : ((b - a).val : ℝ) = 0 := by exact_mod_cast h
    rw [h', zero_sub, abs_neg] at hsub
    have hp2 : (2 : ℝ) ≤ 2 ^ p := by
      calc (2 : ℝ) = 2 ^ 1 := by norm_num
        _ ≤ 2 ^ p := pow_le_pow_right₀ (by norm_num) (Nat.one_le_iff_ne_zero.mpr (NeZero.ne p))
    have hu : (1 : ℝ) / 2 ^ p ≤ 1 / 2 := by gcongr
    have h0 := abs_nonneg ((b.val : ℝ) - a.val)
    have : |(b.val : ℝ) - a.val| ≤ 0 := by nlinarith
    have := sub_eq_zero.mp (abs_nonpos_iff.mp this)
    exact_mod_cast this

example : ∃ y, (outputs integrator (0 : Binary 53) [Binary.literal 64 53 0.1, Binary.literal 64 53 0.2, Binary.literal 64 53 0.3])[2]? = some y := by
  obtain ⟨y, e, -⟩ := C89_integrator 53 0 [Binary.literal 64 53 0.1, Binary.literal 64 53 0.2, Binary.literal 64 53 0.3] 2 (by norm_num) (by norm_num)
  exact ⟨y, e⟩

example : ∃ s one : Binary 53, s.val = 2 ^ 53 ∧ one.val = 1 := ⟨((2 ^ 53 : ℤ) : Binary 53), ((1 : ℤ) : Binary 53), by decide +kernel, by decide +kernel⟩

end DSP.Calculus
