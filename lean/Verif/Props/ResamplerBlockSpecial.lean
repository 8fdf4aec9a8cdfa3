import Verif.Props.ResamplerSpecial
import Verif.Lemmas.Loops

/-!
# C140: the block resampler with infinities and NaN
-/

namespace DSP.Resampler.Machine

open Ieee Spec FFT Bridge SplineSpecial
open Resampler2.Machine (Ready total value total_bad total_same reach_ok)

variable {F G : Format}

/-! ### Conversions -/

theorem convert_good (U : Silence.Usual F) (a : Ieee G) (ga : GoodIeee a) (h : |(a.val : ℝ)| ≤ 2 ^ (F.emax - 1)) :
    GoodIeee (convert F a) ∧ |((convert F a).val : ℝ) - a.val| ≤ 1 / 2 ^ F.p * (|(a.val : ℝ)| + 2 ^ (F.emin + F.p - 1)) := by
  obtain ⟨fa, va⟩ := ga
  obtain ⟨s, m, rfl⟩ := (finite_iff a).mp fa
  have hp : 0 < F.p := by have := U.p; omega
  have m0 : 0 ≤ m := va.1
  have := round_range U (signed s m) h
  have hf : (pack s m : Ieee F).Finite := by
    rw [pack_finite, ← signed_abs s, signed_round]
    exact this.1
  refine ⟨⟨hf, pack_valid hp _ _⟩, ?_⟩
  show |(((pack s m : Ieee F).val : ℚ) : ℝ) - (signed s m : ℚ)| ≤ _
  rw [pack_val hp _ _ hf, abs_of_nonneg m0]
  exact this.2

theorem code_val (x : Ieee G) (h : x.Finite) : code x = Binary.nearest x.val := by
  obtain ⟨s, m, rfl⟩ := (finite_iff x).mp h
  rfl

theorem code_bad (x : Ieee G) (h : ¬x.Finite) : int32 (code x) = .error .overflow := by
  cases x with
  | nan => rfl
  | inf s => rfl
  | num s m => exact absurd trivial h

section
variable (D : UnitCircle.Deep F) (E : UnitCircle.Deep G) (hG : 31 ≤ G.p)
include D E hG

omit D in
theorem whole (n : ℤ) (h : |n| < 2147483648) : GoodIeee ((n : ℤ) : Ieee G) ∧ (((n : ℤ) : Ieee G).val : ℝ) = n := by
  have U := NCO.usual_of_wide E.wide
  have h2 : (2 : ℤ) ^ 31 ≤ 2 ^ G.p := pow_le_pow_right₀ (by norm_num) hG
  have h3 := E.wide.emax
  have h4 := E.wide.emin
  obtain ⟨a, b, c⟩ := cast_exact (F := G) (by omega) (by omega) (by omega) n (by norm_num at h2; omega)
  exact ⟨⟨a, b⟩, by rw [c]; norm_cast⟩

/-- The filter has a value at every tap around the nearest sample. -/
theorem tap_ok {lpf : NaturalSpline.Rounded (Ieee F)} {TAPS OVER : ℕ} (R : Ready lpf TAPS OVER) (x : Ieee G) (gx : GoodIeee x) (hx : |code x| ≤ 2147000000) (j : ℕ) (hj : j < TAPS) :
    ∃ v, lpf.call Ieee.trunc (TAPS * OVER) (convert F (((code x + j : ℤ) : Ieee G) - x)) = .ok v := by
  have UF := NCO.usual_of_wide D.wide
  have UG := NCO.usual_of_wide E.wide
  have ht := R.most
  obtain ⟨gs, vs⟩ := whole E hG (code x + j) (by rw [abs_le] at hx; rw [abs_lt]; omega)
  have hn : |((code x : ℤ) : ℝ) - x.val| ≤ 1 / 2 := by
    rw [code_val x gx.1]
    have := Binary.nearest_near x.val
    have e : ((|(Binary.nearest x.val : ℚ) - x.val| : ℚ) : ℝ) ≤ ((1 / 2 : ℚ) : ℝ) := by exact_mod_cast this
    push_cast at e
    exact e
  have s0 : (0 : ℝ) ≤ j := by positivity
  have s1 : (j : ℝ) + 1 ≤ TAPS := by exact_mod_cast hj
  have t1 : (TAPS : ℝ) ≤ 65534 := by exact_mod_cast R.most
  obtain ⟨n0, n1⟩ := abs_le.mp hn
  have b0 : |(((code x + j : ℤ) : Ieee G).val : ℝ) - x.val| ≤ TAPS - 1 / 2 := by
    rw [vs, abs_le]
    push_cast
    constructor <;> linarith
  obtain ⟨gk, hk⟩ := good_sub UG _ x gs gx (PixelsIeee.room E (by linarith))
  have hk := PixelsIeee.close E hk
  generalize ((code x + j : ℤ) : Ieee G) - x = k at *
  have b1 : |(k.val : ℝ)| ≤ TAPS - 1 / 4 := by
    have := abs_sub_abs_le_abs_sub (k.val : ℝ) ((((code x + j : ℤ) : Ieee G).val : ℝ) - x.val)
    linarith
  obtain ⟨gc, hc⟩ := convert_good UF k gk (PixelsIeee.room D (by linarith))
  have hc := PixelsIeee.close D hc
  refine reach_ok D R _ gc ?_
  have := abs_sub_abs_le_abs_sub ((convert F k).val : ℝ) k.val
  norm_num
  linarith

/-- The sum for an output, `x` is the place in the input. -/
def around (lpf : NaturalSpline.Rounded (Ieee F)) (TAPS OVER : ℕ) (x : Ieee G) (input : ℕ → Ieee F) : Ieee F :=
  total (fun j => value lpf (TAPS * OVER) (convert F (((code x + j : ℤ) : Ieee G) - x))) (fun j => input ((code x).toNat + j)) TAPS

theorem sum_ok {TAPS OVER : ℕ} (r : Machine F) (R : Ready r.lpf TAPS OVER) (input : List (Ieee F)) (n stride : ℕ) (h32 : n * stride ≤ 2147483647) (hi : (n - 1) * stride < input.length)
    (x : Ieee G) (gx : GoodIeee x) (h0 : 0 ≤ code x) (h1 : code x + TAPS ≤ n) (hx : |code x| ≤ 2147000000) :
    r.sum TAPS OVER input stride (code x) x = .ok (around r.lpf TAPS OVER x fun s => input.getD (s * stride) 0) := by
  obtain ⟨y, e, hy⟩ := foldlM_inv (fun m y => y = total (fun j => value r.lpf (TAPS * OVER) (convert F (((code x + j : ℤ) : Ieee G) - x))) (fun j => input.getD (((code x).toNat + j) * stride) 0) m) (fun sum (j : ℕ) => do
      let k := convert F (((code x + j : ℤ) : Ieee G) - x)
      let v ← r.lpf.call Ieee.trunc (TAPS * OVER) k
      let i ← int32 ((code x + j) * stride)
      let u ← rd input i
      return sum + v * u) TAPS 0 rfl (by
    rintro j hj y rfl
    obtain ⟨v, e⟩ := tap_ok D E hG R x gx hx j hj
    have e' : value r.lpf (TAPS * OVER) (convert F (((code x + j : ℤ) : Ieee G) - x)) = v := by rw [value, e]; rfl
    have hp : (code x).toNat + j ≤ n - 1 := by omega
    have hl : ((code x).toNat + j) * stride ≤ (n - 1) * stride := Nat.mul_le_mul_right _ hp
    have hl' : (n - 1) * stride ≤ n * stride := Nat.mul_le_mul_right _ (by omega)
    have hc : (code x + j) * (stride : ℤ) = ((((code x).toNat + j) * stride : ℕ) : ℤ) := by
      push_cast
      rw [Int.toNat_of_nonneg h0]
    refine ⟨_, ?_, rfl⟩
    rw [hc]
    have hi32 : int32 ((((code x).toNat + j) * stride : ℕ) : ℤ) = .ok ((((code x).toNat + j) * stride : ℕ) : ℤ) := int32_fits (by constructor <;> omega)
    simp only [e, hi32, bind, Except.bind, pure, Except.pure]
    rw [rd_nat (by omega), total, e', List.getD_eq_getElem?_getD, List.getElem?_eq_getElem (by omega), Option.getD_some])
  rw [sum, e, hy]
  rfl

/-- Where the output `i` is taken from. -/
def place (G : Format) (r : Machine F) (diff : Ieee F) (i : ℕ) : Ieee G := ((i : ℤ) : Ieee G) * r.ratio G diff

/-- Where the output `i` is put. -/
def spot (TAPS stride i : ℕ) : ℕ := (i + (TAPS - 1) / 2) * stride

omit D in
theorem place_ok {r : Machine F} {diff : Ieee F} {n : ℕ} (h32 : n ≤ 2147483647) (hr : (r.ratio G diff).Finite) (hm : (n : ℝ) * |((r.ratio G diff).val : ℝ)| ≤ 2 ^ 30) (i : ℕ) (hi : i < n) :
    GoodIeee (place G r diff i) ∧ |code (place G r diff i)| ≤ 2147000000 := by
  have U := NCO.usual_of_wide E.wide
  have hp : 0 < G.p := by omega
  have gr : GoodIeee (r.ratio G diff) := ⟨hr, by
    unfold ratio
    cases r.rate / (r.rate + diff) with
    | nan => trivial
    | inf s => trivial
    | num s m => exact pack_valid hp _ _⟩
  obtain ⟨gi, vi⟩ := whole (G := G) E hG (i : ℤ) (by rw [abs_lt]; omega)
  have b : |(((i : ℤ) : Ieee G).val : ℝ) * (r.ratio G diff).val| ≤ 2 ^ 30 := by
    rw [vi, abs_mul]
    have : (i : ℝ) ≤ n := by exact_mod_cast hi.le
    refine le_trans ?_ hm
    push_cast
    rw [abs_of_nonneg (by positivity : (0 : ℝ) ≤ i)]
    gcongr
  obtain ⟨gx, hx⟩ := good_mul U _ _ gi gr (b.trans (by
    have := E.high
    calc (2 : ℝ) ^ 30 = 2 ^ (30 : ℤ) := by norm_num
      _ ≤ _ := zpow_le_zpow_right₀ (by norm_num) (by omega)))
  have hx := PixelsIeee.close E hx
  refine ⟨gx, ?_⟩
  unfold place
  rw [code_val _ gx.1]
  generalize ((i : ℤ) : Ieee G) * r.ratio G diff = x at *
  apply Binary.nearest_le
  have : |(x.val : ℝ)| ≤ 2147000000 := by
    have := abs_sub_abs_le_abs_sub (x.val : ℝ) ((((i : ℤ) : Ieee G).val : ℝ) * (r.ratio G diff).val)
    have : (2 : ℝ) ^ 30 = 1073741824 := by norm_num
    linarith
  have e : ((|x.val| : ℚ) : ℝ) ≤ ((2147000000 : ℚ) : ℝ) := by push_cast; exact this
  exact_mod_cast e

/-- **C140** If the ratio is finite and no place is beyond the reach of an `int`, then the call does nothing undefined, whatever the samples are, infinities and NaN included. The output `i` is the sum of the values of the filter times the
`TAPS` samples around its place in the input, in every bit, or is left alone, if one of them is not in the input. Everything else in the array is left alone, too. -/
theorem C140_block {TAPS OVER : ℕ} (r : Machine F) (R : Ready r.lpf TAPS OVER) (output input : List (Ieee F)) (diff : Ieee F) (n stride : ℕ) (hs : 1 ≤ stride) (h32 : n * stride ≤ 2147483647)
    (hi : (n - 1) * stride < input.length) (ho : (n - 1) * stride < output.length) (hr : (r.ratio G diff).Finite) (hm : (n : ℝ) * |((r.ratio G diff).val : ℝ)| ≤ 2 ^ 30) :
    ∃ out, call G r TAPS OVER output input diff n stride = .ok out ∧ out.length = output.length ∧ (∀ p, (∀ i < n - TAPS, p ≠ spot TAPS stride i) → out[p]? = output[p]?) ∧
      ∀ i < n - TAPS, out[spot TAPS stride i]? = if code (place G r diff i) < 0 ∨ n < code (place G r diff i) + TAPS then output[spot TAPS stride i]?
        else some (around r.lpf TAPS OVER (place G r diff i) fun s => input.getD (s * stride) 0) := by
  have hn : n ≤ 2147483647 := (Nat.le_mul_of_pos_right n hs).trans h32
  have ht := R.most
  have ht1 := R.taps
  have inj : ∀ i j, spot TAPS stride i = spot TAPS stride j → i = j := fun i j h => by
    have := Nat.eq_of_mul_eq_mul_right hs h
    omega
  obtain ⟨out, e, hl, h1, h2⟩ := foldlM_inv (fun m (out : List (Ieee F)) => out.length = output.length ∧ (∀ p, (∀ i < m, p ≠ spot TAPS stride i) → out[p]? = output[p]?) ∧
      ∀ i < m, out[spot TAPS stride i]? = if code (place G r diff i) < 0 ∨ n < code (place G r diff i) + TAPS then output[spot TAPS stride i]?
        else some (around r.lpf TAPS OVER (place G r diff i) fun s => input.getD (s * stride) 0))
    (r.body TAPS OVER input n stride (r.ratio G diff)) (n - TAPS) output ⟨rfl, fun _ _ => rfl, by omega⟩ (by
    rintro i hin out ⟨hl, h1, h2⟩
    obtain ⟨gx, hx⟩ := place_ok (n := n) E hG hn hr hm i (by omega)
    have a1 : int32 (code (place G r diff i)) = .ok (code (place G r diff i)) := int32_fits (by rw [abs_le] at hx; omega)
    have a2 : int32 (code (place G r diff i) + TAPS) = .ok (code (place G r diff i) + TAPS) := int32_fits (by rw [abs_le] at hx; omega)
    have eb : r.body TAPS OVER input n stride (r.ratio G diff) out i = (if code (place G r diff i) < 0 ∨ code (place G r diff i) + TAPS > n then .ok out else do
        let sum ← r.sum TAPS OVER input stride (code (place G r diff i)) (place G r diff i)
        let i ← int32 ((i + ((TAPS - 1) / 2 : ℕ)) * stride)
        wr out i sum) := by
      simp only [body]
      rw [show ((i : ℤ) : Ieee G) * r.ratio G diff = place G r diff i from rfl]
      simp only [a1, a2, bind, Except.bind, pure, Except.pure]
    rw [eb]
    by_cases c : code (place G r diff i) < 0 ∨ code (place G r diff i) + TAPS > n
    · rw [if_pos c]
      refine ⟨out, rfl, hl, fun p hp => h1 p fun j hj => hp j (by omega), fun j hj => ?_⟩
      by_cases ej : j = i
      · subst ej
        rw [if_pos c]
        exact h1 _ fun k hk h => by have := inj _ _ h; omega
      · exact h2 j (by omega)
    · rw [if_neg c]
      have c' := not_or.mp c
      have hpos : spot TAPS stride i ≤ (n - 1) * stride := Nat.mul_le_mul_right _ (by omega)
      have hpos' : (n - 1) * stride ≤ n * stride := Nat.mul_le_mul_right _ (by omega)
      have a3 : (((i : ℕ) : ℤ) + ((TAPS - 1) / 2 : ℕ)) * (stride : ℤ) = ((spot TAPS stride i : ℕ) : ℤ) := by
        unfold spot
        push_cast
        rfl
      have a4 : int32 ((spot TAPS stride i : ℕ) : ℤ) = .ok ((spot TAPS stride i : ℕ) : ℤ) := int32_fits (by constructor <;> omega)
      rw [sum_ok D E hG r R input n stride h32 hi _ gx (by omega) (by omega) hx, a3]
      simp only [a4, bind, Except.bind]
      rw [wr_nat (by omega)]
      refine ⟨_, rfl, by simpa using hl, fun p hp => ?_, fun j hj => ?_⟩
      · rw [List.getElem?_set_ne (hp i (by omega)).symm]
        exact h1 p fun j hj => hp j (by omega)
      · by_cases ej : j = i
        · subst ej
          rw [if_neg c, List.getElem?_set_self (by omega)]
        · rw [List.getElem?_set_ne fun h => ej (inj _ _ h.symm)]
          exact h2 j (by omega))
  refine ⟨out, ?_, hl, h1, h2⟩
  have a : int32 ((n : ℤ) - TAPS) = .ok ((n : ℤ) - TAPS) := int32_fits (by constructor <;> omega)
  simp only [call, a, bind, Except.bind]
  rw [show ((n : ℤ) - TAPS).toNat = n - TAPS by omega]
  exact e

/-- **C140** An output is infinite or NaN if one of the `TAPS` samples around its place is. All others depend only on the samples around their places, so they are the same in every bit for inputs that differ elsewhere. -/
theorem C140_local {TAPS OVER : ℕ} (r : Machine F) (R : Ready r.lpf TAPS OVER) (output input input' : List (Ieee F)) (diff : Ieee F) (n stride : ℕ) (hs : 1 ≤ stride) (h32 : n * stride ≤ 2147483647)
    (hi : (n - 1) * stride < input.length) (hi' : (n - 1) * stride < input'.length) (ho : (n - 1) * stride < output.length) (hr : (r.ratio G diff).Finite)
    (hm : (n : ℝ) * |((r.ratio G diff).val : ℝ)| ≤ 2 ^ 30) :
    ∃ out out', call G r TAPS OVER output input diff n stride = .ok out ∧ call G r TAPS OVER output input' diff n stride = .ok out' ∧
      ∀ i < n - TAPS, (∀ s : ℕ, code (place G r diff i) ≤ s → s < code (place G r diff i) + TAPS → input[s * stride]? = input'[s * stride]?) → out[spot TAPS stride i]? = out'[spot TAPS stride i]? ∧
      (∀ s : ℕ, 0 ≤ code (place G r diff i) → code (place G r diff i) + TAPS ≤ n → code (place G r diff i) ≤ s → s < code (place G r diff i) + TAPS → ∀ v, input[s * stride]? = some v → ¬v.Finite →
        ∃ w, out[spot TAPS stride i]? = some w ∧ ¬w.Finite) := by
  obtain ⟨out, e, -, -, h⟩ := C140_block D E hG r R output input diff n stride hs h32 hi ho hr hm
  obtain ⟨out', e', -, -, h'⟩ := C140_block D E hG r R output input' diff n stride hs h32 hi' ho hr hm
  refine ⟨out, out', e, e', fun i hin hx => ⟨?_, fun s h0 h1 h2 h3 v hv hb => ?_⟩⟩
  · rw [h i hin, h' i hin]
    split_ifs with c
    · rfl
    · have c' := not_or.mp c
      congr 1
      refine total_same _ TAPS fun j hj => ?_
      simp only [List.getD_eq_getElem?_getD]
      rw [hx _ (by omega) (by omega)]
  · rw [h i hin, if_neg (by omega)]
    refine ⟨_, rfl, total_bad _ _ TAPS (s - (code (place G r diff i)).toNat) (by omega) ?_⟩
    simp only [List.getD_eq_getElem?_getD]
    rw [show (code (place G r diff i)).toNat + (s - (code (place G r diff i)).toNat) = s by omega, hv]
    exact hb

/-- **C140** With an infinite difference of the rates and a finite rate, all outputs are the same: they all are taken from the start of the input. -/
theorem C140_stuck {TAPS OVER : ℕ} (r : Machine F) (R : Ready r.lpf TAPS OVER) (output input : List (Ieee F)) (s : Bool) (n stride : ℕ) (hs : 1 ≤ stride) (h32 : n * stride ≤ 2147483647)
    (hi : (n - 1) * stride < input.length) (ho : (n - 1) * stride < output.length) (hr : r.rate.Finite) :
    ∃ out v, call G r TAPS OVER output input (inf s) n stride = .ok out ∧ ∀ i < n - TAPS, out[spot TAPS stride i]? = some v := by
  obtain ⟨t, m, e⟩ := (finite_iff r.rate).mp hr
  have er : r.ratio G (inf s) = num (t ^^ s) 0 := by
    unfold ratio
    rw [e]
    exact FMDRounded.pack_zero _
  have ep : ∀ i < n, place G r (inf s) i = num (t ^^ s) 0 := fun i hin => by
    have hn : n ≤ 2147483647 := (Nat.le_mul_of_pos_right n hs).trans h32
    unfold place
    obtain ⟨gi, vi⟩ := whole (G := G) E hG (i : ℤ) (by rw [abs_lt]; omega)
    rw [er]
    have hd : ((i : ℤ) : Ieee G) = pack false (i : ℤ) := by
      show pack (decide ((i : ℤ) < 0)) _ = _
      rw [decide_eq_false (by omega)]
    have hf := gi.1
    rw [hd, pack_finite] at hf
    rw [hd, pack_num _ _ hf]
    show pack _ _ = _
    rw [mul_zero, FMDRounded.pack_zero, Bool.false_xor]
  obtain ⟨out, e', -, -, h⟩ := C140_block D E hG r R output input (inf s) n stride hs h32 hi ho (by rw [er]; trivial) (by
    rw [er]
    show _ * |((signed (t ^^ s) 0 : ℚ) : ℝ)| ≤ _
    rw [signed_zero]
    norm_num)
  refine ⟨out, around r.lpf TAPS OVER (num (t ^^ s) 0 : Ieee G) fun s => input.getD (s * stride) 0, e', fun i hin => ?_⟩
  · have c : code (num (t ^^ s) 0 : Ieee G) = 0 := by
      show Binary.nearest (signed _ 0) = 0
      rw [signed_zero]
      exact Binary.nearest_int 0
    rw [h i hin, ep i (by omega), c, if_neg (by omega)]

end

/-- **C140** If the ratio is infinite or NaN then the first output is undefined already. -/
theorem C140_undefined {TAPS OVER : ℕ} (r : Machine F) (output input : List (Ieee F)) (diff : Ieee F) (samples stride : ℤ) (hs : TAPS < samples) (h : ¬(r.ratio G diff).Finite) :
    ∃ e, call G r TAPS OVER output input diff samples stride = .error e := by
  cases a : int32 (samples - TAPS) with
  | error e => exact ⟨e, by simp only [call, a, bind, Except.bind]⟩
  | ok m =>
    have hm : m = samples - TAPS := by
      unfold int32 at a
      split_ifs at a
      exact (Except.ok.inj a).symm
    obtain ⟨k, hk⟩ : ∃ k, m.toNat = k + 1 := ⟨m.toNat - 1, by omega⟩
    have b : r.body TAPS OVER input samples stride (r.ratio G diff) output 0 = .error .overflow := by
      simp only [body, code_bad _ (mul_bad_right _ _ h), bind, Except.bind]
    refine ⟨.overflow, ?_⟩
    simp only [call, a, bind, Except.bind]
    rw [hk, List.range_succ_eq_map, List.foldlM_cons, b]
    rfl

/-- **C140** So it is if the difference is minus the rate, is NaN, or the rate is infinite or NaN. -/
theorem C140_division {TAPS OVER : ℕ} (r : Machine F) (output input : List (Ieee F)) (diff : Ieee F) (samples stride : ℤ) (hs : TAPS < samples) (h : diff = -r.rate ∨ diff = nan ∨ ¬r.rate.Finite) :
    ∃ e, call G r TAPS OVER output input diff samples stride = .error e := by
  refine C140_undefined r output input diff samples stride hs ?_
  have nf : ∀ a : Ieee F, ¬a.Finite → ¬(convert G a).Finite := fun a ha => by
    cases a with
    | nan => exact id
    | inf s => exact id
    | num s m => exact absurd trivial ha
  apply nf
  by_cases c : r.rate.Finite
  · obtain ⟨s, m, e⟩ := (finite_iff r.rate).mp c
    rcases h with rfl | rfl | h
    · rw [e]
      have z : (num s m : Ieee F) + -num s m = num false 0 := by
        show (num s m : Ieee F) + num (!s) m = _
        rw [add_num, if_pos (by cases s <;> simp [signed])]
        cases s <;> rfl
      rw [z]
      show ¬Ieee.Finite (if (0 : ℚ) = 0 then (if m = 0 then nan else inf (s ^^ false)) else _)
      rw [if_pos rfl]
      split_ifs <;> exact id
    · rw [e]
      exact id
    · exact absurd c h
  · exact div_bad _ _ c

/-- The simplest filter, that is one everywhere, of two taps in single precision. -/
def flat (rate : Ieee .single) : Machine .single := ⟨⟨[1], [0], [0], [0], 0, 1⟩, rate⟩

/-- A NaN among the samples, and no difference of the rates. -/
example : ∃ out, call .double (flat 1) 2 1 [0, 0, 0, 0, 0] [1, nan, 1, 1, 1] 0 5 1 = .ok out ∧ out.length = 5 := by
  have er : (flat 1).ratio .double 0 = 1 := by decide +kernel
  have v1 : ((1 : Ieee .double).val : ℝ) = 1 := (FMDRounded.good_one (NCO.usual_of_wide UnitCircle.deep_double.wide)).2
  obtain ⟨out, e, hl, -⟩ := C140_block UnitCircle.deep_single UnitCircle.deep_double (by decide) (flat 1) (Resampler2.Machine.flat_ready 1) [0, 0, 0, 0, 0] [1, nan, 1, 1, 1] 0 5 1 le_rfl (by norm_num) (by norm_num) (by norm_num)
    (by rw [er]; decide +kernel) (by rw [er, v1]; norm_num)
  exact ⟨out, e, hl⟩

/-- An infinite difference. -/
example : ∃ out v, call .double (flat 1) 2 1 [0, 0, 0, 0, 0] [1, nan, 1, 1, 1] (inf true) 5 1 = .ok out ∧ ∀ i < 5 - 2, out[spot 2 1 i]? = some v :=
  C140_stuck UnitCircle.deep_single UnitCircle.deep_double (by decide) (flat 1) (Resampler2.Machine.flat_ready 1) [0, 0, 0, 0, 0] [1, nan, 1, 1, 1] true 5 1 le_rfl (by norm_num) (by norm_num) (by norm_num)
    (by show (1 : Ieee .single).Finite; decide +kernel)

/-- A difference of minus the rate. -/
example : ∃ e, call .double (flat 1) 2 1 [0, 0, 0, 0, 0] [1, 1, 1, 1, 1] (-1) 5 1 = .error e := C140_division _ _ _ _ _ _ (by norm_num) (.inl rfl)

end DSP.Resampler.Machine
