import Verif.Props.FMDBridge
import Verif.Props.AMDError
import Verif.Props.DecibelSpecial

/-!
# C132: the amplitude demodulator is as accurate in IEEE arithmetic as without limits of the exponent
-/

namespace DSP

open Ieee Spec FFT Bridge

namespace FMDRounded

variable {F : Format} [NeZero F.p]

/-- The same number, which is zero or between two powers of two in magnitude. -/
structure Boxed (g H : ℤ) (a : Ieee F) (b : Binary F.p) : Prop where
  same : Same a b
  low : b.val = 0 ∨ 2 ^ g ≤ |b.val|
  high : |b.val| ≤ 2 ^ H

omit [NeZero F.p] in
theorem Boxed.weaken {g g' H H' : ℤ} {a : Ieee F} {b : Binary F.p} (h : Boxed g H a b) (hg : g' ≤ g) (hH : H ≤ H') : Boxed g' H' a b :=
  ⟨h.same, h.low.imp_right fun c => (zpow_le_zpow_right₀ (by norm_num) hg).trans c, h.high.trans (zpow_le_zpow_right₀ (by norm_num) hH)⟩

omit [NeZero F.p] in
theorem Boxed.sized {g H : ℤ} {a : Ieee F} {b : Binary F.p} (h : Boxed g H a b) : Sized g a b := ⟨h.same.agree, h.low⟩

omit [NeZero F.p] in
theorem round_high (hp : 0 < F.p) {x : ℚ} {H : ℤ} (h : |x| ≤ 2 ^ H) (h1 : F.emin ≤ H) : |roundTo F x| ≤ 2 ^ H := by
  rw [roundTo_abs hp]
  exact roundTo_le hp _ _ (Range.fits_pow hp _ h1) h

theorem Boxed.mul {g g' H H' : ℤ} {a b : Ieee F} {a' b' : Binary F.p} (h1 : Boxed g H a a') (h2 : Boxed g' H' b b') (hp : 2 ≤ F.p) (hg : F.emin + F.p - 1 ≤ g + g') (he : F.emin ≤ H + H') (hH : H + H' < F.emax) :
    Boxed (g + g') (H + H') (a * b) (a' * b') := by
  have hp0 : 0 < F.p := by omega
  have S := h1.sized.mul h2.sized hp hg
  have hx : |a.val * b.val| ≤ 2 ^ (H + H') := by
    rw [h1.same.2.2, h2.same.2.2, abs_mul, zpow_add₀ (by norm_num)]
    exact mul_le_mul h1.high h2.high (abs_nonneg _) (by positivity)
  have hr := round_high hp0 hx he
  have hf := (mul_finite a b h1.same.1 h2.same.1).mpr (lt_of_le_of_lt hr (zpow_lt_zpow_right₀ (by norm_num) hH))
  have s := S.1 hf
  refine ⟨s, S.2, ?_⟩
  rw [← s.2.2, mul_val hp0 a b h1.same.1 h2.same.1 h1.same.2.1 h2.same.2.1 hf]
  exact hr

theorem Boxed.div {g g' H H' : ℤ} {a b : Ieee F} {a' b' : Binary F.p} (h1 : Boxed g H a a') (h2 : Boxed g' H' b b') (h0 : 0 < b'.val) (hp : 2 ≤ F.p) (hg : F.emin + F.p - 1 ≤ g - H') (he : F.emin ≤ H - g') (hH : H - g' < F.emax) :
    Boxed (g - H') (H - g') (a / b) (a' / b') := by
  have hp0 : 0 < F.p := by omega
  have S := h1.sized.div h2.same h0 ((le_abs_self _).trans h2.high) hp hg
  have lb : (2 : ℚ) ^ g' ≤ b'.val := by
    have := h2.low.resolve_left h0.ne'
    rwa [abs_of_pos h0] at this
  have hx : |a.val / b.val| ≤ 2 ^ (H - g') := by
    rw [h1.same.2.2, h2.same.2.2, abs_div, abs_of_pos h0, zpow_sub₀ (by norm_num)]
    exact div_le_div₀ (by positivity) h1.high (by positivity) lb
  have hr := round_high hp0 hx he
  have hb : b.val ≠ 0 := by rw [h2.same.2.2]; exact h0.ne'
  have hf := (div_finite a b h1.same.1 h2.same.1 hb).mpr (lt_of_le_of_lt hr (zpow_lt_zpow_right₀ (by norm_num) hH))
  have s := S.1 hf
  refine ⟨s, S.2, ?_⟩
  rw [← s.2.2, div_val hp0 a b h1.same.1 h2.same.1 h1.same.2.1 h2.same.2.1 hf hb]
  exact hr

/-- A number of `p` bits is a multiple of its last place. -/
theorem Boxed.multiple {g H : ℤ} {a : Ieee F} {b : Binary F.p} (h : Boxed g H a b) : ∃ n : ℤ, b.val = n * 2 ^ (g - F.p + 1) := by
  rcases h.low with c | c
  · exact ⟨0, by rw [c]; simp⟩
  · rw [← Binary.round_self b, Binary.round_eq]
    refine Binary.multiple_down _ _ _ ?_ ⟨_, rfl⟩
    have hb : 0 < |b.val| := lt_of_lt_of_le (by positivity) c
    have := (Int.zpow_le_iff_le_log (b := 2) (by norm_num) hb).mp (by exact_mod_cast c)
    omega

theorem Boxed.tied {g H : ℤ} {a : Ieee F} {b : Binary F.p} (h : Boxed g H a b) : Tied (g - F.p + 1) a b := ⟨h.same.agree, h.multiple⟩

theorem Boxed.add {g H : ℤ} {a b : Ieee F} {a' b' : Binary F.p} (h1 : Boxed g H a a') (h2 : Boxed g H b b') (hp : 2 ≤ F.p) (he : F.emin ≤ H + 1) (hH : H + 1 < F.emax) : Boxed (g - F.p + 1) (H + 1) (a + b) (a' + b') := by
  have hp0 : 0 < F.p := by omega
  have S := (h1.tied.add h2.tied).sized
  have e : (2 : ℚ) ^ (H + 1) = 2 ^ H + 2 ^ H := by rw [zpow_add₀ (by norm_num)]; norm_num; ring
  have hx : |a.val + b.val| ≤ 2 ^ (H + 1) := by
    rw [h1.same.2.2, h2.same.2.2, e]
    exact (abs_add_le _ _).trans (add_le_add h1.high h2.high)
  have hr := round_high hp0 hx he
  have hf := (add_finite a b h1.same.1 h2.same.1).mpr (lt_of_le_of_lt hr (zpow_lt_zpow_right₀ (by norm_num) hH))
  have s := S.1 hf
  refine ⟨s, S.2, ?_⟩
  rw [← s.2.2, add_val hp0 a b h1.same.1 h2.same.1 hf]
  exact hr

omit [NeZero F.p] in
theorem Boxed.neg {g H : ℤ} {a : Ieee F} {b : Binary F.p} (h : Boxed g H a b) : Boxed g H (-a) (-b) := by
  refine ⟨⟨neg_finite _ h.same.1, neg_valid _ h.same.2.1, by rw [neg_val, h.same.2.2]; rfl⟩, ?_, ?_⟩
  · show -b.val = 0 ∨ 2 ^ g ≤ |-b.val|
    rw [neg_eq_zero, abs_neg]; exact h.low
  · show |-b.val| ≤ _
    rw [abs_neg]; exact h.high

theorem Boxed.sub {g H : ℤ} {a b : Ieee F} {a' b' : Binary F.p} (h1 : Boxed g H a a') (h2 : Boxed g H b b') (hp : 2 ≤ F.p) (he : F.emin ≤ H + 1) (hH : H + 1 < F.emax) : Boxed (g - F.p + 1) (H + 1) (a - b) (a' - b') := by
  have h := h1.add h2.neg hp he hH
  have e : a' - b' = a' + -b' := Binary.eq_of_val (by show Binary.round _ _ = Binary.round _ _; rw [sub_eq_add_neg]; rfl)
  rw [e]
  exact h

theorem boxed_one (U : Silence.Usual F) {g H : ℤ} (hg : g ≤ 0) (hH : 0 ≤ H) : Boxed (F := F) g H 1 1 := by
  have e : (1 : Binary F.p).val = 1 := Binary.val_one
  refine ⟨same_one U, .inr ?_, ?_⟩
  · rw [e, abs_one]; exact zpow_le_one_of_nonpos₀ (by norm_num) hg
  · rw [e, abs_one]; exact one_le_zpow₀ (by norm_num) hH

/-! ### The size of a sample -/

theorem root_zero {n : Ieee F} (h1 : n.Finite) (h2 : n.Valid) (h0 : n.val = 0) {n' : Binary F.p} (h0' : n'.val = 0) : Same (Ieee.sqrt n) (Binary.sqrt n') ∧ (Binary.sqrt n').val = 0 := by
  have e : (Binary.sqrt n').val = 0 := by
    have h := Binary.roundReal_error F.p √(n'.val : ℝ)
    rw [h0', Rat.cast_zero, Real.sqrt_zero, sub_zero, abs_zero, zero_div] at h
    have := abs_nonpos_iff.mp h
    show Binary.roundReal F.p √(n'.val : ℝ) = 0
    rw [h0', Rat.cast_zero, Real.sqrt_zero]
    exact_mod_cast this
  obtain ⟨s, m, rfl⟩ := (finite_iff n).mp h1
  have hm : m = 0 := by
    cases s
    · exact h0
    · exact neg_eq_zero.mp h0
  subst hm
  have es : Ieee.sqrt (Ieee.num s 0 : Ieee F) = Ieee.num s 0 := by
    simp [Ieee.sqrt]
  rw [es]
  exact ⟨⟨h1, h2, by rw [e]; exact h0⟩, e⟩

theorem root_bounds (hp : 2 ≤ F.p) {n' : Binary F.p} {g h : ℤ} (h1 : 2 ^ (2 * g) ≤ n'.val) (h2 : n'.val ≤ 2 ^ (2 * h)) : 2 ^ (g - 1) ≤ (Binary.sqrt n').val ∧ (Binary.sqrt n').val ≤ 2 ^ (h + 1) := by
  have e := Binary.roundReal_error F.p √(n'.val : ℝ)
  have h1' : ((2 : ℝ) ^ g) ^ 2 ≤ (n'.val : ℝ) := by
    have := (Rat.cast_le (K := ℝ)).mpr h1
    push_cast at this
    rwa [← zpow_natCast, ← zpow_mul, mul_comm]
  have h2' : (n'.val : ℝ) ≤ ((2 : ℝ) ^ h) ^ 2 := by
    have := (Rat.cast_le (K := ℝ)).mpr h2
    push_cast at this
    rwa [← zpow_natCast, ← zpow_mul, mul_comm]
  have r1 := Real.le_sqrt_of_sq_le h1'
  have r2 : √(n'.val : ℝ) ≤ 2 ^ h := Real.sqrt_le_iff.mpr ⟨by positivity, h2'⟩
  have hu : (1 : ℝ) / 2 ^ F.p ≤ 1 / 2 := one_div_le_one_div_of_le (by norm_num) (le_self_pow₀ (by norm_num) (by omega))
  rw [abs_of_nonneg (Real.sqrt_nonneg _), div_eq_mul_one_div] at e
  have e' : |((Binary.sqrt n').val : ℝ) - √(n'.val : ℝ)| ≤ √(n'.val : ℝ) * (1 / 2) := e.trans (mul_le_mul_of_nonneg_left hu (Real.sqrt_nonneg _))
  obtain ⟨e1, e2⟩ := abs_le.mp e'
  have k1 : (2 : ℝ) ^ (g - 1) = 2 ^ g * (1 / 2) := by rw [zpow_sub₀ (by norm_num)]; norm_num; ring
  have k2 : (2 : ℝ) ^ (h + 1) = 2 ^ h * 2 := by rw [zpow_add₀ (by norm_num)]; norm_num
  have g0 : (0 : ℝ) < 2 ^ g := by positivity
  have g1 : (0 : ℝ) < 2 ^ h := by positivity
  constructor
  · have : (((2 : ℚ) ^ (g - 1) : ℚ) : ℝ) ≤ ((Binary.sqrt n').val : ℝ) := by push_cast; rw [k1]; linarith
    exact Rat.cast_le.mp this
  · have : ((Binary.sqrt n').val : ℝ) ≤ (((2 : ℚ) ^ (h + 1) : ℚ) : ℝ) := by push_cast; rw [k2]; linarith
    exact Rat.cast_le.mp this

end FMDRounded

/-- A sample, possibly zero, with parts that are multiples of `2^g` and at most `2^h`. -/
structure Spec.Grid {F : Format} (g h : ℤ) (z : Cplx (Ieee F)) : Prop where
  below : Below h z
  re : ∃ n : ℤ, z.re.val = n * 2 ^ g
  im : ∃ n : ℤ, z.im.val = n * 2 ^ g

namespace FMDRounded

variable {F : Format} [NeZero F.p]

/-- The amplitude is the same number. -/
theorem amp_boxed (W : Elementary.AtanIeee.Wide F) {g h : ℤ} {z : Cplx (Ieee F)} (hz : Grid g h z) (h1 : F.emin ≤ 2 * h) (h2 : 2 * h + 2 ≤ F.emax) (hg : F.emin + F.p - 1 ≤ 2 * g) :
    Boxed (g - 1) (h + 2) (z.abs Ieee.sqrt) ((frees z).abs Binary.sqrt) ∧ 0 ≤ ((frees z).abs Binary.sqrt).val := by
  have hp := W.p
  by_cases c : z.re.val ≠ 0 ∨ z.im.val ≠ 0
  · have hs : Steps g h z := ⟨hz.below, hz.re, hz.im, c⟩
    obtain ⟨S, n0, n1⟩ := hs.norm (by omega) h1 h2 hg
    obtain ⟨S', s0⟩ := Elementary.DecibelIeee.same_sqrt W (a := z.norm) (b := (frees z).norm) S n0
    have nl : (2 : ℚ) ^ (2 * g) ≤ (frees z).norm.val := by
      obtain ⟨t1, t2⟩ := hs.tied
      have t3 := (t1.mul t1 (by omega)).add (t2.mul t2 (by omega))
      have := (multiple_size t3.2).resolve_left n0.ne'
      rw [show g + g = 2 * g by ring] at this
      exact this.trans (le_of_eq (abs_of_pos n0))
    obtain ⟨b1, b2⟩ := root_bounds (by omega) nl (n1.trans (zpow_le_zpow_right₀ (by norm_num) (by omega : 2 * h + 1 ≤ 2 * (h + 1))))
    refine ⟨⟨S', .inr ?_, ?_⟩, s0.le⟩
    · show _ ≤ |(Binary.sqrt (frees z).norm).val|
      rw [abs_of_pos s0]; exact b1
    · show |(Binary.sqrt (frees z).norm).val| ≤ _
      rw [abs_of_pos s0, show h + 2 = h + 1 + 1 by ring]; exact b2
  · push Not at c
    have e1 : (free z.re).val = 0 := by rw [free_val hz.below.1.2.1, c.1]
    have e2 : (free z.im).val = 0 := by rw [free_val hz.below.2.2.1, c.2]
    have e' : (frees z).norm.val = 0 := by
      show Binary.round _ (Binary.round _ ((free z.re).val * (free z.re).val) + Binary.round _ ((free z.im).val * (free z.im).val)) = 0
      rw [e1, e2, mul_zero, Binary.round_zero, add_zero, Binary.round_zero]
    have hw := (two_within (by omega) hz.below.1 hz.below.1 hz.below.2 hz.below.2 h1 h2).1
    have t1 : Tied g z.re (free z.re) := ⟨(free_same hz.below.1.1 hz.below.1.2.1).agree, by rw [free_val hz.below.1.2.1]; exact hz.re⟩
    have t2 : Tied g z.im (free z.im) := ⟨(free_same hz.below.2.1 hz.below.2.2.1).agree, by rw [free_val hz.below.2.2.1]; exact hz.im⟩
    have S : Same z.norm (frees z).norm := ((t1.mul t1 (by omega)).add (t2.mul t2 (by omega))).1 hw.1
    obtain ⟨S', s0⟩ := root_zero S.1 S.2.1 (by rw [S.2.2]; exact e') e'
    refine ⟨⟨S', .inl s0, ?_⟩, s0.ge⟩
    show |(Binary.sqrt (frees z).norm).val| ≤ _
    rw [s0, abs_zero]; positivity

omit [NeZero F.p] in
theorem max_same {a b : Ieee F} {a' b' : Binary F.p} (ha : Same a a') (hb : Same b b') : Same (stdMax a b) (max a' b') := by
  unfold stdMax
  have n : a < b ↔ a' < b' := by rw [lt_val ha.1 hb.1, ha.2.2, hb.2.2, Rat.cast_lt]; rfl
  by_cases c : a < b
  · rw [if_pos c, max_eq_right (n.mp c).le]; exact hb
  · rw [if_neg c, max_eq_left (not_lt.mp (mt n.mpr c))]; exact ha

omit [NeZero F.p] in
theorem min_same {a b : Ieee F} {a' b' : Binary F.p} (ha : Same a a') (hb : Same b b') : Same (stdMin a b) (min a' b') := by
  unfold stdMin
  have n : b < a ↔ b' < a' := by rw [lt_val hb.1 ha.1, ha.2.2, hb.2.2, Rat.cast_lt]; rfl
  by_cases c : b < a
  · rw [if_pos c, min_eq_right (n.mp c).le]; exact hb
  · rw [if_neg c, min_eq_left (not_lt.mp (mt n.mpr c))]; exact ha

theorem free_boxed {g H : ℤ} {a : Ieee F} (ha : GoodIeee a) (h1 : a.val = 0 ∨ 2 ^ g ≤ a.val) (h2 : a.val ≤ 2 ^ H) : Boxed g H a (free a) := by
  have e := free_val ha.2
  have h0 : 0 ≤ a.val := h1.elim (fun h => h.ge) (le_trans (by positivity))
  exact ⟨free_same ha.1 ha.2, by rw [e, abs_of_nonneg h0]; exact h1, by rw [e, abs_of_nonneg h0]; exact h2⟩

end FMDRounded

/-- What the gain control is used with: weights, limits and index that are not too small or large, and a level that is zero at first. -/
structure Spec.Gains {F : Format} (A : ℤ) (f : AMDRounded (Ieee F)) : Prop where
  att : GoodIeee f.att ∧ 2 ^ (-A) ≤ f.att.val ∧ f.att.val ≤ 1
  dec : GoodIeee f.dec ∧ 2 ^ (-A) ≤ f.dec.val ∧ f.dec.val ≤ 1
  lo : GoodIeee f.lo ∧ 2 ^ (-A) ≤ f.lo.val
  le : f.lo.val ≤ f.hi.val
  hi : GoodIeee f.hi ∧ f.hi.val ≤ 2 ^ A
  idx : GoodIeee f.idx ∧ 2 ^ (-A) ≤ f.idx.val ∧ f.idx.val ≤ 2 ^ A
  avg : GoodIeee f.avg ∧ (f.avg.val = 0 ∨ 2 ^ (-A) ≤ f.avg.val) ∧ f.avg.val ≤ 2 ^ A

namespace AMDRounded

open FMDRounded

variable {F : Format}

/-- The same settings, for the exact demodulator. -/
noncomputable def ideal (f : AMDRounded (Ieee F)) : AMD := ⟨f.avg.val, f.att.val, f.dec.val, f.lo.val, f.hi.val, f.idx.val⟩

variable [NeZero F.p]

/-- The same settings without limits of the exponent. -/
def frees (f : AMDRounded (Ieee F)) : AMDRounded (Binary F.p) := ⟨free f.avg, free f.att, free f.dec, free f.lo, free f.hi, free f.idx⟩

theorem frees_ideal {A : ℤ} {f : AMDRounded (Ieee F)} (h : Gains A f) : exact (frees f) = ideal f := by
  unfold exact frees ideal
  simp only [free_val h.avg.1.2, free_val h.att.1.2, free_val h.dec.1.2, free_val h.lo.1.2, free_val h.hi.1.2, free_val h.idx.1.2]

/-- One call is the same. -/
theorem call_same (W : Elementary.AtanIeee.Wide F) (U : Silence.Usual F) {A : ℤ} (hA : 0 ≤ A) (h1 : F.emin + 2 * F.p + 3 * A ≤ 2) (h2 : 4 * A + 3 ≤ F.emax) {f : AMDRounded (Ieee F)} (hf : Gains A f) {z : Cplx (Ieee F)}
    (hz : Grid (1 - A) (A - 2) z) :
    ∃ l o, call Binary.sqrt (frees f) (FMDRounded.frees z) = .ok ({ frees f with avg := l }, o) ∧ Same (f.callIeee z).2 o ∧ frees (f.callIeee z).1 = { frees f with avg := l } ∧ Gains A (f.callIeee z).1 := by
  have hp := W.p
  have hp2 : 2 ≤ F.p := by omega
  obtain ⟨amp, amp0⟩ := amp_boxed W hz (by omega) (by omega) (by omega)
  rw [show 1 - A - 1 = -A by ring, show A - 2 + 2 = A by ring] at amp
  set a := z.abs Ieee.sqrt with ha
  set a' := (FMDRounded.frees z).abs Binary.sqrt with ha'
  have avg : Boxed (-A) A f.avg (free f.avg) := free_boxed hf.avg.1 hf.avg.2.1 hf.avg.2.2
  have att : Boxed (-A) 0 f.att (free f.att) := free_boxed hf.att.1 (.inr hf.att.2.1) (by rw [zpow_zero]; exact hf.att.2.2)
  have dec : Boxed (-A) 0 f.dec (free f.dec) := free_boxed hf.dec.1 (.inr hf.dec.2.1) (by rw [zpow_zero]; exact hf.dec.2.2)
  have idx : Boxed (-A) A f.idx (free f.idx) := free_boxed hf.idx.1 (.inr hf.idx.2.1) hf.idx.2.2
  have n : a < f.avg ↔ a' < free f.avg := by rw [lt_val amp.same.1 avg.same.1, amp.same.2.2, avg.same.2.2, Rat.cast_lt]; rfl
  have hw : Boxed (-A) 0 (if a < f.avg then f.dec else f.att) (if a' < free f.avg then free f.dec else free f.att) := by
    by_cases c : a < f.avg
    · rw [if_pos c, if_pos (n.mp c)]; exact dec
    · rw [if_neg c, if_neg (mt n.mpr c)]; exact att
  set w := if a < f.avg then f.dec else f.att with hwe
  set w' := if a' < free f.avg then free f.dec else free f.att with hwe'
  have o1 := (boxed_one U (by omega) le_rfl).sub hw hp2 (by omega) (by omega)
  have o2 := o1.mul avg hp2 (by omega) (by omega) (by omega)
  have o3 := hw.mul amp hp2 (by omega) (by omega) (by omega)
  have o4 := (o2.weaken (g' := -2 * A - F.p + 1) (H' := A + 1) (by omega) (by omega)).add (o3.weaken (g' := -2 * A - F.p + 1) (H' := A + 1) (by omega) (by omega)) hp2 (by omega) (by omega)
  have sl := min_same (max_same o4.same (free_same hf.lo.1.1 hf.lo.1.2)) (free_same hf.hi.1.1 hf.hi.1.2)
  set v := stdMin (stdMax ((1 - w) * f.avg + w * a) f.lo) f.hi with hv
  set l := min (max ((1 - w') * free f.avg + w' * a') (free f.lo)) (free f.hi) with hl
  have le : free f.lo ≤ free f.hi := show (free f.lo).val ≤ (free f.hi).val by rw [free_val hf.lo.1.2, free_val hf.hi.1.2]; exact hf.le
  have l1 : f.lo.val ≤ l.val := by
    rw [← free_val hf.lo.1.2]
    exact (le_min (le_max_right _ _) le : free f.lo ≤ l)
  have l2 : l.val ≤ f.hi.val := by
    rw [← free_val hf.hi.1.2]
    exact (min_le_right _ _ : l ≤ free f.hi)
  have lpos : 0 < l.val := lt_of_lt_of_le (lt_of_lt_of_le (by positivity) hf.lo.2) l1
  have bl : Boxed (-A) A v l := ⟨sl, .inr (by rw [abs_of_pos lpos]; exact hf.lo.2.trans l1), by rw [abs_of_pos lpos]; exact l2.trans hf.hi.2⟩
  have q1 := amp.div bl lpos hp2 (by omega) (by omega) (by omega)
  have ipos : 0 < (free f.idx).val := by rw [free_val hf.idx.1.2]; exact lt_of_lt_of_le (by positivity) hf.idx.2.1
  have j := ((boxed_one U (by omega) (by omega)).add idx hp2 (by omega) (by omega))
  have j1 : (1 : ℚ) ≤ (1 + free f.idx).val := by
    show _ ≤ Binary.round F.p ((1 : Binary F.p).val + (free f.idx).val)
    refine Binary.le_round F.p (by omega) _ 1 ?_ (by rw [Binary.val_one]; linarith)
    have := (1 : Binary F.p).representable
    rwa [Binary.val_one] at this
  have j2 : Boxed 0 (A + 1) (1 + f.idx) (1 + free f.idx) := ⟨j.same, .inr (by rw [zpow_zero, abs_of_nonneg (by linarith)]; exact j1), j.high⟩
  have q2 := q1.mul j2 hp2 (by omega) (by omega) (by omega)
  have q3 := q2.sub (boxed_one U (by omega) (by omega)) hp2 (by omega) (by omega)
  have q4 := q3.div idx ipos hp2 (by omega) (by omega) (by omega)
  have lne : (l.val : ℝ) ≠ 0 := by exact_mod_cast lpos.ne'
  have ine : ((free f.idx).val : ℝ) ≠ 0 := by exact_mod_cast ipos.ne'
  refine ⟨l, (a' / l * (1 + free f.idx) - 1) / free f.idx, ?_, q4.same, ?_, ?_⟩
  · have e1 : Fir.Rounded.fdiv a' l = .ok (a' / l) := Fir.fdiv_ok' F.p _ _ lne
    have e2 : Fir.Rounded.fdiv (a' / l * (1 + free f.idx) - 1) (free f.idx) = .ok ((a' / l * (1 + free f.idx) - 1) / free f.idx) := Fir.fdiv_ok' F.p _ _ ine
    unfold call
    show (do
      let amp ← Fir.Rounded.fdiv a' l
      let out ← Fir.Rounded.fdiv (amp * (1 + free f.idx) - 1) (free f.idx)
      return (({ frees f with avg := l } : AMDRounded (Binary F.p)), out)) = _
    rw [e1]
    show (do
      let out ← Fir.Rounded.fdiv (a' / l * (1 + free f.idx) - 1) (free f.idx)
      return (({ frees f with avg := l } : AMDRounded (Binary F.p)), out)) = _
    rw [e2]
    rfl
  · have : free v = l := Binary.eq_of_val (by rw [free_val sl.2.1, sl.2.2])
    show frees { f with avg := v } = _
    rw [← this]
    rfl
  · exact ⟨hf.att, hf.dec, hf.lo, hf.le, hf.hi, hf.idx, ⟨sl.1, sl.2.1⟩, .inr (by show _ ≤ v.val; rw [sl.2.2]; exact hf.lo.2.trans l1), by show v.val ≤ _; rw [sl.2.2]; exact l2.trans hf.hi.2⟩

/-- All calls are the same. -/
theorem run_same (W : Elementary.AtanIeee.Wide F) (U : Silence.Usual F) {A : ℤ} (hA : 0 ≤ A) (h1 : F.emin + 2 * F.p + 3 * A ≤ 2) (h2 : 4 * A + 3 ≤ F.emax) (xs : List (Cplx (Ieee F))) (hx : ∀ z ∈ xs, Grid (1 - A) (A - 2) z)
    (f : AMDRounded (Ieee F)) (hf : Gains A f) :
    ∃ ys, run (call Binary.sqrt) (frees f) (xs.map FMDRounded.frees) = .ok (frees (final callIeee f xs), ys) ∧ List.Forall₂ Same (outputs callIeee f xs) ys ∧ Gains A (final callIeee f xs) := by
  induction xs generalizing f with
  | nil => exact ⟨[], rfl, .nil, hf⟩
  | cons z xs ih =>
    obtain ⟨l, o, e, S, ef, hf'⟩ := call_same W U hA h1 h2 hf (hx z (by simp))
    obtain ⟨ys, r, R, G⟩ := ih (fun w hw => hx w (by simp [hw])) _ hf'
    refine ⟨o :: ys, ?_, .cons S R, G⟩
    rw [List.map_cons]
    simp only [run, e]
    rw [← ef, r]
    rfl

/-- **C132** The amplitude demodulator in IEEE arithmetic: if weights, limits, index and samples are within `2^A` and not below `2^-A`, where the format has room for that (`A = 31` in single precision), then all outputs are finite
and the level and the outputs are as near to those of the exact demodulator as without limits of the exponent. -/
theorem C132_amd (W : Elementary.AtanIeee.Wide F) (U : Silence.Usual F) (A : ℤ) (hA : 0 ≤ A) (h1 : F.emin + 2 * F.p + 3 * A ≤ 2) (h2 : 4 * A + 3 ≤ F.emax) (f : AMDRounded (Ieee F)) (hf : Gains A f) (xs : List (Cplx (Ieee F)))
    (hx : ∀ z ∈ xs, Grid (1 - A) (A - 2) z) (B α : ℝ) (hα : 0 < α) (ha : α ≤ f.att.val) (hd : α ≤ f.dec.val) (hB : (f.hi.val : ℝ) ≤ B) (hfB : (f.avg.val : ℝ) ≤ B) (hxB : ∀ z ∈ xs, ‖FMDRounded.point z‖ ≤ B) :
    ∃ E ys, run AMD.call (ideal f) (xs.map FMDRounded.point) = .ok (E, ys) ∧ (outputs callIeee f xs).length = ys.length ∧
      |((final callIeee f xs).avg.val : ℝ) - E.avg| ≤ 5.1 * (1 / 2 ^ F.p) * B / α ∧
      ∀ (n : ℕ) (y : ℝ) (y' : Ieee F), (outputs callIeee f xs)[n]? = some y' → ys[n]? = some y →
        y'.Finite ∧ |(y'.val : ℝ) - y| ≤ 27 * (1 / 2 ^ F.p) * ((B / f.lo.val) ^ 2 / α) * ((1 + |(f.idx.val : ℝ)|) / |(f.idx.val : ℝ)|) := by
  have hp := W.p
  obtain ⟨ys', r, R, G⟩ := run_same W U hA h1 h2 xs hx f hf
  have va := free_val hf.att.1.2
  have vd := free_val hf.dec.1.2
  have vl := free_val hf.lo.1.2
  have vh := free_val hf.hi.1.2
  have vi := free_val hf.idx.1.2
  have vv := free_val hf.avg.1.2
  have i0 : (0 : ℚ) < f.idx.val := lt_of_lt_of_le (by positivity) hf.idx.2.1
  have l0 : (0 : ℚ) < f.lo.val := lt_of_lt_of_le (by positivity) hf.lo.2
  have v0 : (0 : ℚ) ≤ f.avg.val := hf.avg.2.1.elim (fun h => h.ge) (le_trans (by positivity))
  have epts : (xs.map FMDRounded.frees).map (fun x => x.toComplex fun a => (a.val : ℝ)) = xs.map FMDRounded.point := by
    rw [List.map_map]
    refine List.map_congr_left fun z hz => ?_
    exact frees_num (hx z hz).below.1.2.1 (hx z hz).below.2.2.1
  obtain ⟨f', ys'', E, ys, k1, k2, k3, k4, k5, k6⟩ := C92_amd F.p (by omega) (frees f) (xs.map FMDRounded.frees) B α hα (by show α ≤ ((free f.att).val : ℝ); rw [va]; exact ha) (by show ((free f.att).val : ℝ) ≤ 1; rw [va]; exact_mod_cast hf.att.2.2)
    (by show α ≤ ((free f.dec).val : ℝ); rw [vd]; exact hd) (by show ((free f.dec).val : ℝ) ≤ 1; rw [vd]; exact_mod_cast hf.dec.2.2) (by show (0 : ℝ) < ((free f.lo).val : ℝ); rw [vl]; exact_mod_cast l0)
    (by show ((free f.lo).val : ℝ) ≤ ((free f.hi).val : ℝ); rw [vl, vh]; exact_mod_cast hf.le) (by show ((free f.hi).val : ℝ) ≤ B; rw [vh]; exact hB) (by show ((free f.idx).val : ℝ) ≠ 0; rw [vi]; exact_mod_cast i0.ne')
    (by show (0 : ℝ) ≤ ((free f.avg).val : ℝ); rw [vv]; exact_mod_cast v0) (by show ((free f.avg).val : ℝ) ≤ B; rw [vv]; exact hfB)
    (fun x hx' => by
      obtain ⟨z, hz, rfl⟩ := List.mem_map.mp hx'
      have := frees_num (hx z hz).below.1.2.1 (hx z hz).below.2.2.1
      rw [show (FMDRounded.frees z).toComplex (fun a => (a.val : ℝ)) = FMDRounded.point z from this]
      exact hxB z hz)
  rw [r] at k1
  obtain ⟨rfl, rfl⟩ := Prod.mk.inj (Except.ok.inj k1)
  rw [epts, frees_ideal hf] at k2
  refine ⟨E, ys, k2, by rw [R.length_eq, k4, k5], ?_, fun n y y' e1 e2 => ?_⟩
  · have : ((frees (final callIeee f xs)).avg.val : ℝ) = ((final callIeee f xs).avg.val : ℝ) := by
      show (((free (final callIeee f xs).avg).val : ℚ) : ℝ) = _
      rw [free_val G.avg.1.2]
    rw [this] at k3
    exact k3
  · obtain ⟨o, eo, S⟩ : ∃ o, ys'[n]? = some o ∧ Same y' o := by
      obtain ⟨hn, rfl⟩ := List.getElem?_eq_some_iff.mp e1
      have hn' : n < ys'.length := by rw [← R.length_eq]; exact hn
      exact ⟨ys'[n], List.getElem?_eq_getElem hn', R.get hn hn'⟩
    refine ⟨S.1, ?_⟩
    have k := k6 n y o eo e2
    rw [← S.2.2] at k
    simp only [frees, vl, vi] at k
    exact k

/-! ### The hypotheses can be met -/

example : Format.single.emin + 2 * Format.single.p + 3 * 31 ≤ 2 ∧ 4 * (31 : ℤ) + 3 ≤ Format.single.emax := by decide

example : Grid (1 - 31) (31 - 2) (⟨literal (-3 / 4), literal (12345 / 32768)⟩ : Cplx (Ieee .single)) :=
  ⟨⟨⟨by decide +kernel, pack_valid (by decide) _ _, by decide +kernel⟩, by decide +kernel, pack_valid (by decide) _ _, by decide +kernel⟩, ⟨-805306368, by decide +kernel⟩, ⟨404520960, by decide +kernel⟩⟩

/-- The limits of the constructor and weights as an application sets them. -/
example : Gains 31 (⟨0, literal (1 / 16), literal (1 / 1024), literal (1 / 1000), 1, 1⟩ : AMDRounded (Ieee .single)) :=
  ⟨⟨⟨by decide +kernel, pack_valid (by decide) _ _⟩, by decide +kernel, by decide +kernel⟩, ⟨⟨by decide +kernel, pack_valid (by decide) _ _⟩, by decide +kernel, by decide +kernel⟩, ⟨⟨by decide +kernel, pack_valid (by decide) _ _⟩, by decide +kernel⟩,
    by decide +kernel, ⟨⟨by decide +kernel, pack_valid (by decide) _ _⟩, by decide +kernel⟩, ⟨⟨by decide +kernel, pack_valid (by decide) _ _⟩, by decide +kernel, by decide +kernel⟩, zero_good.1, .inl zero_good.2, by decide +kernel⟩

end AMDRounded
namespace NormalizeRounded

open FMDRounded

variable {F : Format} [NeZero F.p]

/-- **C132** The normaliser in IEEE arithmetic: if the sample behind the DC blocker and the mean square are finite and the latter is positive, the output is the one over the root of twice the other, up to 2.1 units of rounding and
one smallest number. -/
theorem C132_normalize (W : Elementary.AtanIeee.Wide F) (U : Silence.Usual F) (f : NormalizeRounded (Ieee F)) (x : ℕ → Ieee F) (n : ℕ) (ht : GoodIeee (f.blocked x n)) (hv : GoodIeee (f.power x n)) (v0 : 0 < (f.power x n).val)
    (v1 : (f.power x n).val < 2 ^ (F.emax - 1)) (hb : |((f.blocked x n).val : ℝ)| ≤ 2 ^ (F.emax - 1) * √(2 * (f.power x n).val)) :
    let y := stream callIeee f x n
    let r := ((f.blocked x n).val : ℝ) / √(2 * (f.power x n).val)
    y.Finite ∧ |(y.val : ℝ) - r| ≤ 2.1 / 2 ^ F.p * |r| + 2 ^ F.emin := by
  intro y r
  have hp := W.p
  have hp0 : 0 < F.p := by omega
  have hy : y = f.blocked x n / Ieee.sqrt (2 * f.power x n) := stream_eq f x n
  rw [hy]
  clear_value y
  have hr : r = ((f.blocked x n).val : ℝ) / √(2 * (f.power x n).val) := rfl
  clear_value r
  generalize f.blocked x n = t at ht hb hr
  generalize f.power x n = v at hv v0 v1 hb hr
  -- twice the mean square
  have t2 : (2 : Ieee F) = Ieee.num false 2 := two_eq U
  have e2 : (2 : Ieee F).val = 2 := by rw [t2]; rfl
  have f2 : Fits F (2 * v.val) := by
    obtain ⟨⟨m, e, hm, he⟩, k, hk⟩ := valid_fits hv.2
    refine ⟨⟨m, e + 1, hm, ?_⟩, 2 * k, ?_⟩
    · rw [he, zpow_add₀ (by norm_num)]; norm_num; ring
    · rw [hk]; push_cast; ring
  have r2 : roundTo F ((2 : Ieee F).val * v.val) = 2 * v.val := by rw [e2]; exact roundTo_of_fits hp0 _ f2
  have lt2 : 2 * v.val < 2 ^ F.emax := by
    have : (2 : ℚ) ^ F.emax = 2 ^ (F.emax - 1) * 2 := by rw [zpow_sub₀ (by norm_num)]; norm_num
    rw [this]; linarith
  have hf2 : (2 : Ieee F).Finite := by rw [t2]; trivial
  have hv2 : (2 : Ieee F).Valid := by
    rw [t2]
    have h := U.emax
    refine valid_of_fits _ _ (by norm_num) ?_ ?_
    · have := zpow_lt_zpow_right₀ (a := (2 : ℚ)) (by norm_num) (show (1 : ℤ) < F.emax by omega)
      rwa [zpow_one] at this
    · have := Range.fits_pow (F := F) hp0 1 (by have := U.emin; omega)
      rwa [zpow_one] at this
  have fw : (2 * v).Finite := (mul_finite _ _ hf2 hv.1).mpr (by rw [r2, abs_of_pos (by linarith)]; exact lt2)
  have ew : (2 * v).val = 2 * v.val := by rw [mul_val hp0 _ _ hf2 hv.1 hv2 hv.2 fw, r2]
  have vw : (2 * v).Valid := mul_valid hp0 _ _
  obtain ⟨S, s0⟩ := Elementary.DecibelIeee.same_sqrt W (a := 2 * v) (b := free (2 * v)) (free_same fw vw) (by rw [free_val vw, ew]; linarith)
  generalize Ieee.sqrt (2 * v) = q at S
  have eq : |(q.val : ℝ) - √(2 * v.val)| ≤ 1 / 2 ^ F.p * √(2 * v.val) := by
    have h := Binary.roundReal_error F.p √((free (2 * v)).val : ℝ)
    rw [show Binary.roundReal F.p √((free (2 * v)).val : ℝ) = (Binary.sqrt (free (2 * v))).val from rfl, ← S.2.2, free_val vw, ew, abs_of_nonneg (Real.sqrt_nonneg _)] at h
    push_cast at h
    rw [div_eq_mul_one_div, mul_comm √_] at h
    exact h
  have q0 : (0 : ℚ) < q.val := by rw [S.2.2]; exact s0
  have qr : (0 : ℝ) < (q.val : ℝ) := by exact_mod_cast q0
  have hR : (0 : ℝ) < √(2 * v.val) := Real.sqrt_pos.mpr (by have : (0 : ℝ) < (v.val : ℝ) := by exact_mod_cast v0
                                                            linarith)
  generalize √(2 * (v.val : ℝ)) = R at *
  have hu : (1 : ℝ) / 2 ^ F.p ≤ 1 / 1000 := unit_small (by omega)
  have u0 : (0 : ℝ) ≤ 1 / 2 ^ F.p := by positivity
  set u : ℝ := 1 / 2 ^ F.p with hue
  -- the exact quotient of the computed root
  have hz : |(t.val : ℝ) / q.val - r| ≤ 1.002 * u * |r| := by
    have e : (t.val : ℝ) / q.val - r = r * ((R - q.val) / q.val) := by
      rw [hr]; field_simp
    rw [e, abs_mul, abs_div, abs_of_pos qr, abs_sub_comm, mul_comm]
    refine mul_le_mul_of_nonneg_right ?_ (abs_nonneg _)
    rw [div_le_iff₀ qr]
    obtain ⟨a, b⟩ := abs_le.mp eq
    nlinarith
  have hzr : |(t.val : ℝ) / q.val| ≤ 1.002 * |r| := by
    have : |(t.val : ℝ) / q.val| ≤ |(t.val : ℝ) / q.val - r| + |r| := by
      have := abs_add_le ((t.val : ℝ) / q.val - r) r
      rwa [sub_add_cancel] at this
    nlinarith [abs_nonneg r]
  have herr := roundTo_error (F := F) (t.val / q.val)
  have herr' : |((roundTo F (t.val / q.val) : ℚ) : ℝ) - (t.val : ℝ) / q.val| ≤ u * |(t.val : ℝ) / q.val| + 2 ^ F.emin := by
    have h : |roundTo F (t.val / q.val) - t.val / q.val| ≤ |t.val / q.val| / 2 ^ F.p + 2 ^ F.emin :=
      herr.trans (max_le (le_add_of_nonneg_right (by positivity)) (le_trans (by have : (0 : ℚ) < 2 ^ F.emin := by positivity
                                                                                linarith) (le_add_of_nonneg_left (by positivity))))
    have := (Rat.cast_le (K := ℝ)).mpr h
    push_cast at this
    rw [div_eq_mul_one_div |(t.val : ℝ) / q.val|, mul_comm] at this
    exact this
  have hr1 : |r| ≤ 2 ^ (F.emax - 1) := by
    rw [hr, abs_div, abs_of_pos hR, div_le_iff₀ hR]; exact hb
  have e1 : (2 : ℝ) ^ F.emin ≤ 1 := zpow_le_one_of_nonpos₀ (by norm_num) (by have := U.emin; omega)
  have e2' : (16 : ℝ) ≤ 2 ^ (F.emax - 1) := by
    have := zpow_le_zpow_right₀ (a := (2 : ℝ)) (by norm_num) (show (4 : ℤ) ≤ F.emax - 1 by have := W.emax; omega)
    norm_num at this ⊢; exact this
  have hfin : (t / q).Finite := by
    refine (div_finite t q ht.1 S.1 q0.ne').mpr ?_
    have : ((|roundTo F (t.val / q.val)| : ℚ) : ℝ) < (((2 : ℚ) ^ F.emax : ℚ) : ℝ) := by
      push_cast
      have h1 := abs_sub_abs_le_abs_sub ((roundTo F (t.val / q.val) : ℚ) : ℝ) ((t.val : ℝ) / q.val)
      have h2 : (2 : ℝ) ^ F.emax = 2 ^ (F.emax - 1) * 2 := by rw [zpow_sub₀ (by norm_num)]; norm_num
      rw [h2]
      nlinarith [abs_nonneg ((t.val : ℝ) / q.val)]
    exact Rat.cast_lt.mp this
  refine ⟨hfin, ?_⟩
  rw [div_val hp0 t q ht.1 S.1 ht.2 S.2.1 hfin q0.ne']
  have e3 : (2.1 : ℝ) / 2 ^ F.p = 2.1 * u := by rw [hue]; ring
  rw [e3]
  calc |((roundTo F (t.val / q.val) : ℚ) : ℝ) - r| ≤ |((roundTo F (t.val / q.val) : ℚ) : ℝ) - (t.val : ℝ) / q.val| + |(t.val : ℝ) / q.val - r| := abs_sub_le _ _ _
    _ ≤ u * (1.002 * |r|) + 2 ^ F.emin + 1.002 * u * |r| := add_le_add (herr'.trans (add_le_add (mul_le_mul_of_nonneg_left hzr u0) le_rfl)) hz
    _ ≤ 2.1 * u * |r| + 2 ^ F.emin := by nlinarith [mul_nonneg u0 (abs_nonneg r)]

/-- The first output for a sample of one half. -/
example : (stream callIeee ((init (num false (1 / 2)) : NormalizeRounded (Ieee Format.single)).samples 48) (fun _ => num false (1 / 2)) 0).Finite := by
  set f := (init (num false (1 / 2)) : NormalizeRounded (Ieee Format.single)).samples 48 with hf
  have et : f.blocked (fun _ => num false (1 / 2)) 0 = (BlockDC.call f.hpf (num false (1 / 2))).2 := rfl
  have ev : f.power (fun _ => num false (1 / 2)) 0 = (EMA.call f.lpf (f.blocked (fun _ => num false (1 / 2)) 0 * f.blocked (fun _ => num false (1 / 2)) 0)).2 := rfl
  rw [et] at ev
  have T : ((BlockDC.call f.hpf (num false (1 / 2))).2).Finite ∧ |((BlockDC.call f.hpf (num false (1 / 2))).2).val| ≤ 1 := by decide +kernel
  have V : ((EMA.call f.lpf ((BlockDC.call f.hpf (num false (1 / 2))).2 * (BlockDC.call f.hpf (num false (1 / 2))).2)).2).Finite ∧
      1 / 4 ≤ ((EMA.call f.lpf ((BlockDC.call f.hpf (num false (1 / 2))).2 * (BlockDC.call f.hpf (num false (1 / 2))).2)).2).val ∧
      ((EMA.call f.lpf ((BlockDC.call f.hpf (num false (1 / 2))).2 * (BlockDC.call f.hpf (num false (1 / 2))).2)).2).val ≤ 2 := by decide +kernel
  refine (C132_normalize Elementary.AtanIeee.wide_single Silence.usual_single f (fun _ => num false (1 / 2)) 0 ?_ ?_ ?_ ?_ ?_).1
  · rw [et]
    exact ⟨T.1, add_valid (by decide) _ _⟩
  · rw [ev]
    exact ⟨V.1, add_valid (by decide) _ _⟩
  · rw [ev]; linarith [V.2.1]
  · rw [ev]; exact lt_of_le_of_lt V.2.2 (by decide +kernel)
  · rw [et, ev]
    have h1 : (1 / 2 : ℝ) ≤ √(2 * (((EMA.call f.lpf ((BlockDC.call f.hpf (num false (1 / 2))).2 * (BlockDC.call f.hpf (num false (1 / 2))).2)).2).val : ℝ)) := by
      apply Real.le_sqrt_of_sq_le
      have := (Rat.cast_le (K := ℝ)).mpr V.2.1
      push_cast at this
      norm_num at this ⊢
      linarith
    have h2 := (Rat.cast_le (K := ℝ)).mpr T.2
    rw [Rat.cast_abs, Rat.cast_one] at h2
    have h3 : (2 : ℝ) ≤ 2 ^ (Format.single.emax - 1) := by
      have := zpow_le_zpow_right₀ (a := (2 : ℝ)) (by norm_num) (show (1 : ℤ) ≤ Format.single.emax - 1 by decide)
      rwa [zpow_one] at this
    nlinarith

end NormalizeRounded
end DSP
