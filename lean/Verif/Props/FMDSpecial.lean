import Verif.Model.DemodIeee
import Verif.Model.Endless
import Verif.Props.FMDError
import Verif.Props.DemodSpecial
import Verif.Props.FFTSpecial

/-!
# C115: infinities, NaN, silence, overflow and underflow in the frequency demodulators
-/

namespace DSP

open Ieee

/-- What the C standard says about `atan2`, with `P` the largest angle: only NaN gives NaN, also zeros and infinities have angles. -/
structure Spec.ArcTangent {F : Format} (P : ℚ) (atan2 : Ieee F → Ieee F → Ieee F) : Prop where
  left : ∀ x, atan2 nan x = nan
  right : ∀ y, atan2 y nan = nan
  good : ∀ y x, y ≠ nan → x ≠ nan → (atan2 y x).Finite ∧ (atan2 y x).Valid ∧ |(atan2 y x).val| ≤ P

/-- One of the parts is NaN. -/
def Spec.HasNan {F : Format} (z : Cplx (Ieee F)) : Prop := z.re = nan ∨ z.im = nan

/-- Both parts are zeros. -/
def Spec.IsZero {F : Format} (z : Cplx (Ieee F)) : Prop := (∃ s, z.re = num s 0) ∧ ∃ s, z.im = num s 0

/-- Numbers with parts of size at most `2^h`. -/
def Spec.Below {F : Format} (h : ℤ) (z : Cplx (Ieee F)) : Prop := (z.re.Finite ∧ z.re.Valid ∧ |z.re.val| ≤ 2 ^ h) ∧ z.im.Finite ∧ z.im.Valid ∧ |z.im.val| ≤ 2 ^ h

/-- One of the parts has at least the size `2^-k`. -/
def Spec.Above {F : Format} (k : ℤ) (z : Cplx (Ieee F)) : Prop := 2 ^ (-k) ≤ |z.re.val| ∨ 2 ^ (-k) ≤ |z.im.val|

/-- The sample before sample `n`; before the first one it is 1. -/
def Spec.before {F : Format} (x : ℕ → Cplx (Ieee F)) : ℕ → Cplx (Ieee F)
  | 0 => ⟨1, 0⟩
  | n + 1 => x n

/-- A bandwidth between `2^-K` and `2^K`, well inside of the range of the format. -/
structure Spec.Bandwidth {F : Format} (K : ℕ) (bw : Ieee F) : Prop where
  finite : bw.Finite
  valid : bw.Valid
  low : 2 ^ (-(K : ℤ)) ≤ |bw.val|
  high : |bw.val| ≤ 2 ^ (K : ℤ)
  top : K + 4 ≤ F.emax
  bottom : F.emin + F.p + K + 3 ≤ 0

namespace FMDRounded

open Spec FFT

variable {F : Format}

/-! ### The scale -/

/-- Numbers inside of the range have a relative error. -/
theorem round_rel (U : Silence.Usual F) (x : ℚ) (h : |(x : ℝ)| ≤ 2 ^ (F.emax - 1)) (h' : (2 : ℝ) ^ (F.emin + F.p - 1) ≤ |(x : ℝ)|) :
    |roundTo F x| < 2 ^ F.emax ∧ |((roundTo F x : ℚ) : ℝ) - x| ≤ 1 / 2 ^ F.p * |(x : ℝ)| := by
  refine ⟨(round_range U x h).1, ?_⟩
  have e := (Rat.cast_le (K := ℝ)).mpr (roundTo_error (F := F) x)
  push_cast at e
  refine e.trans (max_le (le_of_eq (by ring)) ?_)
  have e2 : (2 : ℝ) ^ F.emin / 2 = 1 / 2 ^ F.p * 2 ^ (F.emin + F.p - 1) := by
    rw [zpow_sub₀ (by norm_num), zpow_add₀ (by norm_num), zpow_natCast, zpow_one]
    field_simp
  rw [e2]
  exact mul_le_mul_of_nonneg_left h' (by positivity)

theorem unit_small (hp : 10 ≤ F.p) : (1 : ℝ) / 2 ^ F.p ≤ 1 / 1000 := by
  have h : (2 : ℝ) ^ 10 ≤ 2 ^ F.p := pow_le_pow_right₀ (by norm_num) hp
  rw [div_le_div_iff₀ (by positivity) (by norm_num)]
  linarith

theorem zpow_pos2 (n : ℤ) : (0 : ℝ) < 2 ^ n := by positivity

theorem zpow_mono2 {m n : ℤ} (h : m ≤ n) : (2 : ℝ) ^ m ≤ 2 ^ n := zpow_le_zpow_right₀ (by norm_num) h

theorem good_one (U : Silence.Usual F) : GoodIeee (1 : Ieee F) ∧ ((1 : Ieee F).val : ℝ) = 1 := by
  have hp : 0 < F.p := by have := U.p; omega
  have h1 : (1 : ℤ) < 2 ^ F.p := by have := U.sixteen; omega
  obtain ⟨a, b, c⟩ := cast_exact (F := F) hp (by have := U.emin; omega) U.emax 1 (by simpa using h1)
  refine ⟨⟨a, b⟩, ?_⟩
  show (((((1 : ℤ) : Ieee F)).val : ℚ) : ℝ) = 1
  rw [c]
  norm_num

/-- The constants survive the format. -/
theorem literal_normal (U : Silence.Usual F) [NeZero F.p] (b : Binary F.p) (h1 : 3 ≤ (b.val : ℝ)) (h2 : (b.val : ℝ) ≤ 7) : GoodIeee (literal b.val : Ieee F) ∧ (literal b.val : Ieee F).val = b.val := by
  have hp : 0 < F.p := by have := U.p; omega
  have u1 := U.emin
  have u2 := U.emax
  have u3 := U.p
  have hb : (0 : ℝ) ≤ b.val := by linarith
  have e8 : (8 : ℝ) ≤ 2 ^ (F.emax - 1) := by
    have := zpow_mono2 (show (3 : ℤ) ≤ F.emax - 1 by omega)
    norm_num at this ⊢; exact this
  have e1 : (2 : ℝ) ^ (F.emin + F.p - 1) ≤ 1 := by
    have := zpow_mono2 (show F.emin + F.p - 1 ≤ 0 by omega)
    rwa [zpow_zero] at this
  have hr := (round_range U b.val (by rw [abs_of_nonneg hb]; linarith)).1
  have er : roundTo F b.val = b.val := by
    rw [roundTo_normal, Binary.round_self]
    have : (((2 : ℚ) ^ (F.emin + F.p - 1) : ℚ) : ℝ) ≤ ((|b.val| : ℚ) : ℝ) := by
      push_cast
      rw [abs_of_nonneg hb]
      linarith
    exact Rat.cast_le.mp this
  have hf : (literal b.val : Ieee F).Finite := (pack_finite _ _).mpr hr
  refine ⟨⟨hf, pack_valid hp _ _⟩, ?_⟩
  show (pack _ _ : Ieee F).val = _
  rw [pack_val hp _ _ hf, signed_decide, er]

theorem pi_good (U : Silence.Usual F) [NeZero F.p] (l : ℕ) (hp : 10 ≤ F.p) (hp' : F.p ≤ 53) (hl : F.p ≤ l) :
    GoodIeee (piIeee l F) ∧ |((piIeee l F).val : ℝ) - Real.pi| ≤ 2.01 / 2 ^ F.p * Real.pi ∧ 3.13 ≤ ((piIeee l F).val : ℝ) ∧ ((piIeee l F).val : ℝ) ≤ 3.15 := by
  have h := pi_error l F.p hp' hl
  have hu := unit_small hp
  have h1 := Real.pi_gt_d2
  have h2 := Real.pi_lt_d4
  have h3 : 2.01 / 2 ^ F.p * Real.pi ≤ 0.0065 := by
    rw [show (2.01 : ℝ) / 2 ^ F.p = 2.01 * (1 / 2 ^ F.p) by ring]
    have : (0 : ℝ) ≤ 1 / 2 ^ F.p := by positivity
    nlinarith
  obtain ⟨a, b⟩ := abs_le.mp (h.trans h3)
  obtain ⟨g, e⟩ := literal_normal U (constPi l F.p) (by linarith) (by linarith)
  unfold piIeee
  rw [e]
  exact ⟨g, h, by linarith, by linarith⟩

theorem twoPi_good (U : Silence.Usual F) [NeZero F.p] (l : ℕ) (hp : 10 ≤ F.p) (hp' : F.p ≤ 53) (hl : F.p ≤ l) :
    GoodIeee (twoPiIeee l F) ∧ |((twoPiIeee l F).val : ℝ) - 2 * Real.pi| ≤ 2.01 / 2 ^ F.p * (2 * Real.pi) ∧ 6.26 ≤ ((twoPiIeee l F).val : ℝ) ∧ ((twoPiIeee l F).val : ℝ) ≤ 6.3 := by
  have h := twoPi_error l F.p hp' hl
  have hu := unit_small hp
  have h1 := Real.pi_gt_d2
  have h2 := Real.pi_lt_d4
  have h3 : 2.01 / 2 ^ F.p * (2 * Real.pi) ≤ 0.013 := by
    rw [show (2.01 : ℝ) / 2 ^ F.p = 2.01 * (1 / 2 ^ F.p) by ring]
    have : (0 : ℝ) ≤ 1 / 2 ^ F.p := by positivity
    nlinarith
  obtain ⟨a, b⟩ := abs_le.mp (h.trans h3)
  obtain ⟨g, e⟩ := literal_normal U (constTwoPi l F.p) (by linarith) (by linarith)
  unfold twoPiIeee
  rw [e]
  exact ⟨g, h, by linarith, by linarith⟩

theorem bw_real {K : ℕ} {bw : Ieee F} (hb : Bandwidth K bw) : (2 : ℝ) ^ (-(K : ℤ)) ≤ |(bw.val : ℝ)| ∧ |(bw.val : ℝ)| ≤ 2 ^ (K : ℤ) := by
  have h1 := (Rat.cast_le (K := ℝ)).mpr hb.low
  have h2 := (Rat.cast_le (K := ℝ)).mpr hb.high
  push_cast at h1 h2
  exact ⟨by simpa using h1, by simpa using h2⟩

/-- The scale is a good number, close to `1 / (c bw)`. -/
theorem scale_good (U : Silence.Usual F) (hp : 10 ≤ F.p) (K : ℕ) (bw P : Ieee F) (hb : Bandwidth K bw) (c : ℝ) (hc : 0 < c) (hP : GoodIeee P) (h1 : 3 ≤ (P.val : ℝ)) (h2 : (P.val : ℝ) ≤ 7)
    (he : |(P.val : ℝ) - c| ≤ 2.01 / 2 ^ F.p * c) : GoodIeee (scaleIeee P bw) ∧ |((scaleIeee P bw).val : ℝ) - 1 / (c * bw.val)| ≤ 4.2 * (1 / 2 ^ F.p) * |1 / (c * bw.val)| := by
  have hp0 : 0 < F.p := by omega
  obtain ⟨b1, b2⟩ := bw_real hb
  have t := hb.top
  have bo := hb.bottom
  have u0 : (0 : ℝ) ≤ 1 / 2 ^ F.p := by positivity
  have hu := unit_small hp
  have k0 := zpow_pos2 (-(K : ℤ))
  have k1 := zpow_pos2 (K : ℤ)
  have hb0 : (bw.val : ℝ) ≠ 0 := by
    intro h
    rw [h, abs_zero] at b1
    linarith
  have em : |(bw.val : ℝ) * P.val| = |(bw.val : ℝ)| * P.val := by rw [abs_mul, abs_of_nonneg (by linarith : (0 : ℝ) ≤ P.val)]
  have e3 : (2 : ℝ) ^ ((K : ℤ) + 3) = 8 * 2 ^ (K : ℤ) := by rw [zpow_add₀ (by norm_num)]; norm_num; ring
  have e4 : (2 : ℝ) ^ (-(K : ℤ) - 3) = 2 ^ (-(K : ℤ)) / 8 := by rw [zpow_sub₀ (by norm_num)]; norm_num
  have m1 : |(bw.val : ℝ) * P.val| ≤ 7 * 2 ^ (K : ℤ) := by rw [em]; nlinarith
  have m2 : 3 * 2 ^ (-(K : ℤ)) ≤ |(bw.val : ℝ) * P.val| := by rw [em]; nlinarith
  have c1 := zpow_mono2 (show (K : ℤ) + 3 ≤ F.emax - 1 by omega)
  have c2 := zpow_mono2 (show F.emin + F.p - 1 ≤ -(K : ℤ) - 3 by omega)
  have r1 := round_rel U (bw.val * P.val) (by push_cast; linarith) (by push_cast; linarith)
  push_cast at r1
  have f1 := (mul_finite bw P hb.finite hP.1).mpr r1.1
  have v1 : ((bw * P).val : ℝ) = (roundTo F (bw.val * P.val) : ℚ) := by rw [mul_val hp0 bw P hb.finite hP.1 hb.valid hP.2 f1]
  set m : ℝ := ((bw * P).val : ℝ) with hm
  rw [← v1] at r1
  have r2 := r1.2
  have r3 := abs_sub_abs_le_abs_sub m ((bw.val : ℝ) * P.val)
  have r4 := abs_sub_abs_le_abs_sub ((bw.val : ℝ) * P.val) m
  rw [abs_sub_comm] at r4
  have r5 : 1 / 2 ^ F.p * |(bw.val : ℝ) * P.val| ≤ 1 / 1000 * |(bw.val : ℝ) * P.val| := mul_le_mul_of_nonneg_right hu (abs_nonneg _)
  have m3 : |m| ≤ 8 * 2 ^ (K : ℤ) := by linarith
  have m4 : 2 * 2 ^ (-(K : ℤ)) ≤ |m| := by linarith
  have hm0 : 0 < |m| := by linarith
  have i1 : |1 / m| ≤ 2 ^ (K : ℤ) / 2 := by
    rw [abs_div, abs_one, div_le_iff₀ hm0]
    have : (2 : ℝ) ^ (K : ℤ) * 2 ^ (-(K : ℤ)) = 1 := by rw [← zpow_add₀ (by norm_num)]; norm_num
    nlinarith
  have i2 : 2 ^ (-(K : ℤ)) / 8 ≤ |1 / m| := by
    rw [abs_div, abs_one, le_div_iff₀ hm0]
    have : (2 : ℝ) ^ (K : ℤ) * 2 ^ (-(K : ℤ)) = 1 := by rw [← zpow_add₀ (by norm_num)]; norm_num
    nlinarith
  obtain ⟨g1, o1⟩ := good_one U
  have hq : (((1 : Ieee F).val / (bw * P).val : ℚ) : ℝ) = 1 / m := by push_cast; rw [o1]
  have n0 : (bw * P).val ≠ 0 := by
    intro h
    rw [hm, h] at hm0
    simp at hm0
  have s1 := round_rel U ((1 : Ieee F).val / (bw * P).val) (by rw [hq]; linarith) (by rw [hq]; linarith)
  have f2 := (div_finite 1 (bw * P) g1.1 f1 n0).mpr s1.1
  have v2 : ((1 / (bw * P) : Ieee F).val : ℝ) = (roundTo F ((1 : Ieee F).val / (bw * P).val) : ℚ) := by rw [div_val hp0 1 (bw * P) g1.1 f1 g1.2 (mul_valid hp0 _ _) f2 n0]
  rw [hq, ← v2] at s1
  refine ⟨⟨f2, div_valid hp0 _ _⟩, ?_⟩
  exact (scale_real (1 / 2 ^ F.p) c P.val bw.val m _ u0 hu hc hb0 (by rw [mul_one_div]; exact he) r2 (fun _ => s1.2)).2

/-- A phase, scaled. -/
theorem scaled_good (U : Silence.Usual F) (hp : 10 ≤ F.p) (K : ℕ) (bw s r : Ieee F) (hb : Bandwidth K bw) (hs : GoodIeee s) (hs' : |(s.val : ℝ) - 1 / (Real.pi * bw.val)| ≤ 4.2 * (1 / 2 ^ F.p) * |1 / (Real.pi * bw.val)|)
    (hr : GoodIeee r) (hr' : |(r.val : ℝ)| ≤ 3.18) : (s * r).Finite ∧ |((s * r).val : ℝ)| ≤ 1.02 / |(bw.val : ℝ)| := by
  obtain ⟨b1, b2⟩ := bw_real hb
  have t := hb.top
  have bo := hb.bottom
  have u0 : (0 : ℝ) ≤ 1 / 2 ^ F.p := by positivity
  have hu := unit_small hp
  have k0 := zpow_pos2 (-(K : ℤ))
  have k1 := zpow_pos2 (K : ℤ)
  have hkk : (2 : ℝ) ^ (K : ℤ) * 2 ^ (-(K : ℤ)) = 1 := by rw [← zpow_add₀ (by norm_num)]; norm_num
  have hb0 : 0 < |(bw.val : ℝ)| := by linarith
  have hpi := Real.pi_gt_d2
  set B := 1 / |(bw.val : ℝ)| with hB
  have hB0 : 0 < B := by positivity
  have B1 : B ≤ 2 ^ (K : ℤ) := by rw [hB, div_le_iff₀ hb0]; nlinarith
  have B2 : 2 ^ (-(K : ℤ)) ≤ B := by rw [hB, le_div_iff₀ hb0]; nlinarith
  have e : |1 / (Real.pi * bw.val)| ≤ 0.3185 * B := by
    rw [abs_div, abs_one, abs_mul, abs_of_pos Real.pi_pos, hB, mul_one_div, div_le_div_iff₀ (by positivity) hb0]
    nlinarith
  have h1 : |(s.val : ℝ)| ≤ 1.005 * (0.3185 * B) := by
    have h := abs_sub_abs_le_abs_sub (s.val : ℝ) (1 / (Real.pi * bw.val))
    have h' : 4.2 * (1 / 2 ^ F.p) * |1 / (Real.pi * bw.val)| ≤ 4.2 * (1 / 1000) * (0.3185 * B) := mul_le_mul (by linarith) e (abs_nonneg _) (by norm_num)
    linarith
  have h2 : |(s.val : ℝ) * r.val| ≤ 1.018 * B := by
    rw [abs_mul]
    calc _ ≤ 1.005 * (0.3185 * B) * 3.18 := mul_le_mul h1 hr' (abs_nonneg _) (by positivity)
      _ ≤ _ := by linarith
  have c1 := zpow_mono2 (show (K : ℤ) + 3 ≤ F.emax - 1 by omega)
  have c2 := zpow_mono2 (show F.emin + F.p - 1 ≤ -(K : ℤ) - 3 by omega)
  have e3 : (2 : ℝ) ^ ((K : ℤ) + 3) = 8 * 2 ^ (K : ℤ) := by rw [zpow_add₀ (by norm_num)]; norm_num; ring
  have e4 : (2 : ℝ) ^ (-(K : ℤ) - 3) = 2 ^ (-(K : ℤ)) / 8 := by rw [zpow_sub₀ (by norm_num)]; norm_num
  obtain ⟨g, h3⟩ := good_mul U s r hs hr (by linarith)
  refine ⟨g.1, ?_⟩
  have h4 : 1 / 2 ^ F.p * (|(s.val : ℝ) * r.val| + 2 ^ (F.emin + F.p - 1)) ≤ 1 / 1000 * (1.018 * B + B / 8) := mul_le_mul hu (by linarith) (by positivity) (by norm_num)
  have h5 := abs_sub_abs_le_abs_sub ((s * r).val : ℝ) (s.val * r.val)
  rw [show 1.02 / |(bw.val : ℝ)| = 1.02 * B by rw [hB]; ring]
  linarith

/-! ### FMD1 -/

theorem lt_val {a b : Ieee F} (ha : a.Finite) (hb : b.Finite) : a < b ↔ (a.val : ℝ) < b.val := by
  obtain ⟨s, m, rfl⟩ := (finite_iff a).mp ha
  obtain ⟨t, n, rfl⟩ := (finite_iff b).mp hb
  show decide (signed s m < signed t n) = true ↔ _
  rw [decide_eq_true_iff]
  exact Rat.cast_lt.symm

theorem sub_nan (a : Ieee F) : a - nan = nan := by cases a <;> rfl

theorem nan_sub (a : Ieee F) : nan - a = nan := rfl

theorem wrap_nan (P T : Ieee F) : wrapAround P T nan = nan := by
  unfold wrapAround
  rw [if_neg (nan_lt _), if_neg (lt_nan _)]

theorem arg_nan {P : ℚ} {atan2 : Ieee F → Ieee F → Ieee F} (hA : ArcTangent P atan2) (z : Cplx (Ieee F)) (h : HasNan z) : z.arg atan2 = nan := by
  unfold Cplx.arg
  rcases h with h | h <;> rw [h]
  · exact hA.right _
  · exact hA.left _

theorem arg_good {P : ℚ} {atan2 : Ieee F → Ieee F → Ieee F} (hA : ArcTangent P atan2) (z : Cplx (Ieee F)) (h : ¬HasNan z) : GoodIeee (z.arg atan2) ∧ |((z.arg atan2).val : ℝ)| ≤ P := by
  have hn : z.im ≠ nan ∧ z.re ≠ nan := ⟨fun e => h (.inr e), fun e => h (.inl e)⟩
  obtain ⟨a, b, c⟩ := hA.good z.im z.re hn.1 hn.2
  refine ⟨⟨a, b⟩, ?_⟩
  have := (Rat.cast_le (K := ℝ)).mpr c
  rwa [Rat.cast_abs] at this

/-- The difference of two phases, wrapped. -/
theorem wrap_good (U : Silence.Usual F) (hp : 10 ≤ F.p) (P T a b : Ieee F) (hP : GoodIeee P) (hT : GoodIeee T) (P1 : 3.13 ≤ (P.val : ℝ)) (P2 : (P.val : ℝ) ≤ 3.15) (T1 : 6.26 ≤ (T.val : ℝ)) (T2 : (T.val : ℝ) ≤ 6.3)
    (ha : GoodIeee a) (hb : GoodIeee b) (ha' : |(a.val : ℝ)| ≤ P.val) (hb' : |(b.val : ℝ)| ≤ P.val) : GoodIeee (wrapAround P T (a - b)) ∧ |((wrapAround P T (a - b)).val : ℝ)| ≤ 3.18 := by
  have hu := unit_small hp
  have u0 : (0 : ℝ) ≤ 1 / 2 ^ F.p := by positivity
  have u1 := U.emin
  have u2 := U.emax
  have e8 : (8 : ℝ) ≤ 2 ^ (F.emax - 1) := by
    have := zpow_mono2 (show (3 : ℤ) ≤ F.emax - 1 by omega)
    norm_num at this ⊢; exact this
  have e1 : (2 : ℝ) ^ (F.emin + F.p - 1) ≤ 1 := by
    have := zpow_mono2 (show F.emin + F.p - 1 ≤ 0 by omega)
    rwa [zpow_zero] at this
  obtain ⟨a1, a2⟩ := abs_le.mp ha'
  obtain ⟨b1, b2⟩ := abs_le.mp hb'
  have hab : |(a.val : ℝ) - b.val| ≤ 6.3 := abs_le.mpr ⟨by linarith, by linarith⟩
  obtain ⟨gd, hd⟩ := good_sub U a b ha hb (by linarith)
  have hd' : |((a - b).val : ℝ) - (a.val - b.val)| ≤ 0.008 := hd.trans ((mul_le_mul hu (by linarith : _ ≤ (7.3 : ℝ)) (by positivity) (by norm_num)).trans (by norm_num))
  generalize a - b = d at gd hd'
  obtain ⟨d1, d2⟩ := abs_le.mp hd'
  have hsmall : ∀ x : ℝ, |x| ≤ 3.17 → 1 / 2 ^ F.p * (|x| + 2 ^ (F.emin + F.p - 1)) ≤ 0.005 := fun x hx =>
    (mul_le_mul hu (by linarith : _ ≤ (4.17 : ℝ)) (by positivity) (by norm_num)).trans (by norm_num)
  obtain ⟨-, hPn⟩ := (⟨trivial, good_neg P hP⟩ : True ∧ GoodIeee (-P))
  have n1 : d < -P ↔ (d.val : ℝ) < -P.val := by rw [lt_val gd.1 hPn.1, neg_val]; push_cast; rfl
  have n2 : P < d ↔ (P.val : ℝ) < d.val := lt_val hP.1 gd.1
  unfold wrapAround
  split_ifs with h1 h2
  · rw [n1] at h1
    have hx : |(d.val : ℝ) + T.val| ≤ 3.17 := abs_le.mpr ⟨by linarith, by linarith⟩
    obtain ⟨g, h⟩ := good_add U d T gd hT (by linarith)
    obtain ⟨h3, h4⟩ := abs_le.mp (h.trans (hsmall _ hx))
    obtain ⟨x1, x2⟩ := abs_le.mp hx
    exact ⟨g, abs_le.mpr ⟨by linarith, by linarith⟩⟩
  · have h2 := n2.mp h2
    have hx : |(d.val : ℝ) - T.val| ≤ 3.17 := abs_le.mpr ⟨by linarith, by linarith⟩
    obtain ⟨g, h⟩ := good_sub U d T gd hT (by linarith)
    obtain ⟨h3, h4⟩ := abs_le.mp (h.trans (hsmall _ hx))
    obtain ⟨x1, x2⟩ := abs_le.mp hx
    exact ⟨g, abs_le.mpr ⟨by linarith, by linarith⟩⟩
  · rw [n1] at h1
    have h2 : ¬(P.val : ℝ) < d.val := fun h => h2 (n2.mpr h)
    exact ⟨gd, abs_le.mpr ⟨by linarith, by linarith⟩⟩

theorem not_nan_one (U : Silence.Usual F) : ¬HasNan (⟨1, 0⟩ : Cplx (Ieee F)) := by
  rintro (h | h)
  · change (1 : Ieee F) = nan at h
    rw [one_eq U] at h
    cases h
  · change (Ieee.num false 0 : Ieee F) = nan at h
    cases h

theorem zero_good : GoodIeee (0 : Ieee F) ∧ (0 : Ieee F).val = 0 :=
  ⟨⟨trivial, le_rfl, by positivity, 0, F.emin, Nat.two_pow_pos _, le_rfl, by simp⟩, signed_zero _⟩

/-- **C115** `FMD1`: an output is NaN if and only if its sample or the one before has a part that is NaN. Whatever else comes in, also zeros, infinities, the largest and the smallest numbers, the output is
finite and at most 1.02 over the bandwidth. -/
theorem C115_fmd1 (U : Silence.Usual F) [NeZero F.p] (l : ℕ) (hp : 10 ≤ F.p) (hp' : F.p ≤ 53) (hl : F.p ≤ l) (atan2 : Ieee F → Ieee F → Ieee F) (hA : ArcTangent (piIeee l F).val atan2)
    (K : ℕ) (bw : Ieee F) (hb : Bandwidth K bw) (x : ℕ → Cplx (Ieee F)) (n : ℕ) :
    let y := stream (call1Ieee atan2 (piIeee l F) (twoPiIeee l F) (scaleIeee (piIeee l F) bw)) 0 x n
    (y = nan ↔ HasNan (x n) ∨ HasNan (before x n)) ∧ (y ≠ nan → y.Finite ∧ |(y.val : ℝ)| ≤ 1.02 / |(bw.val : ℝ)|) := by
  obtain ⟨gP, eP, P1, P2⟩ := pi_good U l hp hp' hl
  obtain ⟨gT, -, T1, T2⟩ := twoPi_good U l hp hp' hl
  obtain ⟨gs, es⟩ := scale_good U hp K bw (piIeee l F) hb Real.pi Real.pi_pos gP (by linarith) (by linarith) eP
  intro y
  set s := scaleIeee (piIeee l F) bw
  set P := piIeee l F
  set T := twoPiIeee l F
  set st := states (call1Ieee atan2 P T s) 0 x n with hst
  have hy : y = s * wrapAround P T ((x n).arg atan2 - st) := rfl
  have hprev : (HasNan (before x n) → st = nan) ∧ (¬HasNan (before x n) → GoodIeee st ∧ |(st.val : ℝ)| ≤ P.val) := by
    cases n with
    | zero =>
      refine ⟨fun h => absurd h (not_nan_one U), fun _ => ⟨(zero_good (F := F)).1, ?_⟩⟩
      show |((0 : Ieee F).val : ℝ)| ≤ _
      rw [(zero_good (F := F)).2]
      simp only [Rat.cast_zero, abs_zero]
      linarith
    | succ n =>
      have e : st = (x n).arg atan2 := rfl
      rw [e]
      exact ⟨fun h => arg_nan hA _ h, fun h => arg_good hA _ h⟩
  by_cases h1 : HasNan (x n)
  · have : y = nan := by rw [hy, arg_nan hA _ h1, nan_sub, wrap_nan, mul_nan]
    exact ⟨⟨fun _ => .inl h1, fun _ => this⟩, fun h => absurd this h⟩
  by_cases h2 : HasNan (before x n)
  · have : y = nan := by rw [hy, hprev.1 h2, sub_nan, wrap_nan, mul_nan]
    exact ⟨⟨fun _ => .inr h2, fun _ => this⟩, fun h => absurd this h⟩
  obtain ⟨ga, ha⟩ := arg_good hA _ h1
  obtain ⟨gb, hb'⟩ := hprev.2 h2
  obtain ⟨gw, hw⟩ := wrap_good U hp P T _ st gP gT P1 P2 T1 T2 ga gb ha hb'
  have H := scaled_good U hp K bw s _ hb gs es gw hw
  rw [← hy] at H
  refine ⟨⟨fun h => absurd H.1 (by rw [h]; exact id), fun h => absurd h (not_or.mpr ⟨h1, h2⟩)⟩, fun _ => H⟩

/-! ### The range -/

theorem mul_within (hp : 0 < F.p) {g h : ℤ} {a b : Ieee F} (ha : Range.Within (2 ^ g) a) (hb : Range.Within (2 ^ h) b) (h1 : F.emin ≤ g + h) (h2 : g + h < F.emax) : Range.Within (2 ^ (g + h)) (a * b) := by
  have h3 : |roundTo F (a.val * b.val)| ≤ 2 ^ (g + h) := by
    rw [roundTo_abs hp]
    refine roundTo_le hp _ _ (Range.fits_pow hp _ h1) ?_
    rw [abs_mul, zpow_add₀ (by norm_num)]
    exact mul_le_mul ha.2.2 hb.2.2 (abs_nonneg _) (by positivity)
  have hf := (mul_finite a b ha.1 hb.1).mpr (lt_of_le_of_lt h3 (zpow_lt_zpow_right₀ (by norm_num) h2))
  refine ⟨hf, mul_valid hp _ _, ?_⟩
  rw [mul_val hp a b ha.1 hb.1 ha.2.1 hb.2.1 hf]
  exact h3

theorem neg_within {B : ℚ} {a : Ieee F} (ha : Range.Within B a) : Range.Within B (-a) := ⟨neg_finite a ha.1, neg_valid a ha.2.1, by rw [neg_val, abs_neg]; exact ha.2.2⟩

theorem double_within (hp : 0 < F.p) {h : ℤ} {a b : Ieee F} (ha : Range.Within (2 ^ h) a) (hb : Range.Within (2 ^ h) b) (h1 : F.emin ≤ h + 1) (h2 : h + 1 < F.emax) : Range.Within (2 ^ (h + 1)) (a + b) := by
  have e : (2 : ℚ) ^ h + 2 ^ h = 2 ^ (h + 1) := by rw [zpow_add₀ (by norm_num)]; norm_num; ring
  rw [← e]
  exact Range.add_within hp ha hb (by rw [e]; exact Range.fits_pow hp _ h1) (by rw [e]; exact zpow_lt_zpow_right₀ (by norm_num) h2)

theorem double_within_sub (hp : 0 < F.p) {h : ℤ} {a b : Ieee F} (ha : Range.Within (2 ^ h) a) (hb : Range.Within (2 ^ h) b) (h1 : F.emin ≤ h + 1) (h2 : h + 1 < F.emax) : Range.Within (2 ^ (h + 1)) (a - b) :=
  double_within hp ha (neg_within hb) h1 h2

theorem two_within (hp : 0 < F.p) {h : ℤ} {a b c d : Ieee F} (ha : Range.Within (2 ^ h) a) (hb : Range.Within (2 ^ h) b) (hc : Range.Within (2 ^ h) c) (hd : Range.Within (2 ^ h) d) (h1 : F.emin ≤ 2 * h) (h2 : 2 * h + 2 ≤ F.emax) :
    Range.Within (2 ^ (2 * h + 1)) (a * b + c * d) ∧ Range.Within (2 ^ (2 * h + 1)) (a * b - c * d) := by
  have e1 := mul_within hp ha hb (by omega) (by omega)
  have e2 := mul_within hp hc hd (by omega) (by omega)
  rw [← two_mul] at e1 e2
  exact ⟨double_within hp e1 e2 (by omega) (by omega), double_within_sub hp e1 e2 (by omega) (by omega)⟩

theorem finite_ne_nan {a : Ieee F} (h : a.Finite) : a ≠ nan := by rintro rfl; exact h

/-- Finite numbers have a quotient. -/
theorem quotient_ne_nan {a b : Ieee F} (ha : a.Finite) (hb : b.Finite) (h0 : b.val ≠ 0) : a / b ≠ nan := by
  obtain ⟨s, m, rfl⟩ := (finite_iff a).mp ha
  obtain ⟨t, n, rfl⟩ := (finite_iff b).mp hb
  have hn : n ≠ 0 := by rintro rfl; exact h0 (signed_zero t)
  show (if n = 0 then (if m = 0 then nan else inf (s ^^ t)) else pack (s ^^ t) (m / n)) ≠ nan
  rw [if_neg hn]
  exact pack_ne_nan _ _

/-- The norm of a number that is not too small. -/
theorem norm_low (hp : 0 < F.p) {h k : ℤ} {z : Cplx (Ieee F)} (hz : Below h z) (h1 : F.emin ≤ 2 * h) (h2 : 2 * h + 2 ≤ F.emax) (hk : 2 * k ≤ -F.emin) (hz' : Above k z) :
    GoodIeee z.norm ∧ ∃ m : ℚ, 2 ^ (-k) ≤ m ∧ |z.re.val| ≤ m ∧ |z.im.val| ≤ m ∧ m ≤ 2 ^ h ∧ m * m / 2 ≤ z.norm.val := by
  have hw := (two_within hp hz.1 hz.1 hz.2 hz.2 h1 h2).1
  refine ⟨⟨hw.1, hw.2.1⟩, ?_⟩
  have e1 := mul_within hp hz.1 hz.1 (by omega) (by omega)
  have e2 := mul_within hp hz.2 hz.2 (by omega) (by omega)
  have en : z.norm.val = roundTo F ((z.re * z.re).val + (z.im * z.im).val) := add_val hp _ _ e1.1 e2.1 hw.1
  have half : ∀ m : ℚ, 2 ^ (-k) ≤ m → m * m / 2 ≤ roundTo F (m * m) := by
    intro m hm
    have h0 : (0 : ℚ) < 2 ^ (-k) := by positivity
    have hm2 : (2 : ℚ) ^ F.emin ≤ m * m := by
      calc (2 : ℚ) ^ F.emin ≤ 2 ^ (-k + -k) := zpow_le_zpow_right₀ (by norm_num) (by omega)
        _ = 2 ^ (-k) * 2 ^ (-k) := zpow_add₀ (by norm_num) _ _
        _ ≤ _ := mul_le_mul hm hm h0.le (h0.le.trans hm)
    have hmm : 0 < m * m := lt_of_lt_of_le (by positivity) hm2
    have e := roundTo_error (F := F) (m * m)
    rw [abs_of_pos hmm] at e
    have e' : |roundTo F (m * m) - m * m| ≤ m * m / 2 := by
      refine e.trans (max_le ?_ (by linarith))
      have : (2 : ℚ) ≤ 2 ^ F.p := by
        calc (2 : ℚ) = 2 ^ 1 := by norm_num
          _ ≤ _ := pow_le_pow_right₀ (by norm_num) hp
      exact div_le_div_of_nonneg_left hmm.le (by norm_num) this
    linarith [(abs_le.mp e').1]
  have sq : ∀ a : Ieee F, Range.Within (2 ^ h) a → Range.Within (2 ^ (h + h)) (a * a) → (a * a).val = roundTo F (|a.val| * |a.val|) := by
    intro a ha hs
    rw [mul_val hp a a ha.1 ha.1 ha.2.1 ha.2.1 hs.1, abs_mul_abs_self]
  have s1 := sq _ hz.1 e1
  have s2 := sq _ hz.2 e2
  have p1 : 0 ≤ (z.re * z.re).val := by rw [s1]; exact roundTo_nonneg hp _ (mul_nonneg (abs_nonneg _) (abs_nonneg _))
  have p2 : 0 ≤ (z.im * z.im).val := by rw [s2]; exact roundTo_nonneg hp _ (mul_nonneg (abs_nonneg _) (abs_nonneg _))
  rcases le_total |z.re.val| |z.im.val| with hle | hle
  · have hm : (2 : ℚ) ^ (-k) ≤ |z.im.val| := by rcases hz' with h | h <;> linarith
    refine ⟨|z.im.val|, hm, hle, le_rfl, hz.2.2.2, (half _ hm).trans ?_⟩
    rw [en, ← s2]
    exact le_roundTo hp _ _ (valid_fits e2.2.1) (by linarith)
  · have hm : (2 : ℚ) ^ (-k) ≤ |z.re.val| := by rcases hz' with h | h <;> linarith
    refine ⟨|z.re.val|, hm, le_rfl, hle, hz.1.2.2, (half _ hm).trans ?_⟩
    rw [en, ← s1]
    exact le_roundTo hp _ _ (valid_fits e1.2.1) (by linarith)

/-! ### Zeros -/

/-- Zero or NaN. -/
def Nil (a : Ieee F) : Prop := a = nan ∨ ∃ s, a = Ieee.num s 0

theorem pack_zero (s : Bool) : (pack s 0 : Ieee F) = Ieee.num s 0 := by
  rw [pack_num _ _ (by rw [roundTo_zero, abs_zero]; positivity), roundTo_zero, abs_zero]

theorem nil_mul_right (a : Ieee F) {b : Ieee F} (hb : ∃ s, b = Ieee.num s 0) : Nil (a * b) := by
  obtain ⟨t, rfl⟩ := hb
  cases a with
  | nan => exact .inl rfl
  | inf s => exact .inl (if_pos rfl)
  | num s m => right; exact ⟨s ^^ t, by show pack _ (m * 0) = _; rw [mul_zero, pack_zero]⟩

theorem nil_mul_left {a : Ieee F} (b : Ieee F) (ha : ∃ s, a = Ieee.num s 0) : Nil (a * b) := by
  obtain ⟨t, rfl⟩ := ha
  cases b with
  | nan => exact .inl rfl
  | inf s => exact .inl (if_pos rfl)
  | num s m => right; exact ⟨t ^^ s, by show pack _ (0 * m) = _; rw [zero_mul, pack_zero]⟩

theorem zero_add_zero (s t : Bool) : (Ieee.num s 0 + Ieee.num t 0 : Ieee F) = Ieee.num (s && t) 0 := by
  rw [add_num, signed_zero, signed_zero, if_pos (add_zero 0)]

theorem nil_add {a b : Ieee F} (ha : Nil a) (hb : Nil b) : Nil (a + b) := by
  rcases ha with rfl | ⟨s, rfl⟩ <;> rcases hb with rfl | ⟨t, rfl⟩
  · exact .inl rfl
  · exact .inl rfl
  · exact .inl rfl
  · exact .inr ⟨_, zero_add_zero s t⟩

theorem nil_sub {a b : Ieee F} (ha : Nil a) (hb : Nil b) : Nil (a - b) := by
  refine nil_add ha ?_
  rcases hb with rfl | ⟨t, rfl⟩
  · exact .inl rfl
  · exact .inr ⟨!t, rfl⟩

theorem nil_div {a b : Ieee F} (ha : Nil a) (hb : ∃ s, b = Ieee.num s 0) : a / b = nan := by
  obtain ⟨t, rfl⟩ := hb
  rcases ha with rfl | ⟨s, rfl⟩
  · rfl
  · show (if (0 : ℚ) = 0 then (if (0 : ℚ) = 0 then nan else _) else _) = nan
    rw [if_pos rfl, if_pos rfl]

theorem zero_norm {z : Cplx (Ieee F)} (h : IsZero z) : ∃ s, z.norm = Ieee.num s 0 := by
  obtain ⟨⟨s, hs⟩, t, ht⟩ := h
  refine ⟨(s ^^ s) && (t ^^ t), ?_⟩
  show z.re * z.re + z.im * z.im = _
  rw [hs, ht, num_mul, num_mul, mul_zero, pack_zero, pack_zero, zero_add_zero]

/-- The product of two numbers so small that it is zero. -/
theorem tiny_mul (hp : 0 < F.p) {a b : Ieee F} (ha : a.Finite) (hb : b.Finite) (h : |a.val| * |b.val| < 2 ^ F.emin / 2) : ∃ s, a * b = Ieee.num s 0 := by
  obtain ⟨s, m, rfl⟩ := (finite_iff a).mp ha
  obtain ⟨t, n, rfl⟩ := (finite_iff b).mp hb
  refine ⟨s ^^ t, ?_⟩
  rw [num_mul]
  have e : |m * n| < 2 ^ F.emin / 2 := by
    have h' : |signed s m| * |signed t n| < 2 ^ F.emin / 2 := h
    rwa [signed_abs, signed_abs, ← abs_mul] at h'
  have hr : roundTo F (m * n) = 0 := by
    obtain ⟨k, hk⟩ := (roundTo_fits hp (m * n)).2
    have hn := roundTo_nearest hp (m * n) 0 ⟨⟨0, 0, by positivity, by simp⟩, 0, by simp⟩
    rw [zero_sub, abs_neg] at hn
    have h1 := abs_sub_abs_le_abs_sub (roundTo F (m * n)) (m * n)
    have h2 : |roundTo F (m * n)| < 2 ^ F.emin := by linarith
    rw [hk, abs_mul, abs_of_pos (by positivity : (0 : ℚ) < 2 ^ F.emin)] at h2
    have h3 : |(k : ℚ)| < 1 := by
      have : (0 : ℚ) < 2 ^ F.emin := by positivity
      nlinarith
    have h4 : |k| < 1 := by exact_mod_cast h3
    rw [hk, Int.abs_lt_one_iff.mp h4]
    simp
  rw [pack_num _ _ (by rw [hr, abs_zero]; positivity), hr, abs_zero]

/-! ### NaN and infinity -/

theorem norm_bad {z : Cplx (Ieee F)} (h : ¬FiniteParts z) : z.norm = nan ∨ z.norm = inf false := by
  show z.re * z.re + z.im * z.im = nan ∨ z.re * z.re + z.im * z.im = inf false
  by_cases h1 : z.re = nan
  · left; rw [h1]; rfl
  by_cases h2 : z.im = nan
  · left; rw [h2, nan_mul, add_nan]
  right
  have p1 := pos_square z.re h1
  have p2 := pos_square z.im h2
  have sq : ∀ a : Ieee F, a ≠ nan → ¬a.Finite → a * a = inf false := by
    intro a ha hb
    cases a with
    | nan => exact absurd rfl ha
    | inf s => show inf (s ^^ s) = _; rw [Bool.xor_self]
    | num s m => exact absurd trivial hb
  by_cases f1 : z.re.Finite
  · have f2 : ¬z.im.Finite := fun f => h ⟨f1, f⟩
    rw [sq _ h2 f2]
    rcases p1 with e | ⟨m, -, e⟩ <;> rw [e] <;> rfl
  · rw [sq _ h1 f1]
    rcases p2 with e | ⟨m, -, e⟩ <;> rw [e] <;> rfl

theorem bad_div {a b : Ieee F} (ha : ¬a.Finite) (hb : b = nan ∨ b = inf false) : a / b = nan := by
  cases a with
  | nan => rfl
  | inf s => rcases hb with rfl | rfl <;> rfl
  | num s m => exact absurd trivial ha

theorem bad_cross_left {a b c d : Ieee F} (h : ¬(a.Finite ∧ c.Finite)) : ¬(a * b - c * d).Finite := by
  intro hf
  have := of_sub hf
  exact h ⟨(of_mul this.1).1, (of_mul this.2).1⟩

theorem bad_cross_right {a b c d : Ieee F} (h : ¬(b.Finite ∧ d.Finite)) : ¬(a * b - c * d).Finite := by
  intro hf
  have := of_sub hf
  exact h ⟨(of_mul this.1).2, (of_mul this.2).2⟩

theorem states_prev (call : Cplx (Ieee F) → Cplx (Ieee F) → Cplx (Ieee F) × Ieee F) (h : ∀ a x, (call a x).1 = x) (x : ℕ → Cplx (Ieee F)) (n : ℕ) : states call ⟨1, 0⟩ x n = before x n := by
  cases n with
  | zero => rfl
  | succ n => exact h _ _

theorem scale_pi_good (U : Silence.Usual F) [NeZero F.p] (l : ℕ) (hp : 10 ≤ F.p) (hp' : F.p ≤ 53) (hl : F.p ≤ l) (K : ℕ) (bw : Ieee F) (hb : Bandwidth K bw) :
    GoodIeee (scaleIeee (piIeee l F) bw) ∧ |((scaleIeee (piIeee l F) bw).val : ℝ) - 1 / (Real.pi * bw.val)| ≤ 4.2 * (1 / 2 ^ F.p) * |1 / (Real.pi * bw.val)| ∧ ((piIeee l F).val : ℝ) ≤ 3.15 := by
  obtain ⟨gP, eP, P1, P2⟩ := pi_good U l hp hp' hl
  obtain ⟨gs, es⟩ := scale_good U hp K bw (piIeee l F) hb Real.pi Real.pi_pos gP (by linarith) (by linarith) eP
  exact ⟨gs, es, P2⟩

/-- The scaled angle of any number. -/
theorem angle_out (U : Silence.Usual F) [NeZero F.p] (l : ℕ) (hp : 10 ≤ F.p) (hp' : F.p ≤ 53) (hl : F.p ≤ l) (atan2 : Ieee F → Ieee F → Ieee F) (hA : ArcTangent (piIeee l F).val atan2)
    (K : ℕ) (bw : Ieee F) (hb : Bandwidth K bw) (q : Cplx (Ieee F)) :
    (HasNan q → scaleIeee (piIeee l F) bw * q.arg atan2 = nan) ∧
      (¬HasNan q → (scaleIeee (piIeee l F) bw * q.arg atan2).Finite ∧ |((scaleIeee (piIeee l F) bw * q.arg atan2).val : ℝ)| ≤ 1.02 / |(bw.val : ℝ)|) := by
  obtain ⟨gs, es, P2⟩ := scale_pi_good U l hp hp' hl K bw hb
  refine ⟨fun h => by rw [arg_nan hA q h, mul_nan], fun h => ?_⟩
  obtain ⟨ga, ha⟩ := arg_good hA q h
  exact scaled_good U hp K bw _ _ hb gs es ga (by linarith)

/-- **C115** `FMD2`: NaN gives NaN, twice; so does a zero, one sample later. No output is infinite, and the finite ones are at most 1.02 over the bandwidth. If the parts of the two samples are at most
`2^h`, where the square of that is within the range, and the one before is not too small, then the output is finite. -/
theorem C115_fmd2 (U : Silence.Usual F) [NeZero F.p] (l : ℕ) (hp : 10 ≤ F.p) (hp' : F.p ≤ 53) (hl : F.p ≤ l) (atan2 : Ieee F → Ieee F → Ieee F) (hA : ArcTangent (piIeee l F).val atan2)
    (K : ℕ) (bw : Ieee F) (hb : Bandwidth K bw) (x : ℕ → Cplx (Ieee F)) (n : ℕ) :
    let y := stream (call2Ieee atan2 (scaleIeee (piIeee l F) bw)) ⟨1, 0⟩ x n
    (HasNan (x n) ∨ HasNan (before x n) ∨ IsZero (before x n) → y = nan) ∧ (y ≠ nan → y.Finite ∧ |(y.val : ℝ)| ≤ 1.02 / |(bw.val : ℝ)|) ∧
    (∀ h k : ℤ, F.emin ≤ 2 * h → 2 * h + 2 ≤ F.emax → 2 * k ≤ -F.emin → Below h (x n) → Below h (before x n) → Above k (before x n) → y ≠ nan) := by
  intro y
  have hp0 : 0 < F.p := by omega
  set a := before x n with ha
  have hy : y = scaleIeee (piIeee l F) bw * ((x n).div a).arg atan2 := by
    show (call2Ieee _ _ _ _).2 = _
    rw [states_prev _ (fun _ _ => rfl), ← ha]
    rfl
  obtain ⟨o1, o2⟩ := angle_out U l hp hp' hl atan2 hA K bw hb ((x n).div a)
  rw [← hy] at o1 o2
  have hre : ((x n).div a).re = ((x n).re * a.re + (x n).im * a.im) / a.norm := rfl
  have him : ((x n).div a).im = ((x n).im * a.re - (x n).re * a.im) / a.norm := rfl
  refine ⟨fun h => o1 (.inl ?_), fun h => o2 fun hn => h (o1 hn), fun h k h1 h2 h3 hx hb1 hb2 => ?_⟩
  · rw [hre]
    rcases h with (h | h) | (h | h) | h
    · rw [h]; rfl
    · rw [h, nan_mul, add_nan]; rfl
    · rw [h, mul_nan]; rfl
    · rw [h, mul_nan, add_nan]; rfl
    · exact nil_div (nil_add (nil_mul_right _ h.1) (nil_mul_right _ h.2)) (zero_norm h)
  · obtain ⟨gn, m, m1, -, -, -, m5⟩ := norm_low hp0 hb1 h1 h2 h3 hb2
    have hn0 : a.norm.val ≠ 0 := by
      have h0 : (0 : ℚ) < 2 ^ (-k) := by positivity
      have : 0 < m * m / 2 := by have : 0 < m := lt_of_lt_of_le h0 m1; positivity
      linarith
    refine finite_ne_nan (o2 ?_).1
    rintro (e | e)
    · exact quotient_ne_nan (two_within hp0 hx.1 hb1.1 hx.2 hb1.2 h1 h2).1.1 gn.1 hn0 (hre ▸ e)
    · exact quotient_ne_nan (two_within hp0 hx.2 hb1.1 hx.1 hb1.2 h1 h2).2.1 gn.1 hn0 (him ▸ e)

/-- **C115** `FMD3`: as `FMD2`, but nothing is too small for it, also zero is not. -/
theorem C115_fmd3 (U : Silence.Usual F) [NeZero F.p] (l : ℕ) (hp : 10 ≤ F.p) (hp' : F.p ≤ 53) (hl : F.p ≤ l) (atan2 : Ieee F → Ieee F → Ieee F) (hA : ArcTangent (piIeee l F).val atan2)
    (K : ℕ) (bw : Ieee F) (hb : Bandwidth K bw) (x : ℕ → Cplx (Ieee F)) (n : ℕ) :
    let y := stream (call3Ieee atan2 (scaleIeee (piIeee l F) bw)) ⟨1, 0⟩ x n
    (HasNan (x n) ∨ HasNan (before x n) → y = nan) ∧ (y ≠ nan → y.Finite ∧ |(y.val : ℝ)| ≤ 1.02 / |(bw.val : ℝ)|) ∧
    (∀ h : ℤ, F.emin ≤ 2 * h → 2 * h + 2 ≤ F.emax → Below h (x n) → Below h (before x n) → y ≠ nan) := by
  intro y
  have hp0 : 0 < F.p := by omega
  set a := before x n with ha
  have hy : y = scaleIeee (piIeee l F) bw * ((x n) * a.conj).arg atan2 := by
    show (call3Ieee _ _ _ _).2 = _
    rw [states_prev _ (fun _ _ => rfl), ← ha]
    rfl
  obtain ⟨o1, o2⟩ := angle_out U l hp hp' hl atan2 hA K bw hb ((x n) * a.conj)
  rw [← hy] at o1 o2
  have hre : ((x n) * a.conj).re = (x n).re * a.re - (x n).im * -a.im := rfl
  have him : ((x n) * a.conj).im = (x n).re * -a.im + (x n).im * a.re := rfl
  refine ⟨fun h => o1 (.inl ?_), fun h => o2 fun hn => h (o1 hn), fun h h1 h2 hx hb1 => ?_⟩
  · rw [hre]
    rcases h with (h | h) | (h | h)
    · rw [h]; rfl
    · rw [h, nan_mul, sub_nan]
    · rw [h, mul_nan]; rfl
    · rw [h, show -(nan : Ieee F) = nan from rfl, mul_nan, sub_nan]
  · refine finite_ne_nan (o2 ?_).1
    rintro (e | e)
    · exact finite_ne_nan (two_within hp0 hx.1 hb1.1 hx.2 (neg_within hb1.2) h1 h2).2.1 (hre ▸ e)
    · exact finite_ne_nan (two_within hp0 hx.1 (neg_within hb1.2) hx.2 hb1.1 h1 h2).1.1 (him ▸ e)

/-! ### FMD4 and FMD5 -/

theorem good_div (U : Silence.Usual F) (a b : Ieee F) (ha : GoodIeee a) (hb : GoodIeee b) (h0 : b.val ≠ 0) (h : |(a.val : ℝ) / b.val| ≤ 2 ^ (F.emax - 1)) :
    GoodIeee (a / b) ∧ |((a / b).val : ℝ) - a.val / b.val| ≤ 1 / 2 ^ F.p * (|(a.val : ℝ) / b.val| + 2 ^ (F.emin + F.p - 1)) := by
  have hp : 0 < F.p := by have := U.p; omega
  have := round_range U (a.val / b.val) (by push_cast; exact h)
  have hf := (div_finite a b ha.1 hb.1 h0).mpr this.1
  refine ⟨⟨hf, div_valid hp a b⟩, ?_⟩
  rw [div_val hp a b ha.1 hb.1 ha.2 hb.2 hf h0]
  push_cast at this
  exact this.2

/-- The scaled quotient of a cross product and a norm. -/
theorem cross_finite (U : Silence.Usual F) (hp : 10 ≤ F.p) (K : ℕ) (s a b c d n : Ieee F) (hs : GoodIeee s) (hs' : |(s.val : ℝ)| ≤ 2 ^ (K : ℤ)) (ga : GoodIeee a) (gb : GoodIeee b) (gc : GoodIeee c) (gd : GoodIeee d)
    (gn : GoodIeee n) (H w : ℝ) (Q : ℤ) (h1 : |(a.val : ℝ) * b.val| ≤ H) (h2 : |(c.val : ℝ) * d.val| ≤ H) (he : 2 ^ F.emin ≤ H) (hH : 8 * H ≤ 2 ^ F.emax) (hw : 0 < w) (hn : w ≤ n.val) (hq : H ≤ 2 ^ Q * w)
    (hQ : 0 ≤ Q) (hQK : Q + K + 4 ≤ F.emax) : (s * ((a * b - c * d) / n)).Finite := by
  have hu := unit_small hp
  have u0 : (0 : ℝ) ≤ 1 / 2 ^ F.p := by positivity
  have u1 := U.emin
  have e2 : 1 / 2 ^ F.p * (2 : ℝ) ^ (F.emin + F.p - 1) = 2 ^ F.emin / 2 := by
    rw [zpow_sub₀ (by norm_num), zpow_add₀ (by norm_num), zpow_natCast, zpow_one]
    field_simp
  have eM : (2 : ℝ) ^ (F.emax - 1) = 2 ^ F.emax / 2 := by rw [zpow_sub₀ (by norm_num), zpow_one]
  have H0 : 0 < H := lt_of_lt_of_le (by positivity) he
  have err : ∀ t B : ℝ, |t| ≤ B → 1 / 2 ^ F.p * (|t| + 2 ^ (F.emin + F.p - 1)) ≤ 1 / 1000 * B + 2 ^ F.emin / 2 := by
    intro t B hB
    rw [mul_add, e2]
    have := mul_le_mul hu hB (abs_nonneg _) (by norm_num)
    linarith
  obtain ⟨g1, r1⟩ := good_mul U a b ga gb (by linarith)
  obtain ⟨g2, r2⟩ := good_mul U c d gc gd (by linarith)
  have v1 : |((a * b).val : ℝ)| ≤ 1.51 * H := by
    have := abs_sub_abs_le_abs_sub ((a * b).val : ℝ) (a.val * b.val)
    have := r1.trans (err _ _ h1)
    linarith
  have v2 : |((c * d).val : ℝ)| ≤ 1.51 * H := by
    have := abs_sub_abs_le_abs_sub ((c * d).val : ℝ) (c.val * d.val)
    have := r2.trans (err _ _ h2)
    linarith
  have v3 : |((a * b).val : ℝ) - (c * d).val| ≤ 3.02 * H := by
    have := abs_sub ((a * b).val : ℝ) (c * d).val
    linarith
  obtain ⟨g3, r3⟩ := good_sub U (a * b) (c * d) g1 g2 (by linarith)
  have v4 : |((a * b - c * d).val : ℝ)| ≤ 4 * H := by
    have := abs_sub_abs_le_abs_sub ((a * b - c * d).val : ℝ) ((a * b).val - (c * d).val)
    have := r3.trans (err _ _ v3)
    linarith
  have n0 : (0 : ℝ) < n.val := by linarith
  have n0' : n.val ≠ 0 := by
    intro h
    rw [h] at n0
    simp at n0
  have q0 : (0 : ℝ) < 2 ^ Q := by positivity
  have q1 : (1 : ℝ) ≤ 2 ^ Q := by have := zpow_mono2 hQ; rwa [zpow_zero] at this
  have v5 : |((a * b - c * d).val : ℝ) / n.val| ≤ 4 * 2 ^ Q := by
    rw [abs_div, abs_of_pos n0, div_le_iff₀ n0]
    have := mul_le_mul_of_nonneg_left hn q0.le
    linarith
  have k0 : (0 : ℝ) < 2 ^ (K : ℤ) := by positivity
  have k1 : (1 : ℝ) ≤ 2 ^ (K : ℤ) := by have := zpow_mono2 (show (0 : ℤ) ≤ K by omega); rwa [zpow_zero] at this
  have eQ : (2 : ℝ) ^ (Q + K + 4) = 16 * (2 ^ Q * 2 ^ (K : ℤ)) := by rw [zpow_add₀ (by norm_num), zpow_add₀ (by norm_num)]; norm_num; ring
  have m1 := zpow_mono2 hQK
  have m2 : (2 : ℝ) ^ Q ≤ 2 ^ Q * 2 ^ (K : ℤ) := le_mul_of_one_le_right q0.le k1
  obtain ⟨g4, r4⟩ := good_div U _ n g3 gn n0' (by linarith)
  have em1 : (2 : ℝ) ^ F.emin ≤ 1 := by have := zpow_mono2 (show F.emin ≤ 0 by omega); rwa [zpow_zero] at this
  have v6 : |(((a * b - c * d) / n).val : ℝ)| ≤ 5 * 2 ^ Q := by
    have := abs_sub_abs_le_abs_sub (((a * b - c * d) / n).val : ℝ) ((a * b - c * d).val / n.val)
    have := r4.trans (err _ _ v5)
    linarith
  refine (good_mul U s _ hs g4 ?_).1.1
  rw [abs_mul]
  have := mul_le_mul hs' v6 (abs_nonneg _) k0.le
  linarith

theorem scale_size {K : ℕ} {bw s : Ieee F} (hp : 10 ≤ F.p) (hb : Bandwidth K bw) (c : ℝ) (hc : 3 ≤ c) (hs' : |(s.val : ℝ) - 1 / (c * bw.val)| ≤ 4.2 * (1 / 2 ^ F.p) * |1 / (c * bw.val)|) : |(s.val : ℝ)| ≤ 2 ^ (K : ℤ) := by
  obtain ⟨b1, b2⟩ := bw_real hb
  have k0 := zpow_pos2 (-(K : ℤ))
  have k1 := zpow_pos2 (K : ℤ)
  have hkk : (2 : ℝ) ^ (K : ℤ) * 2 ^ (-(K : ℤ)) = 1 := by rw [← zpow_add₀ (by norm_num)]; norm_num
  have hb0 : 0 < |(bw.val : ℝ)| := by linarith
  have hu := unit_small hp
  have e : |1 / (c * bw.val)| ≤ 2 ^ (K : ℤ) / 3 := by
    rw [abs_div, abs_one, abs_mul, abs_of_pos (by linarith : 0 < c), div_le_div_iff₀ (by positivity) (by norm_num)]
    have h1 : 1 ≤ 2 ^ (K : ℤ) * |(bw.val : ℝ)| := by rw [← hkk]; exact mul_le_mul_of_nonneg_left b1 k1.le
    nlinarith
  have h := abs_sub_abs_le_abs_sub (s.val : ℝ) (1 / (c * bw.val))
  have h' : 4.2 * (1 / 2 ^ F.p) * |1 / (c * bw.val)| ≤ 4.2 * (1 / 1000) * (2 ^ (K : ℤ) / 3) := mul_le_mul (by linarith) e (abs_nonneg _) (by norm_num)
  linarith

/-- Sizes for `cross_finite`. -/
theorem cross_sizes {g h k : ℤ} (m : ℚ) (hm : 2 ^ (-k) ≤ m) (hm' : m ≤ 2 ^ h) (hgh : h ≤ g) (hk : 2 * k ≤ -F.emin) (ht : g + h + 3 ≤ F.emax) :
    (2 : ℝ) ^ F.emin ≤ 2 ^ g * (m : ℝ) ∧ 8 * (2 ^ g * (m : ℝ)) ≤ 2 ^ F.emax ∧ 0 < (m : ℝ) * m / 2 ∧ 2 ^ g * (m : ℝ) ≤ 2 ^ (g + k + 1) * ((m : ℝ) * m / 2) ∧ -k ≤ h := by
  have hm1 : (2 : ℝ) ^ (-k) ≤ m := by
    have := (Rat.cast_le (K := ℝ)).mpr hm
    push_cast at this
    exact this
  have hm2 : (m : ℝ) ≤ 2 ^ h := by
    have := (Rat.cast_le (K := ℝ)).mpr hm'
    push_cast at this
    exact this
  have k0 := zpow_pos2 (-k)
  have m0 : 0 < (m : ℝ) := by linarith
  have hkh : -k ≤ h := (zpow_le_zpow_iff_right₀ (by norm_num : (1 : ℝ) < 2)).mp (hm1.trans hm2)
  have g0 := zpow_pos2 g
  refine ⟨?_, ?_, by positivity, ?_, hkh⟩
  · calc (2 : ℝ) ^ F.emin ≤ 2 ^ (g + -k) := zpow_mono2 (by omega)
      _ = 2 ^ g * 2 ^ (-k) := zpow_add₀ (by norm_num) _ _
      _ ≤ _ := mul_le_mul_of_nonneg_left hm1 g0.le
  · calc 8 * (2 ^ g * (m : ℝ)) ≤ 8 * (2 ^ g * 2 ^ h) := by gcongr
      _ = 2 ^ (g + h + 3) := by rw [zpow_add₀ (by norm_num), zpow_add₀ (by norm_num)]; norm_num; ring
      _ ≤ _ := zpow_mono2 ht
  · have h1 : (1 : ℝ) ≤ 2 ^ k * m := by
      calc (1 : ℝ) = 2 ^ k * 2 ^ (-k) := by rw [← zpow_add₀ (by norm_num)]; simp
        _ ≤ _ := mul_le_mul_of_nonneg_left hm1 (by positivity)
    calc 2 ^ g * (m : ℝ) = 2 ^ g * m * 1 := by ring
      _ ≤ 2 ^ g * m * (2 ^ k * m) := mul_le_mul_of_nonneg_left h1 (by positivity)
      _ = _ := by rw [zpow_add₀ (by norm_num), zpow_add₀ (by norm_num), zpow_one]; ring

theorem mul_size {A B : ℝ} (a b : Ieee F) (ha : |(a.val : ℝ)| ≤ A) (hb : |(b.val : ℝ)| ≤ B) : |(a.val : ℝ) * b.val| ≤ A * B := by
  rw [abs_mul]
  exact mul_le_mul ha hb (abs_nonneg _) ((abs_nonneg _).trans ha)

theorem cast_size {a : ℚ} {m : ℚ} (h : |a| ≤ m) : |(a : ℝ)| ≤ m := by
  have := (Rat.cast_le (K := ℝ)).mpr h
  rwa [Rat.cast_abs] at this

theorem cast_pow {a : ℚ} {g : ℤ} (h : |a| ≤ 2 ^ g) : |(a : ℝ)| ≤ 2 ^ g := by
  have := cast_size h
  push_cast at this
  exact this

theorem norm_cast_le {m : ℚ} {v : ℚ} (h : m * m / 2 ≤ v) : (m : ℝ) * m / 2 ≤ v := by
  have := (Rat.cast_le (K := ℝ)).mpr h
  push_cast at this
  exact this

/-- **C115** `FMD4`: a sample that is not finite gives NaN, and so does a zero; the output after a sample that is not finite is not finite. If the parts of the two samples are at most `2^h`, the sample has
a part of at least `2^-k`, and these powers and the bandwidth stay within the range, then the output is finite. -/
theorem C115_fmd4 (U : Silence.Usual F) [NeZero F.p] (l : ℕ) (hp : 10 ≤ F.p) (hp' : F.p ≤ 53) (hl : F.p ≤ l) (K : ℕ) (bw : Ieee F) (hb : Bandwidth K bw) (x : ℕ → Cplx (Ieee F)) (n : ℕ) :
    let y := stream (call4Ieee (scaleIeee (piIeee l F) bw)) ⟨1, 0⟩ x n
    (¬FiniteParts (x n) ∨ IsZero (x n) → y = nan) ∧ (¬FiniteParts (before x n) → ¬y.Finite) ∧
    (∀ h k : ℤ, F.emin ≤ 2 * h → 2 * h + 3 ≤ F.emax → 2 * k ≤ -F.emin → h + k + K + 5 ≤ F.emax → Below h (x n) → Above k (x n) → Below h (before x n) → y.Finite) := by
  intro y
  have hp0 : 0 < F.p := by omega
  set a := before x n with ha
  have hy : y = scaleIeee (piIeee l F) bw * ((a.re * (x n).im - a.im * (x n).re) / (x n).norm) := by
    show (call4Ieee _ _ _).2 = _
    rw [states_prev _ (fun _ _ => rfl), ← ha]
    rfl
  rw [hy]
  obtain ⟨gs, es, -⟩ := scale_pi_good U l hp hp' hl K bw hb
  refine ⟨?_, ?_, ?_⟩
  · rintro (h | h)
    · rw [bad_div (bad_cross_right fun f => h ⟨f.2, f.1⟩) (norm_bad h), mul_nan]
    · rw [nil_div (nil_sub (nil_mul_right _ h.2) (nil_mul_right _ h.1)) (zero_norm h), mul_nan]
  · intro h
    exact mul_bad_right _ _ (div_bad _ _ (bad_cross_left fun f => h f))
  · intro h k h1 h2 h3 h4 hx hx' ha'
    obtain ⟨gn, m, m1, m2, m3, m4, m5⟩ := norm_low hp0 hx h1 (by omega) h3 hx'
    obtain ⟨c1, c2, c3, c4, c5⟩ := cross_sizes (F := F) m m1 m4 le_rfl h3 (by omega)
    exact cross_finite U hp K _ _ _ _ _ _ gs (scale_size hp hb Real.pi (by have := Real.pi_gt_three; linarith) es) ⟨ha'.1.1, ha'.1.2.1⟩ ⟨hx.2.1, hx.2.2.1⟩ ⟨ha'.2.1, ha'.2.2.1⟩ ⟨hx.1.1, hx.1.2.1⟩ gn
      (2 ^ h * m) (m * m / 2) (h + k + 1) (mul_size _ _ (cast_pow ha'.1.2.2) (cast_size m3)) (mul_size _ _ (cast_pow ha'.2.2.2) (cast_size m2)) c1 c2 c3 (norm_cast_le m5) c4 (by omega) (by omega)

/-- The two samples that `FMD5` keeps. -/
theorem states_prev5 (s : Ieee F) (x : ℕ → Cplx (Ieee F)) (n : ℕ) : states (call5Ieee s) (⟨1, 0⟩, ⟨1, 0⟩) x n = (before x n, before (before x) n) := by
  induction n with
  | zero => rfl
  | succ n ih =>
    show (call5Ieee s (states (call5Ieee s) (⟨1, 0⟩, ⟨1, 0⟩) x n) (x n)).1 = (x n, before x n)
    rw [ih]
    rfl

/-- **C115** `FMD5`: a sample that is not finite spoils three outputs, the middle one is NaN; a zero gives NaN one sample later. Within the range the outputs are finite. -/
theorem C115_fmd5 (U : Silence.Usual F) [NeZero F.p] (l : ℕ) (hp : 10 ≤ F.p) (hp' : F.p ≤ 53) (hl : F.p ≤ l) (K : ℕ) (bw : Ieee F) (hb : Bandwidth K bw) (x : ℕ → Cplx (Ieee F)) (n : ℕ) :
    let y := stream (call5Ieee (scaleIeee (twoPiIeee l F) bw)) (⟨1, 0⟩, ⟨1, 0⟩) x n
    (¬FiniteParts (before x n) ∨ IsZero (before x n) → y = nan) ∧ (¬FiniteParts (x n) ∨ ¬FiniteParts (before (before x) n) → ¬y.Finite) ∧
    (∀ h k : ℤ, F.emin ≤ 2 * h → 2 * h + 4 ≤ F.emax → 0 ≤ h → 2 * k ≤ -F.emin → h + k + K + 6 ≤ F.emax → Below h (x n) → Below h (before x n) → Above k (before x n) → Below h (before (before x) n) → y.Finite) := by
  intro y
  have hp0 : 0 < F.p := by omega
  set a := before x n with ha
  set b := before (before x) n with hb'
  have hy : y = scaleIeee (twoPiIeee l F) bw * ((a.re * ((x n).im - b.im) - a.im * ((x n).re - b.re)) / a.norm) := by
    show (call5Ieee _ _ _).2 = _
    rw [states_prev5, ← ha, ← hb']
    rfl
  rw [hy]
  obtain ⟨gP, eP, P1, P2⟩ := twoPi_good U l hp hp' hl
  obtain ⟨gs, es⟩ := scale_good U hp K bw (twoPiIeee l F) hb (2 * Real.pi) (by have := Real.pi_pos; linarith) gP (by linarith) (by linarith) eP
  refine ⟨?_, ?_, ?_⟩
  · rintro (h | h)
    · rw [bad_div (bad_cross_left fun f => h f) (norm_bad h), mul_nan]
    · rw [nil_div (nil_sub (nil_mul_left _ h.1) (nil_mul_left _ h.2)) (zero_norm h), mul_nan]
  · intro h
    refine mul_bad_right _ _ (div_bad _ _ (bad_cross_right fun f => ?_))
    have f1 := of_sub f.1
    have f2 := of_sub f.2
    rcases h with h | h
    · exact h ⟨f2.1, f1.1⟩
    · exact h ⟨f2.2, f1.2⟩
  · intro h k h1 h2 h0 h3 h4 hx ha' ha'' hbb
    have u1 := U.emin
    obtain ⟨gn, m, m1, m2, m3, m4, m5⟩ := norm_low hp0 ha' h1 (by omega) h3 ha''
    have d1 := double_within_sub hp0 hx.1 hbb.1 (by omega) (by omega)
    have d2 := double_within_sub hp0 hx.2 hbb.2 (by omega) (by omega)
    obtain ⟨c1, c2, c3, c4, c5⟩ := cross_sizes (F := F) (g := h + 1) m m1 m4 (by omega) h3 (by omega)
    rw [mul_comm ((2 : ℝ) ^ (h + 1))] at c1 c2 c4
    exact cross_finite U hp K _ _ _ _ _ _ gs (scale_size hp hb (2 * Real.pi) (by have := Real.pi_gt_three; linarith) es) ⟨ha'.1.1, ha'.1.2.1⟩ ⟨d2.1, d2.2.1⟩ ⟨ha'.2.1, ha'.2.2.1⟩ ⟨d1.1, d1.2.1⟩ gn
      (m * 2 ^ (h + 1)) (m * m / 2) (h + 1 + k + 1) (mul_size _ _ (cast_size m2) (cast_pow d2.2.2)) (mul_size _ _ (cast_size m3) (cast_pow d1.2.2)) c1 c2 c3 (norm_cast_le m5) c4 (by omega) (by omega)

/-! ### Recovery -/

/-- **C115** After a disturbance all outputs are again what they would have been without it: exactly, from the second undisturbed sample on, with `FMD5` from the third. -/
theorem C115_recovery (atan2 : Ieee F → Ieee F → Ieee F) (pi twoPi s : Ieee F) (x x' : ℕ → Cplx (Ieee F)) (n : ℕ) (hx : ∀ m, n ≤ m → x m = x' m) (m : ℕ) :
    (∀ a a', n < m → stream (call1Ieee atan2 pi twoPi s) a x m = stream (call1Ieee atan2 pi twoPi s) a' x' m) ∧
    (∀ a a', n < m → stream (call2Ieee atan2 s) a x m = stream (call2Ieee atan2 s) a' x' m) ∧
    (∀ a a', n < m → stream (call3Ieee atan2 s) a x m = stream (call3Ieee atan2 s) a' x' m) ∧
    (∀ a a', n < m → stream (call4Ieee s) a x m = stream (call4Ieee s) a' x' m) ∧
    (∀ a a', n + 1 < m → stream (call5Ieee s) a x m = stream (call5Ieee s) a' x' m) := by
  have one : ∀ {A : Type} (call : A → Cplx (Ieee F) → A × Ieee F), (∀ a b z, (call a z).1 = (call b z).1) → ∀ a a', n < m → stream call a x m = stream call a' x' m := by
    intro A call hc a a' hm
    obtain ⟨k, rfl⟩ : ∃ k, m = k + 1 := ⟨m - 1, by omega⟩
    show (call (call (states call a x k) (x k)).1 (x (k + 1))).2 = (call (call (states call a' x' k) (x' k)).1 (x' (k + 1))).2
    rw [hx k (by omega), hx (k + 1) (by omega), hc _ (states call a' x' k)]
  refine ⟨one _ fun _ _ _ => rfl, one _ fun _ _ _ => rfl, one _ fun _ _ _ => rfl, one _ fun _ _ _ => rfl, fun a a' hm => ?_⟩
  obtain ⟨k, rfl⟩ : ∃ k, m = k + 2 := ⟨m - 2, by omega⟩
  show (call5Ieee s (x (k + 1), x k) (x (k + 2))).2 = (call5Ieee s (x' (k + 1), x' k) (x' (k + 2))).2
  rw [hx k (by omega), hx (k + 1) (by omega), hx (k + 2) (by omega)]

/-! ### Weak and strong signals -/

theorem below_product (hp : 0 < F.p) {g h : ℤ} {a b : Ieee F} (ha : Range.Within (2 ^ g) a) (hb : Range.Within (2 ^ h) b) (hgh : g + h + 2 ≤ F.emin) : ∃ s, a * b = Ieee.num s 0 := by
  refine tiny_mul hp ha.1 hb.1 ?_
  calc |a.val| * |b.val| ≤ 2 ^ g * 2 ^ h := mul_le_mul ha.2.2 hb.2.2 (abs_nonneg _) (by positivity)
    _ = 2 ^ (g + h) := (zpow_add₀ (by norm_num) _ _).symm
    _ ≤ 2 ^ (F.emin - 2) := zpow_le_zpow_right₀ (by norm_num) (by omega)
    _ = 2 ^ F.emin / 4 := by rw [zpow_sub₀ (by norm_num)]; norm_num
    _ < 2 ^ F.emin / 2 := by
      have : (0 : ℚ) < 2 ^ F.emin := by positivity
      linarith

theorem zeros_sub {a b : Ieee F} (ha : ∃ s, a = Ieee.num s 0) (hb : ∃ s, b = Ieee.num s 0) : ∃ s, a - b = Ieee.num s 0 := by
  obtain ⟨s, rfl⟩ := ha
  obtain ⟨t, rfl⟩ := hb
  exact ⟨_, zero_add_zero s !t⟩

theorem zeros_add {a b : Ieee F} (ha : ∃ s, a = Ieee.num s 0) (hb : ∃ s, b = Ieee.num s 0) : ∃ s, a + b = Ieee.num s 0 := by
  obtain ⟨s, rfl⟩ := ha
  obtain ⟨t, rfl⟩ := hb
  exact ⟨_, zero_add_zero s t⟩

/-- **C115** A signal whose parts stay so small that their products underflow (`2^-76` for `float`): `FMD2`, `FMD4` and `FMD5` output NaN only, and `FMD3` only the scaled angles of zeros, whatever the
frequency is. -/
theorem C115_weak (hp : 0 < F.p) (atan2 : Ieee F → Ieee F → Ieee F) (hA : atan2 nan nan = nan) (s : Ieee F) (k : ℤ) (h1 : 3 - F.emin ≤ 2 * k) (h2 : k ≤ -F.emin) (h3 : 0 ≤ F.emax) (x : ℕ → Cplx (Ieee F)) (hx : ∀ n, Below (-k) (x n)) (n : ℕ) :
    stream (call2Ieee atan2 s) ⟨1, 0⟩ x (n + 1) = nan ∧ (∃ t u, stream (call3Ieee atan2 s) ⟨1, 0⟩ x (n + 1) = s * atan2 (Ieee.num t 0) (Ieee.num u 0)) ∧
    stream (call4Ieee s) ⟨1, 0⟩ x (n + 1) = nan ∧ stream (call5Ieee s) (⟨1, 0⟩, ⟨1, 0⟩) x (n + 2) = nan := by
  have prod : ∀ {a b : Ieee F}, Range.Within (2 ^ (-k)) a → Range.Within (2 ^ (-k)) b → ∃ s, a * b = Ieee.num s 0 := fun ha hb => below_product hp ha hb (by omega)
  have nrm : ∀ m, ∃ s, (x m).norm = Ieee.num s 0 := fun m => zeros_add (prod (hx m).1 (hx m).1) (prod (hx m).2 (hx m).2)
  refine ⟨?_, ?_, ?_, ?_⟩
  · show s * atan2 (((x (n + 1)).im * (x n).re - (x (n + 1)).re * (x n).im) / (x n).norm) (((x (n + 1)).re * (x n).re + (x (n + 1)).im * (x n).im) / (x n).norm) = nan
    rw [nil_div (.inr (zeros_sub (prod (hx _).2 (hx _).1) (prod (hx _).1 (hx _).2))) (nrm n), nil_div (.inr (zeros_add (prod (hx _).1 (hx _).1) (prod (hx _).2 (hx _).2))) (nrm n), hA, mul_nan]
  · obtain ⟨u, hu⟩ := zeros_sub (prod (hx (n + 1)).1 (hx n).1) (prod (hx (n + 1)).2 (neg_within (hx n).2))
    obtain ⟨t, ht⟩ := zeros_add (prod (hx (n + 1)).1 (neg_within (hx n).2)) (prod (hx (n + 1)).2 (hx n).1)
    refine ⟨t, u, ?_⟩
    show s * atan2 ((x (n + 1)).re * -(x n).im + (x (n + 1)).im * (x n).re) ((x (n + 1)).re * (x n).re - (x (n + 1)).im * -(x n).im) = _
    rw [hu, ht]
  · show s * (((x n).re * (x (n + 1)).im - (x n).im * (x (n + 1)).re) / (x (n + 1)).norm) = nan
    rw [nil_div (.inr (zeros_sub (prod (hx _).1 (hx _).2) (prod (hx _).2 (hx _).1))) (nrm _), mul_nan]
  · show s * (((x (n + 1)).re * ((x (n + 2)).im - (x n).im) - (x (n + 1)).im * ((x (n + 2)).re - (x n).re)) / (x (n + 1)).norm) = nan
    have d1 := double_within_sub hp (hx (n + 2)).1 (hx n).1 (by omega) (by omega)
    have d2 := double_within_sub hp (hx (n + 2)).2 (hx n).2 (by omega) (by omega)
    rw [nil_div (.inr (zeros_sub (below_product hp (hx _).1 d2 (by omega)) (below_product hp (hx _).2 d1 (by omega)))) (nrm _), mul_nan]

/-- The product of two numbers from the square root of the range on. -/
theorem strong_mul (U : Silence.Usual F) (s t : Bool) (r : ℚ) (k : ℕ) (hk : F.emax ≤ 2 * k) (hr : 2 ^ k ≤ r) : (Ieee.num s r * Ieee.num t r : Ieee F) = inf (s ^^ t) := by
  have h := square_inf U false r k hk hr
  rw [num_mul, pack_cases, Bool.xor_self] at h
  rw [num_mul, pack_cases]
  split at h
  · rename_i h'; rw [if_pos h']
  · cases h

theorem strong_norm (U : Silence.Usual F) (z : Cplx (Ieee F)) (s t : Bool) (r : ℚ) (k : ℕ) (hk : F.emax ≤ 2 * k) (hr : 2 ^ k ≤ r) (h1 : z.re = Ieee.num s r) (h2 : z.im = Ieee.num t r) : z.norm = inf false := by
  show z.re * z.re + z.im * z.im = _
  rw [h1, h2, strong_mul U _ _ _ k hk hr, strong_mul U _ _ _ k hk hr, Bool.xor_self, Bool.xor_self]
  rfl

/-- **C115** A tone of a quarter turn per sample with parts so large that their squares overflow (`2^64` for `float`): `FMD2`, `FMD3`, `FMD4` and `FMD5` output NaN only. The outputs of `FMD1` are finite by
`C115_fmd1`. -/
theorem C115_strong (U : Silence.Usual F) (atan2 : Ieee F → Ieee F → Ieee F) (hA : ∀ y, atan2 y nan = nan) (s : Ieee F) (r : ℚ) (k : ℕ) (hk : F.emax ≤ 2 * k) (hr : 2 ^ k ≤ r) (x : ℕ → Cplx (Ieee F)) (a b : ℕ → Bool)
    (hre : ∀ n, (x n).re = Ieee.num (a n) r) (him : ∀ n, (x n).im = Ieee.num (b n) r) (ha : ∀ n, a (n + 1) = !b n) (hb : ∀ n, b (n + 1) = a n) (n : ℕ) :
    stream (call2Ieee atan2 s) ⟨1, 0⟩ x (n + 1) = nan ∧ stream (call3Ieee atan2 s) ⟨1, 0⟩ x (n + 1) = nan ∧
    stream (call4Ieee s) ⟨1, 0⟩ x (n + 1) = nan ∧ stream (call5Ieee s) (⟨1, 0⟩, ⟨1, 0⟩) x (n + 2) = nan := by
  have hp : 0 < F.p := by have := U.p; omega
  have sm := fun s t => strong_mul U s t r k hk hr
  have r0 : 0 < r := lt_of_lt_of_le (by positivity) hr
  have r1 : 1 ≤ r := (one_le_pow₀ (by norm_num)).trans hr
  refine ⟨?_, ?_, ?_, ?_⟩
  · show s * atan2 _ (((x (n + 1)).re * (x n).re + (x (n + 1)).im * (x n).im) / (x n).norm) = nan
    rw [hre, hre, him, him, sm, sm, ha, hb]
    cases a n <;> cases b n <;> (show s * atan2 _ (nan / _) = nan) <;> rw [nan_div, hA, mul_nan]
  · show s * atan2 _ ((x (n + 1)).re * (x n).re - (x (n + 1)).im * -(x n).im) = nan
    rw [hre, hre, him, him, show -(Ieee.num (b n) r : Ieee F) = Ieee.num (!b n) r from rfl, sm, sm, ha, hb]
    cases a n <;> cases b n <;> (show s * atan2 _ nan = nan) <;> rw [hA, mul_nan]
  · show s * (((x n).re * (x (n + 1)).im - (x n).im * (x (n + 1)).re) / (x (n + 1)).norm) = nan
    rw [strong_norm U (x (n + 1)) _ _ r k hk hr (hre _) (him _), bad_div _ (.inr rfl), mul_nan]
    rw [hre, him, sm]
    exact sub_bad_left _ _ (fun h => h)
  · show s * (((x (n + 1)).re * ((x (n + 2)).im - (x n).im) - (x (n + 1)).im * ((x (n + 2)).re - (x n).re)) / (x (n + 1)).norm) = nan
    rw [strong_norm U (x (n + 1)) _ _ r k hk hr (hre _) (him _), bad_div _ (.inr rfl), mul_nan]
    refine sub_bad_left _ _ ?_
    rw [him, him, hb, ha, hre]
    have e : ∃ t q, 2 ^ k ≤ q ∧ (Ieee.num (!b n) r - Ieee.num (b n) r : Ieee F) = Ieee.num t q ∨ ¬(Ieee.num (!b n) r - Ieee.num (b n) r : Ieee F).Finite := by
      by_cases hf : (Ieee.num (!b n) r - Ieee.num (b n) r : Ieee F).Finite
      · obtain ⟨t, q, e⟩ := (finite_iff _).mp hf
        refine ⟨t, q, .inl ⟨?_, e⟩⟩
        have hs : (Ieee.num (!b n) r - Ieee.num (b n) r : Ieee F) = Ieee.num (!b n) r + Ieee.num (!b n) r := rfl
        rw [hs, add_num] at e
        have e1 : signed (!b n) r + signed (!b n) r = signed (!b n) (2 * r) := by cases b n <;> simp [signed] <;> ring
        have e2 : signed (!b n) (2 * r) ≠ 0 := by
          intro h
          have := signed_abs (!b n) (2 * r)
          rw [h, abs_zero, abs_of_pos (by linarith)] at this
          linarith
        rw [e1, if_neg e2, pack_cases] at e
        split at e
        · cases e
        · injection e with _ e
          rw [← e, roundTo_abs hp, signed_abs, abs_of_pos (by linarith : 0 < 2 * r)]
          have he : F.emin ≤ k := by have := U.emin; omega
          have := le_roundTo hp (2 * r) (2 ^ (k : ℤ)) (Range.fits_pow hp k he) (by rw [zpow_natCast]; linarith)
          rwa [zpow_natCast] at this
      · exact ⟨true, 0, .inr hf⟩
    obtain ⟨t, q, ⟨hq, e⟩ | e⟩ := e
    · rw [e, num_mul, pack_cases, if_pos]
      · exact fun h => h
      · have h1 : (2 : ℚ) ^ F.emax ≤ r * q := by
          calc (2 : ℚ) ^ F.emax ≤ 2 ^ (2 * k : ℤ) := zpow_le_zpow_right₀ (by norm_num) hk
            _ = 2 ^ k * 2 ^ k := by rw [two_mul, zpow_add₀ (by norm_num), zpow_natCast]
            _ ≤ _ := mul_le_mul hr hq (by positivity) r0.le
        have he : F.emin ≤ F.emax := by have := U.emin; have := U.emax; omega
        exact (le_roundTo hp _ _ (Range.fits_pow hp _ he) h1).trans (le_abs_self _)
    · exact mul_bad_right _ _ e

/-! ### Examples -/

/-- An arc tangent that knows zero and two other angles. -/
def coarse (y x : Ieee .single) : Ieee .single := if y = nan ∨ x = nan then nan else if y < 0 then literal (-3 / 2) else if 0 < y then literal (3 / 2) else 0

example : coarse (literal 1) 0 = literal (3 / 2) ∧ coarse nan 0 = nan ∧ coarse (inf true) (inf false) = literal (-3 / 2) := by decide +kernel

instance : NeZero Format.single.p := ⟨by decide⟩

example : ArcTangent (piIeee 64 .single).val coarse where
  left x := by simp [coarse]
  right y := by simp [coarse]
  good y x hy hx := by
    have h1 : (literal (-3 / 2) : Ieee .single).Finite ∧ (literal (-3 / 2) : Ieee .single).Valid ∧ |(literal (-3 / 2) : Ieee .single).val| ≤ (piIeee 64 .single).val := ⟨by decide +kernel, pack_valid (by decide) _ _, by decide +kernel⟩
    have h2 : (literal (3 / 2) : Ieee .single).Finite ∧ (literal (3 / 2) : Ieee .single).Valid ∧ |(literal (3 / 2) : Ieee .single).val| ≤ (piIeee 64 .single).val := ⟨by decide +kernel, pack_valid (by decide) _ _, by decide +kernel⟩
    have h3 : (0 : Ieee .single).Finite ∧ (0 : Ieee .single).Valid ∧ |(0 : Ieee .single).val| ≤ (piIeee 64 .single).val := ⟨trivial, (zero_good (F := .single)).1.2, by decide +kernel⟩
    unfold coarse
    rw [if_neg (not_or.mpr ⟨hy, hx⟩)]
    split_ifs
    exacts [h1, h2, h3]

example : Bandwidth 10 (literal (1 / 4) : Ieee .single) := ⟨by decide +kernel, pack_valid (by decide) _ _, by decide +kernel, by decide +kernel, by decide, by decide⟩

example : IsZero (⟨0, Ieee.num true 0⟩ : Cplx (Ieee .single)) ∧ HasNan (⟨nan, 1⟩ : Cplx (Ieee .single)) ∧ ¬FiniteParts (⟨inf true, 1⟩ : Cplx (Ieee .single)) := ⟨⟨⟨_, rfl⟩, _, rfl⟩, .inl rfl, fun h => h.1⟩

example : Below 0 (⟨literal (3 / 4), literal (-1 / 8)⟩ : Cplx (Ieee .single)) ∧ Above 3 (⟨literal (3 / 4), literal (-1 / 8)⟩ : Cplx (Ieee .single)) :=
  ⟨⟨⟨by decide +kernel, pack_valid (by decide) _ _, by decide +kernel⟩, by decide +kernel, pack_valid (by decide) _ _, by decide +kernel⟩, .inl (by decide +kernel)⟩

example : Below (-76) (⟨literal (1 / 2 ^ 80), literal (-1 / 2 ^ 76)⟩ : Cplx (Ieee .single)) ∧ 3 - Format.single.emin ≤ 2 * 76 :=
  ⟨⟨⟨by decide +kernel, pack_valid (by decide) _ _, by decide +kernel⟩, by decide +kernel, pack_valid (by decide) _ _, by decide +kernel⟩, by decide⟩

example : Format.single.emax ≤ 2 * 64 ∧ (literal (2 ^ 64) : Ieee .single) = Ieee.num false (2 ^ 64) := by decide +kernel

end FMDRounded
end DSP
