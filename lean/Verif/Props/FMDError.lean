import Verif.Model.DemodRounded
import Verif.Props.FMD
import Verif.Props.PhasorError
import Verif.Props.FirError
import Verif.Props.AtanError
import Verif.Lemmas.BinaryUnits
import Verif.Lemmas.BinaryMono
import Verif.Lemmas.IntRound
import Verif.Lemmas.RelSize
import Verif.Lemmas.Rotation

/-!
# The frequency demodulators in floating point (C93)
-/

namespace DSP
namespace FMDRounded

open Spec Complex

/-! ### Angles -/

/-- Turning `a` by the angle `θ` gives the direction of `x`. -/
def Advance (a x : ℂ) (θ : ℝ) : Prop := x * ‖a‖ = a * ‖x‖ * exp (θ * I)

theorem arg_exp (z : ℂ) (h : z ≠ 0) : exp (arg z * I) = z / ‖z‖ := by
  have hz : (‖z‖ : ℂ) ≠ 0 := by exact_mod_cast norm_ne_zero_iff.mpr h
  rw [eq_div_iff hz, mul_comm]
  exact norm_mul_exp_arg_mul_I z

theorem advance_arg (a x : ℂ) (ha : a ≠ 0) (hx : x ≠ 0) : Advance a x (arg (x / a)) := by
  have h1 : (‖a‖ : ℂ) ≠ 0 := by exact_mod_cast norm_ne_zero_iff.mpr ha
  have h2 : (‖x‖ : ℂ) ≠ 0 := by exact_mod_cast norm_ne_zero_iff.mpr hx
  unfold Advance
  rw [arg_exp _ (div_ne_zero hx ha), norm_div]
  push_cast
  field_simp

/-- Angles of the same turn that are not far from zero are the same. -/
theorem advance_unique (a x : ℂ) (ha : a ≠ 0) (hx : x ≠ 0) (θ φ : ℝ) (h1 : Advance a x θ) (h2 : Advance a x φ) (h : |θ| + |φ| < 2 * Real.pi) : θ = φ := by
  have h3 : (‖x‖ : ℂ) ≠ 0 := by exact_mod_cast norm_ne_zero_iff.mpr hx
  have e : exp (θ * I) = exp (φ * I) := by
    unfold Advance at h1 h2
    rw [h1] at h2
    exact mul_left_cancel₀ (mul_ne_zero ha h3) h2
  obtain ⟨n, hn⟩ := exp_eq_exp_iff_exists_int.mp e
  have hn' : θ = φ + n * (2 * Real.pi) := by
    have h4 : ((θ : ℂ) - (φ + n * (2 * Real.pi))) * I = 0 := by rw [sub_mul, hn]; ring
    rcases mul_eq_zero.mp h4 with h5 | h5
    · have : (θ : ℂ) = ((φ + n * (2 * Real.pi) : ℝ) : ℂ) := by push_cast; linear_combination h5
      exact_mod_cast this
    · exact absurd h5 I_ne_zero
  have hpi := Real.pi_pos
  have hlt : |(n : ℝ)| * (2 * Real.pi) < 1 * (2 * Real.pi) := by
    have : |(n : ℝ) * (2 * Real.pi)| ≤ |θ| + |φ| := by
      rw [show (n : ℝ) * (2 * Real.pi) = θ - φ by linarith]; exact abs_sub _ _
    rw [abs_mul, abs_of_pos (by linarith : 0 < 2 * Real.pi)] at this
    linarith
  have hn0 : |(n : ℝ)| < 1 := lt_of_mul_lt_mul_right hlt (by linarith)
  have : n = 0 := by
    have : |n| < 1 := by exact_mod_cast hn0
    exact Int.abs_lt_one_iff.mp this
  rw [hn', this]; simp

/-- A number near a positive multiple of `x / a` has nearly the angle of an advance. -/
theorem angle_near (a x w z : ℂ) (c κ : ℝ) (ha : a ≠ 0) (hx : x ≠ 0) (hc : 0 < c) (hz : z = c * (x / a)) (hκ : κ ≤ 1 / 11) (h : ‖w - z‖ ≤ κ * ‖z‖) :
    w ≠ 0 ∧ ∃ θ, Advance a x θ ∧ |arg w - θ| ≤ 1.1 * κ := by
  have hq0 : x / a ≠ 0 := div_ne_zero hx ha
  have hc' : (c : ℂ) ≠ 0 := by exact_mod_cast hc.ne'
  have hz0 : z ≠ 0 := by rw [hz]; exact mul_ne_zero hc' hq0
  have hn : 0 < ‖z‖ := norm_pos_iff.mpr hz0
  have hw0 : w ≠ 0 := by
    rintro rfl
    rw [zero_sub, norm_neg] at h
    nlinarith
  have hd : ‖(w - z) / z‖ ≤ κ := by rw [norm_div, div_le_iff₀ hn]; exact h
  have hd0 := norm_nonneg ((w - z) / z)
  have h1 := Rotation.arg_one_add ((w - z) / z) (by linarith)
  have e : 1 + (w - z) / z = w / z := by field_simp; ring
  rw [e] at h1
  refine ⟨hw0, arg w - arg (w / z), ?_, ?_⟩
  · have hwn : (‖w‖ : ℂ) ≠ 0 := by exact_mod_cast norm_ne_zero_iff.mpr hw0
    have hzn : (‖z‖ : ℂ) ≠ 0 := by exact_mod_cast hn.ne'
    have e2 : exp (((arg w - arg (w / z) : ℝ) : ℂ) * I) = z / ‖z‖ := by
      push_cast
      rw [sub_mul, exp_sub, arg_exp w hw0, arg_exp _ (div_ne_zero hw0 hz0), norm_div]
      push_cast
      field_simp
    have h1 : (‖a‖ : ℂ) ≠ 0 := by exact_mod_cast norm_ne_zero_iff.mpr ha
    have h2 : (‖x‖ : ℂ) ≠ 0 := by exact_mod_cast norm_ne_zero_iff.mpr hx
    unfold Advance
    rw [e2, hz, norm_mul, norm_div, norm_real, Real.norm_of_nonneg hc.le]
    push_cast
    field_simp
  · rw [sub_sub_cancel]
    refine h1.trans ?_
    rw [div_le_iff₀ (by linarith)]
    nlinarith

/-- The output `y` is an advance from `a` to `x` in half turns over the bandwidth up to `E`, namely the principal one unless it is within `δ` of half a turn. -/
def Within (bw E δ : ℝ) (a x : ℂ) (y : ℝ) : Prop :=
  ∃ θ, Advance a x θ ∧ |y - θ / Real.pi / bw| ≤ E / (Real.pi * |bw|) ∧ (|arg (x / a)| < Real.pi - δ → θ = arg (x / a))

/-! ### The scale -/

theorem scaled_real (u c b s r θ y e : ℝ) (hu0 : 0 ≤ u) (hu : u ≤ 1 / 1000) (hc : 0 < c) (hb : b ≠ 0) (hs : |s - 1 / (c * b)| ≤ 4.2 * u * |1 / (c * b)|) (hr : |r - θ| ≤ e)
    (hy : |y - s * r| ≤ u * |s * r|) : |y - θ / c / b| ≤ (1.01 * e + 5.3 * u * |θ|) / (c * |b|) := by
  have hcb : c * b ≠ 0 := mul_ne_zero hc.ne' hb
  have e0 : 0 ≤ e := (abs_nonneg _).trans hr
  set k := 1 / (c * b) with hk
  have hk' : |k| = 1 / (c * |b|) := by rw [hk, abs_div, abs_one, abs_mul, abs_of_pos hc]
  have h1 : |s| ≤ (1 + 4.2 * u) * |k| := by
    have := abs_sub_abs_le_abs_sub s k
    linarith
  have h2 : |r| ≤ e + |θ| := by
    have := abs_sub_abs_le_abs_sub r θ
    linarith
  have hk0 := abs_nonneg k
  have hθ := abs_nonneg θ
  have d1 : |s * r - k * θ| ≤ (1 + 4.2 * u) * |k| * e + 4.2 * u * |k| * |θ| := by
    calc |s * r - k * θ| = |s * (r - θ) + (s - k) * θ| := by ring_nf
      _ ≤ |s| * |r - θ| + |s - k| * |θ| := by rw [← abs_mul, ← abs_mul]; exact abs_add_le _ _
      _ ≤ _ := add_le_add (mul_le_mul h1 hr (abs_nonneg _) (by positivity)) (mul_le_mul_of_nonneg_right hs hθ)
  have d2 : |s * r| ≤ (1 + 4.2 * u) * |k| * (e + |θ|) := by
    rw [abs_mul]; exact mul_le_mul h1 h2 (abs_nonneg _) (by positivity)
  have d3 : |y - k * θ| ≤ |k| * (1.01 * e + 5.3 * u * |θ|) := by
    calc |y - k * θ| ≤ |y - s * r| + |s * r - k * θ| := abs_sub_le _ _ _
      _ ≤ u * ((1 + 4.2 * u) * |k| * (e + |θ|)) + ((1 + 4.2 * u) * |k| * e + 4.2 * u * |k| * |θ|) := add_le_add (hy.trans (mul_le_mul_of_nonneg_left d2 hu0)) d1
      _ = |k| * (((1 + u) * (1 + 4.2 * u)) * e + ((1 + 4.2 * u) + 4.2) * u * |θ|) := by ring
      _ ≤ _ := by
        have a1 : (1 + u) * (1 + 4.2 * u) ≤ 1.01 := by nlinarith
        have a2 : ((1 + 4.2 * u) + 4.2) * u ≤ 5.3 * u := by nlinarith
        gcongr
  rw [show θ / c / b = k * θ by rw [hk]; field_simp]
  calc _ ≤ _ := d3
    _ = _ := by rw [hk']; ring

variable (l p : ℕ) [NeZero p]

theorem pi_error (hp : p ≤ 53) (hl : p ≤ l) : |((constPi l p).val : ℝ) - Real.pi| ≤ 2.01 / 2 ^ p * Real.pi := by
  have h := literal_error l p hl 3.141592653589793238462643383279502884197169399375105820974944592307
  obtain ⟨h1, -, -⟩ := Atan.pi_const
  have hp' : (1 : ℝ) / 2 ^ 53 ≤ 1 / 2 ^ p := by gcongr; norm_num
  have hpi := Real.pi_gt_d2
  have e : ((3.141592653589793238462643383279502884197169399375105820974944592307 : ℚ) : ℝ) = Const.pi := by unfold Const.pi; push_cast; norm_num
  rw [e] at h
  have c0 : 0 < Const.pi := by unfold Const.pi; norm_num
  rw [abs_of_pos c0] at h
  have c1 := (abs_le.mp h1).2
  calc _ ≤ |((constPi l p).val : ℝ) - Const.pi| + |Const.pi - Real.pi| := abs_sub_le _ _ _
    _ ≤ 2 * (1 / 2 ^ p) * Const.pi + 1 / 10 ^ 19 := add_le_add h h1
    _ ≤ 2 * (1 / 2 ^ p) * (Real.pi + 1 / 10 ^ 19) + 1 / 10 ^ 19 := by gcongr; linarith
    _ ≤ 2.01 * (1 / 2 ^ p) * Real.pi := by
      have : (1 : ℝ) / 10 ^ 19 ≤ 0.002 * (1 / 2 ^ 53) := by norm_num
      have hu0 : (0 : ℝ) ≤ 1 / 2 ^ p := by positivity
      nlinarith
    _ = _ := by ring

theorem twoPi_error (hp : p ≤ 53) (hl : p ≤ l) : |((constTwoPi l p).val : ℝ) - 2 * Real.pi| ≤ 2.01 / 2 ^ p * (2 * Real.pi) := by
  have h := literal_error l p hl 6.283185307179586476925286766559005768394338798750211641949889184615
  have h1 : |Const.twoPi - 2 * Real.pi| ≤ 1 / 10 ^ 18 := by
    have a := Real.pi_gt_d20
    have b := Real.pi_lt_d20
    simp only [Const.twoPi, abs_le]
    norm_num at a b ⊢
    constructor <;> linarith
  have hp' : (1 : ℝ) / 2 ^ 53 ≤ 1 / 2 ^ p := by gcongr; norm_num
  have hpi := Real.pi_gt_d2
  have e : ((6.283185307179586476925286766559005768394338798750211641949889184615 : ℚ) : ℝ) = Const.twoPi := by unfold Const.twoPi; push_cast; norm_num
  rw [e] at h
  have c0 : 0 < Const.twoPi := by unfold Const.twoPi; norm_num
  rw [abs_of_pos c0] at h
  have c1 := (abs_le.mp h1).2
  calc _ ≤ |((constTwoPi l p).val : ℝ) - Const.twoPi| + |Const.twoPi - 2 * Real.pi| := abs_sub_le _ _ _
    _ ≤ 2 * (1 / 2 ^ p) * Const.twoPi + 1 / 10 ^ 18 := add_le_add h h1
    _ ≤ 2 * (1 / 2 ^ p) * (2 * Real.pi + 1 / 10 ^ 18) + 1 / 10 ^ 18 := by gcongr; linarith
    _ ≤ 2.01 * (1 / 2 ^ p) * (2 * Real.pi) := by
      have : (1 : ℝ) / 10 ^ 18 ≤ 0.02 * (1 / 2 ^ 53) := by norm_num
      have hu0 : (0 : ℝ) ≤ 1 / 2 ^ p := by positivity
      nlinarith
    _ = _ := by ring

theorem scale_real (u c P b m s : ℝ) (hu0 : 0 ≤ u) (hu : u ≤ 1 / 1000) (hc : 0 < c) (hb : b ≠ 0) (hP : |P - c| ≤ 2.01 * u * c) (hm : |m - b * P| ≤ u * |b * P|) (hs : m ≠ 0 → |s - 1 / m| ≤ u * |1 / m|) :
    m ≠ 0 ∧ |s - 1 / (c * b)| ≤ 4.2 * u * |1 / (c * b)| := by
  have hcb : 0 < c * |b| := mul_pos hc (abs_pos.mpr hb)
  have hP' := abs_le.mp hP
  have hP0 : 0 < P := by nlinarith
  have h1 : |m - c * b| ≤ 3.02 * u * (c * |b|) := by
    calc |m - c * b| = |(m - b * P) + (P - c) * b| := by ring_nf
      _ ≤ |m - b * P| + |P - c| * |b| := by rw [← abs_mul]; exact abs_add_le _ _
      _ ≤ u * (|b| * ((1 + 2.01 * u) * c)) + 2.01 * u * c * |b| := by
        refine add_le_add (hm.trans ?_) (mul_le_mul_of_nonneg_right hP (abs_nonneg _))
        rw [abs_mul, abs_of_pos hP0]
        gcongr
        linarith
      _ = (u * (1 + 2.01 * u) + 2.01 * u) * (c * |b|) := by ring
      _ ≤ _ := mul_le_mul_of_nonneg_right (by nlinarith) hcb.le
  have hcb' : |c * b| = c * |b| := by rw [abs_mul, abs_of_pos hc]
  have h2 : (1 - 3.02 * u) * (c * |b|) ≤ |m| := by
    have := abs_sub_abs_le_abs_sub (c * b) m
    rw [abs_sub_comm, hcb'] at this
    linarith
  have hm0 : 0 < |m| := lt_of_lt_of_le (mul_pos (by linarith) hcb) h2
  have hm' : m ≠ 0 := abs_pos.mp hm0
  have hcbn : c * b ≠ 0 := mul_ne_zero hc.ne' hb
  refine ⟨hm', ?_⟩
  have e1 : 1 / m - 1 / (c * b) = 1 / (c * b) * ((c * b - m) / m) := by field_simp
  have h3 : |(c * b - m) / m| ≤ 3.05 * u := by
    rw [abs_div, div_le_iff₀ hm0, abs_sub_comm]
    have a1 := mul_le_mul_of_nonneg_left h2 (by linarith : 0 ≤ 3.05 * u)
    have a2 : 3.02 * u * (c * |b|) ≤ 3.05 * u * ((1 - 3.02 * u) * (c * |b|)) := by
      rw [← mul_assoc (3.05 * u)]
      exact mul_le_mul_of_nonneg_right (by nlinarith) hcb.le
    linarith
  have h4 : |1 / m - 1 / (c * b)| ≤ 3.05 * u * |1 / (c * b)| := by
    rw [e1, abs_mul, mul_comm]; exact mul_le_mul_of_nonneg_right h3 (abs_nonneg _)
  have h5 : |1 / m| ≤ (1 + 3.05 * u) * |1 / (c * b)| := by
    have := abs_sub_abs_le_abs_sub (1 / m) (1 / (c * b))
    linarith
  calc |s - 1 / (c * b)| ≤ |s - 1 / m| + |1 / m - 1 / (c * b)| := abs_sub_le _ _ _
    _ ≤ u * ((1 + 3.05 * u) * |1 / (c * b)|) + 3.05 * u * |1 / (c * b)| := add_le_add ((hs hm').trans (mul_le_mul_of_nonneg_left h5 hu0)) h4
    _ = (u * (1 + 3.05 * u) + 3.05 * u) * |1 / (c * b)| := by ring
    _ ≤ _ := mul_le_mul_of_nonneg_right (by nlinarith) (abs_nonneg _)

theorem scale_ok (hp : 10 ≤ p) (P bw : Binary p) (c : ℝ) (hc : 0 < c) (hP : |(P.val : ℝ) - c| ≤ 2.01 / 2 ^ p * c) (hb : (bw.val : ℝ) ≠ 0) :
    ∃ s, scale P bw = .ok s ∧ |(s.val : ℝ) - 1 / (c * bw.val)| ≤ 4.2 * (1 / 2 ^ p) * |1 / (c * bw.val)| := by
  have hR := binary_roundedField p
  have h1 : ((1 : Binary p).val : ℝ) = 1 := by rw [Binary.val_one]; norm_num
  obtain ⟨h2, h3⟩ := scale_real (1 / 2 ^ p) c P.val bw.val (bw * P).val (1 / (bw * P)).val (by positivity) (Win.unit_small p hp) hc hb (by rw [mul_one_div]; exact hP) (hR.mul bw P)
    (fun h => by have := hR.div 1 (bw * P) h; simp only [h1] at this; exact this)
  refine ⟨1 / (bw * P), ?_, h3⟩
  unfold scale
  rw [Fir.fdiv_ok' p _ _ h2]

/-! ### FMD2 and FMD3 -/

/-- What `atan2` has to be. -/
def Atan2Near (atan2 : Binary p → Binary p → Binary p) (ε : ℝ) : Prop :=
  ∀ y x : Binary p, x.val ≠ 0 ∨ y.val ≠ 0 → |((atan2 y x).val : ℝ) - arg ⟨x.val, y.val⟩| ≤ ε

/-- The number as a complex number. -/
noncomputable abbrev num (z : Cplx (Binary p)) : ℂ := z.toComplex fun a => (a.val : ℝ)

theorem arg_within (hp : 10 ≤ p) (atan2 : Binary p → Binary p → Binary p) (ε : ℝ) (hat : Atan2Near p atan2 ε) (bw s : Binary p) (hb : (bw.val : ℝ) ≠ 0)
    (hs : |(s.val : ℝ) - 1 / (Real.pi * bw.val)| ≤ 4.2 * (1 / 2 ^ p) * |1 / (Real.pi * bw.val)|) (a x z : ℂ) (w : Cplx (Binary p)) (c : ℝ) (ha : a ≠ 0) (hx : x ≠ 0) (hc : 0 < c) (hz : z = c * (x / a))
    (h : ‖num p w - z‖ ≤ 4.1 * (1 / 2 ^ p) * ‖z‖) : Within bw.val (1.01 * ε + 22 / 2 ^ p) (5 / 2 ^ p) a x ((s * w.arg atan2).val : ℝ) := by
  have hu := Win.unit_small p hp
  have hR := binary_roundedField p
  have hu0 : (0 : ℝ) ≤ 1 / 2 ^ p := by positivity
  obtain ⟨hw, θ, h1, h2⟩ := angle_near a x (num p w) z c (4.1 * (1 / 2 ^ p)) ha hx hc hz (by linarith) h
  have hw' : w.re.val ≠ 0 ∨ w.im.val ≠ 0 := by
    by_contra hn
    push Not at hn
    apply hw
    apply Complex.ext
    · show ((w.re.val : ℝ)) = 0
      rw [hn.1]; norm_num
    · show ((w.im.val : ℝ)) = 0
      rw [hn.2]; norm_num
  have h3 : |((w.arg atan2).val : ℝ) - arg (num p w)| ≤ ε := hat w.im w.re hw'
  have h4 : |((w.arg atan2).val : ℝ) - θ| ≤ ε + 4.51 * (1 / 2 ^ p) := by
    calc _ ≤ _ := abs_sub_le _ (arg (num p w)) _
      _ ≤ _ := by linarith
  have hθ : |θ| ≤ Real.pi + 4.51 * (1 / 2 ^ p) := by
    have := abs_sub_abs_le_abs_sub θ (arg (num p w))
    rw [abs_sub_comm] at this
    have h5 := abs_arg_le_pi (num p w)
    linarith
  have hpi := Real.pi_lt_d2
  refine ⟨θ, h1, ?_, fun h5 => ?_⟩
  · refine (scaled_real (1 / 2 ^ p) Real.pi bw.val s.val _ θ _ _ hu0 hu Real.pi_pos hb hs h4 (hR.mul s (w.arg atan2))).trans ?_
    refine div_le_div_of_nonneg_right ?_ (by positivity)
    have : 5.3 * (1 / 2 ^ p) * |θ| ≤ 5.3 * (1 / 2 ^ p) * 3.16 := by gcongr; linarith
    rw [show (22 : ℝ) / 2 ^ p = 22 * (1 / 2 ^ p) by ring]
    linarith
  · refine advance_unique a x ha hx _ _ h1 (advance_arg a x ha hx) ?_
    rw [show (5 : ℝ) / 2 ^ p = 5 * (1 / 2 ^ p) by ring] at h5
    linarith

theorem conj_mul (x a : Cplx (Binary p)) (hp : 10 ≤ p) : ‖num p (x * a.conj) - num p x * (starRingEnd ℂ) (num p a)‖ ≤ 3 * (1 / 2 ^ p) * ‖num p x * (starRingEnd ℂ) (num p a)‖ := by
  have hR := binary_roundedField p
  have hu := Win.unit_small p hp
  have H := FFT.roundedComplex hR.toRoundedMul (by positivity) (by linarith)
  have := H.mul x a.conj
  have e : num p a.conj = (starRingEnd ℂ) (num p a) := by
    apply Complex.ext
    · rfl
    · show ((((-a.im : Binary p).val : ℚ)) : ℝ) = -(a.im.val : ℝ)
      rw [show (-a.im : Binary p).val = -a.im.val from rfl]
      push_cast; ring
  rw [← e]
  exact this

theorem conj_mul_eq (x a : ℂ) (ha : a ≠ 0) : x * (starRingEnd ℂ) a = ((‖a‖ ^ 2 : ℝ) : ℂ) * (x / a) := by
  rw [FM.mul_conj_eq x a ha, normSq_eq_norm_sq]

theorem call3_ok (hp : 10 ≤ p) (atan2 : Binary p → Binary p → Binary p) (ε : ℝ) (hat : Atan2Near p atan2 ε) (bw s : Binary p) (hb : (bw.val : ℝ) ≠ 0)
    (hs : |(s.val : ℝ) - 1 / (Real.pi * bw.val)| ≤ 4.2 * (1 / 2 ^ p) * |1 / (Real.pi * bw.val)|) (a x : Cplx (Binary p)) (ha : num p a ≠ 0) (hx : num p x ≠ 0) :
    ∃ y, call3 atan2 s a x = .ok (x, y) ∧ Within bw.val (1.01 * ε + 22 / 2 ^ p) (5 / 2 ^ p) (num p a) (num p x) (y.val : ℝ) := by
  refine ⟨_, rfl, ?_⟩
  have h := conj_mul p x a hp
  refine arg_within p hp atan2 ε hat bw s hb hs _ _ _ _ (‖num p a‖ ^ 2) ha hx (by have := norm_pos_iff.mpr ha; positivity) (conj_mul_eq _ _ ha) (h.trans ?_)
  have : (0 : ℝ) ≤ 1 / 2 ^ p := by positivity
  gcongr
  norm_num

/-- The two parts of the quotient are those of the product with the conjugate, divided by the norm. -/
theorem cdiv_eq (x a : Cplx (Binary p)) (hn : (a.norm.val : ℝ) ≠ 0) : cdiv x a = .ok ⟨(x * a.conj).re / a.norm, (x * a.conj).im / a.norm⟩ := by
  have e1 : x.re * a.re + x.im * a.im = (x * a.conj).re := by
    apply Binary.eq_of_val
    show Binary.round p (Binary.round p _ + Binary.round p _) = Binary.round p (Binary.round p _ - Binary.round p (x.im.val * -a.im.val))
    rw [mul_neg, Binary.round_neg, sub_neg_eq_add]
    rfl
  have e2 : x.im * a.re - x.re * a.im = (x * a.conj).im := by
    apply Binary.eq_of_val
    show Binary.round p (Binary.round p _ - Binary.round p _) = Binary.round p (Binary.round p (x.re.val * -a.im.val) + Binary.round p _)
    rw [mul_neg, Binary.round_neg, neg_add_eq_sub]
    rfl
  unfold cdiv
  rw [e1, e2]
  show (do
    let re ← Fir.Rounded.fdiv (x * a.conj).re a.norm
    let im ← Fir.Rounded.fdiv (x * a.conj).im a.norm
    return (⟨re, im⟩ : Cplx (Binary p))) = _
  rw [Fir.fdiv_ok' p _ _ hn, Fir.fdiv_ok' p _ _ hn]
  rfl

theorem parts_near (z w : ℂ) (u : ℝ) (hu : 0 ≤ u) (h1 : |z.re - w.re| ≤ u * |w.re|) (h2 : |z.im - w.im| ≤ u * |w.im|) : ‖z - w‖ ≤ u * ‖w‖ := by
  apply le_of_sq_le_sq _ (by positivity)
  rw [mul_pow, ← normSq_eq_norm_sq, ← normSq_eq_norm_sq, normSq_apply, normSq_apply, sub_re, sub_im]
  have a1 : (z.re - w.re) * (z.re - w.re) ≤ u ^ 2 * (w.re * w.re) := by
    rw [← abs_mul_abs_self (z.re - w.re), ← abs_mul_abs_self w.re]
    nlinarith [abs_nonneg (z.re - w.re), mul_nonneg hu (abs_nonneg w.re)]
  have a2 : (z.im - w.im) * (z.im - w.im) ≤ u ^ 2 * (w.im * w.im) := by
    rw [← abs_mul_abs_self (z.im - w.im), ← abs_mul_abs_self w.im]
    nlinarith [abs_nonneg (z.im - w.im), mul_nonneg hu (abs_nonneg w.im)]
  linarith

theorem norm_pos_of (hp : 10 ≤ p) (a : Cplx (Binary p)) (ha : num p a ≠ 0) : 0 < (a.norm.val : ℝ) := by
  have hu := Win.unit_small p hp
  have h := (NCO.norm_near (binary_roundedField p) (by positivity) hu a).1
  refine lt_of_lt_of_le ?_ h
  have := norm_pos_iff.mpr ha
  have h1 : 0 < 1 - (1 : ℝ) / 2 ^ p := by linarith
  positivity

theorem call2_ok (hp : 10 ≤ p) (atan2 : Binary p → Binary p → Binary p) (ε : ℝ) (hat : Atan2Near p atan2 ε) (bw s : Binary p) (hb : (bw.val : ℝ) ≠ 0)
    (hs : |(s.val : ℝ) - 1 / (Real.pi * bw.val)| ≤ 4.2 * (1 / 2 ^ p) * |1 / (Real.pi * bw.val)|) (a x : Cplx (Binary p)) (ha : num p a ≠ 0) (hx : num p x ≠ 0) :
    ∃ y, call2 atan2 s a x = .ok (x, y) ∧ Within bw.val (1.01 * ε + 22 / 2 ^ p) (5 / 2 ^ p) (num p a) (num p x) (y.val : ℝ) := by
  have hn := norm_pos_of p hp a ha
  have hR := binary_roundedField p
  have hu := Win.unit_small p hp
  have hu0 : (0 : ℝ) ≤ 1 / 2 ^ p := by positivity
  refine ⟨s * (⟨(x * a.conj).re / a.norm, (x * a.conj).im / a.norm⟩ : Cplx (Binary p)).arg atan2, ?_, ?_⟩
  · unfold call2
    rw [cdiv_eq p x a hn.ne']
    rfl
  · have h := conj_mul p x a hp
    set q : Cplx (Binary p) := ⟨(x * a.conj).re / a.norm, (x * a.conj).im / a.norm⟩ with hq
    set D : ℝ := (a.norm.val : ℝ) with hD
    have h1 : ‖num p q - num p (x * a.conj) / D‖ ≤ 1 / 2 ^ p * ‖num p (x * a.conj) / D‖ := by
      refine parts_near _ _ _ hu0 ?_ ?_
      · rw [div_ofReal_re]; exact hR.div (x * a.conj).re a.norm hn.ne'
      · rw [div_ofReal_im]; exact hR.div (x * a.conj).im a.norm hn.ne'
    set z : ℂ := num p x * (starRingEnd ℂ) (num p a) / D with hz
    have hDn : ‖(D : ℂ)‖ = D := by rw [norm_real, Real.norm_of_nonneg hn.le]
    have h2 : ‖num p (x * a.conj) / D - z‖ ≤ 3 * (1 / 2 ^ p) * ‖z‖ := by
      rw [hz, ← sub_div, norm_div, norm_div, hDn, ← mul_div_assoc]
      exact div_le_div_of_nonneg_right h hn.le
    have h3 : ‖num p (x * a.conj) / D‖ ≤ (1 + 3 * (1 / 2 ^ p)) * ‖z‖ := by
      have := norm_sub_norm_le (num p (x * a.conj) / D) z
      linarith
    refine arg_within p hp atan2 ε hat bw s hb hs (num p a) (num p x) z q (‖num p a‖ ^ 2 / D) ha hx (by have := norm_pos_iff.mpr ha; positivity) ?_ ?_
    · rw [hz, conj_mul_eq _ _ ha]; push_cast; ring
    · calc ‖num p q - z‖ ≤ ‖num p q - num p (x * a.conj) / D‖ + ‖num p (x * a.conj) / D - z‖ := norm_sub_le_norm_sub_add_norm_sub _ _ _
        _ ≤ 1 / 2 ^ p * ((1 + 3 * (1 / 2 ^ p)) * ‖z‖) + 3 * (1 / 2 ^ p) * ‖z‖ := add_le_add (h1.trans (mul_le_mul_of_nonneg_left h3 hu0)) h2
        _ = (1 / 2 ^ p * (1 + 3 * (1 / 2 ^ p)) + 3 * (1 / 2 ^ p)) * ‖z‖ := by ring
        _ ≤ _ := mul_le_mul_of_nonneg_right (by nlinarith) (norm_nonneg _)

/-! ### FMD1 -/

/-- The wrapping of a difference of two phases. -/
theorem wrap_real (u A B a b d P T r ε : ℝ) (hu0 : 0 ≤ u) (hu : u ≤ 1 / 1000) (hε : ε ≤ 1 / 10) (hA : |A| ≤ Real.pi) (hB : |B| ≤ Real.pi) (ha : |a - A| ≤ ε) (hb : |b - B| ≤ ε) (hd : |d - (a - b)| ≤ u * |a - b|)
    (hP : |P - Real.pi| ≤ 2.01 * u * Real.pi) (hT : |T - 2 * Real.pi| ≤ 2.01 * u * (2 * Real.pi))
    (hr : d < -P ∧ |r - (d + T)| ≤ u * |d + T| ∨ ¬ d < -P ∧ P < d ∧ |r - (d - T)| ≤ u * |d - T| ∨ ¬ d < -P ∧ ¬ P < d ∧ r = d) :
    ∃ k : ℤ, |r - (A - B + k * (2 * Real.pi))| ≤ 2 * ε + 23 * u ∧ |A - B + k * (2 * Real.pi)| ≤ Real.pi + 2 * ε + 46 * u := by
  have hpi := Real.pi_lt_d2
  have hpi' := Real.pi_gt_d2
  obtain ⟨A1, A2⟩ := abs_le.mp hA
  obtain ⟨B1, B2⟩ := abs_le.mp hB
  obtain ⟨a1, a2⟩ := abs_le.mp ha
  obtain ⟨b1, b2⟩ := abs_le.mp hb
  have hab : |a - b| ≤ 6.5 := abs_le.mpr ⟨by linarith, by linarith⟩
  have hd' : |d - (a - b)| ≤ 6.5 * u := hd.trans (by rw [mul_comm]; exact mul_le_mul_of_nonneg_right hab hu0)
  have hP' : |P - Real.pi| ≤ 6.4 * u := hP.trans (by nlinarith)
  have hT' : |T - 2 * Real.pi| ≤ 12.7 * u := hT.trans (by nlinarith)
  obtain ⟨d1, d2⟩ := abs_le.mp hd'
  obtain ⟨P1, P2⟩ := abs_le.mp hP'
  obtain ⟨T1, T2⟩ := abs_le.mp hT'
  rcases hr with ⟨c, hr⟩ | ⟨c, c', hr⟩ | ⟨c, c', hr⟩
  · have h1 : |d + T| ≤ 3.2 := abs_le.mpr ⟨by linarith, by linarith⟩
    obtain ⟨r1, r2⟩ := abs_le.mp (hr.trans (mul_le_mul_of_nonneg_left h1 hu0))
    refine ⟨1, abs_le.mpr ⟨?_, ?_⟩, abs_le.mpr ⟨?_, ?_⟩⟩ <;> push_cast <;> linarith
  · have h1 : |d - T| ≤ 3.2 := abs_le.mpr ⟨by linarith, by linarith⟩
    obtain ⟨r1, r2⟩ := abs_le.mp (hr.trans (mul_le_mul_of_nonneg_left h1 hu0))
    refine ⟨-1, abs_le.mpr ⟨?_, ?_⟩, abs_le.mpr ⟨?_, ?_⟩⟩ <;> push_cast <;> linarith
  · refine ⟨0, abs_le.mpr ⟨?_, ?_⟩, abs_le.mpr ⟨?_, ?_⟩⟩ <;> push_cast <;> linarith

theorem advance_turns (a x : ℂ) (ha : a ≠ 0) (hx : x ≠ 0) (k : ℤ) : Advance a x (arg x - arg a + k * (2 * Real.pi)) := by
  have h1 : (‖a‖ : ℂ) ≠ 0 := by exact_mod_cast norm_ne_zero_iff.mpr ha
  have h2 : (‖x‖ : ℂ) ≠ 0 := by exact_mod_cast norm_ne_zero_iff.mpr hx
  unfold Advance
  have e : exp (((arg x - arg a + k * (2 * Real.pi) : ℝ) : ℂ) * I) = (x / ‖x‖) / (a / ‖a‖) := by
    have := exp_int_mul_two_pi_mul_I k
    rw [show (((arg x - arg a + k * (2 * Real.pi) : ℝ) : ℂ) * I) = (arg x * I - arg a * I) + k * (2 * Real.pi * I) by push_cast; ring, exp_add, exp_sub, this, mul_one, arg_exp x hx, arg_exp a ha]
  rw [e]
  field_simp

theorem call1_ok (hp : 10 ≤ p) (hp' : p ≤ 53) (hl : p ≤ l) (atan2 : Binary p → Binary p → Binary p) (ε : ℝ) (hε : ε ≤ 1 / 10) (hat : Atan2Near p atan2 ε) (bw s : Binary p) (hb : (bw.val : ℝ) ≠ 0)
    (hs : |(s.val : ℝ) - 1 / (Real.pi * bw.val)| ≤ 4.2 * (1 / 2 ^ p) * |1 / (Real.pi * bw.val)|) (a : ℂ) (φ : Binary p) (x : Cplx (Binary p)) (ha : a ≠ 0) (hφ : |(φ.val : ℝ) - arg a| ≤ ε) (hx : num p x ≠ 0) :
    |((call1 atan2 (constPi l p) (constTwoPi l p) s φ x).1.val : ℝ) - arg (num p x)| ≤ ε ∧
      Within bw.val (2.02 * ε + 42 / 2 ^ p) (2 * ε + 46 / 2 ^ p) a (num p x) ((call1 atan2 (constPi l p) (constTwoPi l p) s φ x).2.val : ℝ) := by
  have hu := Win.unit_small p hp
  have hR := binary_roundedField p
  have hu0 : (0 : ℝ) ≤ 1 / 2 ^ p := by positivity
  have hw' : x.re.val ≠ 0 ∨ x.im.val ≠ 0 := by
    by_contra hn
    push Not at hn
    apply hx
    apply Complex.ext
    · show ((x.re.val : ℝ)) = 0
      rw [hn.1]; norm_num
    · show ((x.im.val : ℝ)) = 0
      rw [hn.2]; norm_num
  have h1 : |((x.arg atan2).val : ℝ) - arg (num p x)| ≤ ε := hat x.im x.re hw'
  refine ⟨h1, ?_⟩
  set φ' := x.arg atan2 with hφ'
  set d := φ' - φ with hd
  set P := constPi l p with hP
  set T := constTwoPi l p with hT
  set r := wrapAround P T d with hr
  have hPe := pi_error l p hp' hl
  have hTe := twoPi_error l p hp' hl
  have hcase : (d.val : ℝ) < -P.val ∧ |(r.val : ℝ) - (d.val + T.val)| ≤ 1 / 2 ^ p * |(d.val : ℝ) + T.val| ∨
      ¬ (d.val : ℝ) < -P.val ∧ (P.val : ℝ) < d.val ∧ |(r.val : ℝ) - (d.val - T.val)| ≤ 1 / 2 ^ p * |(d.val : ℝ) - T.val| ∨ ¬ (d.val : ℝ) < -P.val ∧ ¬ (P.val : ℝ) < d.val ∧ (r.val : ℝ) = d.val := by
    have n1 : d < -P ↔ (d.val : ℝ) < -P.val := by
      rw [Binary.lt_iff, show (-P : Binary p).val = -P.val from rfl]; push_cast; rfl
    by_cases c1 : d < -P
    · refine Or.inl ⟨n1.mp c1, ?_⟩
      rw [show r = d + T by rw [hr, wrapAround, if_pos c1]]
      exact hR.add d T
    · by_cases c2 : P < d
      · refine Or.inr (Or.inl ⟨fun c => c1 (n1.mpr c), (Binary.lt_iff _ _).mp c2, ?_⟩)
        rw [show r = d - T by rw [hr, wrapAround, if_neg c1, if_pos c2]]
        exact hR.sub d T
      · refine Or.inr (Or.inr ⟨fun c => c1 (n1.mpr c), fun c => c2 ((Binary.lt_iff _ _).mpr c), ?_⟩)
        rw [show r = d by rw [hr, wrapAround, if_neg c1, if_neg c2]]
  obtain ⟨k, k1, k2⟩ := wrap_real (1 / 2 ^ p) (arg (num p x)) (arg a) φ'.val φ.val d.val P.val T.val r.val ε hu0 hu hε (abs_arg_le_pi _) (abs_arg_le_pi _) h1 hφ (hR.sub φ' φ)
    (by rw [mul_one_div]; exact hPe) (by rw [mul_one_div]; exact hTe) hcase
  have hadv := advance_turns a (num p x) ha hx k
  have hpi := Real.pi_lt_d2
  refine ⟨_, hadv, ?_, fun h5 => ?_⟩
  · refine (scaled_real (1 / 2 ^ p) Real.pi bw.val s.val r.val _ (s * r).val _ hu0 hu Real.pi_pos hb hs k1 (hR.mul s r)).trans ?_
    refine div_le_div_of_nonneg_right ?_ (by positivity)
    have : 5.3 * (1 / 2 ^ p) * |arg (num p x) - arg a + k * (2 * Real.pi)| ≤ 5.3 * (1 / 2 ^ p) * 3.4 := by gcongr; linarith
    rw [show (42 : ℝ) / 2 ^ p = 42 * (1 / 2 ^ p) by ring]
    linarith
  · refine advance_unique a (num p x) ha hx _ _ hadv (advance_arg a _ ha hx) ?_
    rw [show (46 : ℝ) / 2 ^ p = 46 * (1 / 2 ^ p) by ring] at h5
    linarith

/-! ### FMD4 and FMD5 -/

theorem cross_size (a b c d : ℝ) : |a| * |d| + |b| * |c| ≤ ‖(⟨a, b⟩ : ℂ)‖ * ‖(⟨c, d⟩ : ℂ)‖ := by
  apply le_of_sq_le_sq _ (by positivity)
  rw [mul_pow, ← normSq_eq_norm_sq, ← normSq_eq_norm_sq, normSq_apply, normSq_apply]
  simp only
  nlinarith [sq_nonneg (|a| * |c| - |b| * |d|), abs_mul_abs_self a, abs_mul_abs_self b, abs_mul_abs_self c, abs_mul_abs_self d,
    show |a| * |a| * (|d| * |d|) = a * a * (d * d) by rw [abs_mul_abs_self, abs_mul_abs_self], show |b| * |b| * (|c| * |c|) = b * b * (c * c) by rw [abs_mul_abs_self, abs_mul_abs_self],
    show |a| * |a| * (|c| * |c|) = a * a * (c * c) by rw [abs_mul_abs_self, abs_mul_abs_self], show |b| * |b| * (|d| * |d|) = b * b * (d * d) by rw [abs_mul_abs_self, abs_mul_abs_self]]

theorem norm_rel (hp : 10 ≤ p) (z : Cplx (Binary p)) : Rel (1 / 2 ^ p) 2 (z.norm.val : ℝ) (‖num p z‖ ^ 2) := by
  have hu := Win.unit_small p hp
  obtain ⟨h1, h2⟩ := NCO.norm_near (binary_roundedField p) (by positivity) hu z
  have hu0 : (0 : ℝ) ≤ 1 / 2 ^ p := by positivity
  unfold Rel
  rw [abs_of_nonneg (sq_nonneg ‖num p z‖)]
  have h0 := sq_nonneg ‖num p z‖
  have a1 : (1 - (1 + (1 : ℝ) / 2 ^ p) ^ 2 + 1) * ‖num p z‖ ^ 2 ≤ (1 - 1 / 2 ^ p) ^ 2 * ‖num p z‖ ^ 2 := mul_le_mul_of_nonneg_right (by nlinarith) h0
  exact abs_le.mpr ⟨by linarith, by linarith⟩

/-- The cross product divided by the norm and scaled. -/
theorem cross_error (hp : 10 ≤ p) (bw s : Binary p) (c : ℝ) (hc : 0 < c) (hs : |(s.val : ℝ) - 1 / (c * bw.val)| ≤ 4.2 * (1 / 2 ^ p) * |1 / (c * bw.val)|) (a z : Cplx (Binary p)) (hz : num p z ≠ 0) (D : ℂ) (d : Cplx (Binary p))
    (h1 : Rel (1 / 2 ^ p) 1 (d.re.val : ℝ) D.re) (h2 : Rel (1 / 2 ^ p) 1 (d.im.val : ℝ) D.im) :
    |((s * ((a.re * d.im - a.im * d.re) / z.norm) : Binary p).val : ℝ) - ((num p a).re * D.im - (num p a).im * D.re) / ‖num p z‖ ^ 2 / c / bw.val| ≤ 15 / 2 ^ p * (‖num p a‖ * ‖D‖ / ‖num p z‖ ^ 2) / (c * |(bw.val : ℝ)|) := by
  have hR := binary_roundedField p
  have hu := Win.unit_small p hp
  have hu0 : (0 : ℝ) ≤ 1 / 2 ^ p := by positivity
  have hz0 : 0 < ‖num p z‖ ^ 2 := by have := norm_pos_iff.mpr hz; positivity
  have m1 : RelS (1 / 2 ^ p) 2 ((a.re * d.im).val : ℝ) ((num p a).re * D.im) (|(num p a).re| * |D.im|) :=
    RelS.mul hu0 ((Rel.refl _ _).sized hu0 le_rfl le_rfl) (h2.sized hu0 le_rfl le_rfl) (hR.mul a.re d.im)
  have m2 : RelS (1 / 2 ^ p) 2 ((a.im * d.re).val : ℝ) ((num p a).im * D.re) (|(num p a).im| * |D.re|) :=
    RelS.mul hu0 ((Rel.refl _ _).sized hu0 le_rfl le_rfl) (h1.sized hu0 le_rfl le_rfl) (hR.mul a.im d.re)
  have m3 := (RelS.sub hu0 m1 m2 (hR.sub _ _)).mono hu0 le_rfl (cross_size (num p a).re (num p a).im D.re D.im)
  obtain ⟨n0, n1⟩ := (norm_rel p hp z).inv hu0 (by linarith) hz0.ne' (by push_cast; linarith)
  have m4 : RelS (1 / 2 ^ p) (3 + 3 + 1) (((a.re * d.im - a.im * d.re) / z.norm : Binary p).val : ℝ) _ _ :=
    RelS.mul hu0 m3 (n1.sized hu0 le_rfl le_rfl) (by have := hR.div (a.re * d.im - a.im * d.re) z.norm n0; simp only [div_eq_mul_inv] at this ⊢; exact this)
  have m5 : Rel (1 / 2 ^ p) 5 (s.val : ℝ) (1 / (c * bw.val)) := Rel.of_le hu0 hs (by push_cast; linarith)
  have m6 : RelS (1 / 2 ^ p) (5 + 7 + 1) ((s * ((a.re * d.im - a.im * d.re) / z.norm) : Binary p).val : ℝ) _ _ :=
    RelS.mul hu0 (m5.sized hu0 le_rfl le_rfl) m4 (hR.mul _ _)
  have m7 := m6.1
  have hpow := pow_error (1 / 2 ^ p) hu0 hu 13 (by norm_num)
  have e1 : ((num p a).re * D.im - (num p a).im * D.re) / ‖num p z‖ ^ 2 / c / bw.val = 1 / (c * bw.val) * (((num p a).re * D.im - (num p a).im * D.re) * (‖num p z‖ ^ 2)⁻¹) := by
    rw [div_eq_mul_inv, div_eq_mul_inv, div_eq_mul_inv, one_div, mul_inv]; ring
  rw [e1]
  refine m7.trans ?_
  rw [abs_div, abs_one, abs_mul, abs_of_pos hc, abs_inv, abs_of_pos hz0]
  have hX : 0 ≤ 1 / (c * |(bw.val : ℝ)|) * (‖(⟨(num p a).re, (num p a).im⟩ : ℂ)‖ * ‖(⟨D.re, D.im⟩ : ℂ)‖ * (‖num p z‖ ^ 2)⁻¹) := by positivity
  calc _ ≤ (15 * (1 / 2 ^ p)) * (1 / (c * |(bw.val : ℝ)|) * (‖(⟨(num p a).re, (num p a).im⟩ : ℂ)‖ * ‖(⟨D.re, D.im⟩ : ℂ)‖ * (‖num p z‖ ^ 2)⁻¹)) :=
      mul_le_mul_of_nonneg_right (hpow.trans (by push_cast; linarith)) hX
    _ = _ := by rw [div_eq_mul_inv (‖num p a‖ * ‖D‖)]; ring

theorem call4_ok (hp : 10 ≤ p) (bw s : Binary p) (hs : |(s.val : ℝ) - 1 / (Real.pi * bw.val)| ≤ 4.2 * (1 / 2 ^ p) * |1 / (Real.pi * bw.val)|) (a x : Cplx (Binary p)) (ha : num p a ≠ 0) (hx : num p x ≠ 0) :
    ∃ y, call4 s a x = .ok (x, y) ∧ |(y.val : ℝ) - FM.sine (num p a) (num p x) / bw.val| ≤ 15 / 2 ^ p * (‖num p a‖ / ‖num p x‖) / (Real.pi * |(bw.val : ℝ)|) := by
  have hn := norm_pos_of p hp x hx
  have hx0 : ‖num p x‖ ≠ 0 := norm_ne_zero_iff.mpr hx
  refine ⟨s * ((a.re * x.im - a.im * x.re) / x.norm), ?_, ?_⟩
  · unfold call4
    simp only []
    rw [Fir.fdiv_ok' p _ _ hn.ne']
    rfl
  · have hu0 : (0 : ℝ) ≤ 1 / 2 ^ p := by positivity
    have hr : ∀ v : ℝ, Rel (1 / 2 ^ p) 1 v v := fun v => by unfold Rel; rw [sub_self, abs_zero]; have := abs_nonneg v; rw [pow_one, add_sub_cancel_left]; positivity
    have h := cross_error p hp bw s Real.pi Real.pi_pos hs a x hx (num p x) x (hr _) (hr _)
    rw [FM.cross_eq _ _ ha] at h
    rw [show FM.sine (num p a) (num p x) = ‖num p a‖ * ‖num p x‖ * Real.sin (arg (num p x / num p a)) / ‖num p x‖ ^ 2 / Real.pi by unfold FM.sine; field_simp]
    refine h.trans (le_of_eq ?_)
    congr 2
    field_simp

theorem call5_ok (hp : 10 ≤ p) (bw s : Binary p) (hs : |(s.val : ℝ) - 1 / (2 * Real.pi * bw.val)| ≤ 4.2 * (1 / 2 ^ p) * |1 / (2 * Real.pi * bw.val)|) (a b x : Cplx (Binary p)) (ha : num p a ≠ 0) (hb : num p b ≠ 0) :
    ∃ y, call5 s (a, b) x = .ok ((x, a), y) ∧
      |(y.val : ℝ) - (‖num p x‖ / ‖num p a‖ * Real.sin (arg (num p x / num p a)) + ‖num p b‖ / ‖num p a‖ * Real.sin (arg (num p a / num p b))) / 2 / Real.pi / bw.val| ≤
        7.5 / 2 ^ p * (‖num p x - num p b‖ / ‖num p a‖) / (Real.pi * |(bw.val : ℝ)|) := by
  have hn := norm_pos_of p hp a ha
  have hR := binary_roundedField p
  have ha0 : ‖num p a‖ ≠ 0 := norm_ne_zero_iff.mpr ha
  refine ⟨s * ((a.re * (x - b).im - a.im * (x - b).re) / a.norm), ?_, ?_⟩
  · unfold call5
    simp only []
    rw [Fir.fdiv_ok' p _ _ hn.ne']
    rfl
  · have h := cross_error p hp bw s (2 * Real.pi) (by have := Real.pi_pos; linarith) hs a a ha (num p x - num p b) (x - b)
      (by unfold Rel; rw [pow_one, add_sub_cancel_left]; exact hR.sub x.re b.re) (by unfold Rel; rw [pow_one, add_sub_cancel_left]; exact hR.sub x.im b.im)
    have e : (num p a).re * (num p x - num p b).im - (num p a).im * (num p x - num p b).re = ‖num p a‖ * ‖num p x‖ * Real.sin (arg (num p x / num p a)) +
        ‖num p b‖ * ‖num p a‖ * Real.sin (arg (num p a / num p b)) := by
      rw [← FM.cross_eq _ _ ha, ← FM.cross_eq _ _ hb, sub_re, sub_im]; ring
    rw [e] at h
    have hpi := Real.pi_ne_zero
    rw [show (‖num p x‖ / ‖num p a‖ * Real.sin (arg (num p x / num p a)) + ‖num p b‖ / ‖num p a‖ * Real.sin (arg (num p a / num p b))) / 2 / Real.pi =
      (‖num p a‖ * ‖num p x‖ * Real.sin (arg (num p x / num p a)) + ‖num p b‖ * ‖num p a‖ * Real.sin (arg (num p a / num p b))) / ‖num p a‖ ^ 2 / (2 * Real.pi) by field_simp]
    refine h.trans (le_of_eq ?_)
    field_simp
    ring

/-! ### Sequences -/

/-- A machine that keeps its last input. -/
theorem run_prev {A O : Type} (call : A → A → M (A × O)) (ok : A → Prop) (P : A → A → O → Prop) (h : ∀ a x, ok a → ok x → ∃ y, call a x = .ok (x, y) ∧ P a x y) (xs : List A) :
    ∀ a, ok a → (∀ x ∈ xs, ok x) → ∃ s ys, run call a xs = .ok (s, ys) ∧ ys.length = xs.length ∧
      ∀ (n : ℕ) (b x : A) (y : O), (a :: xs)[n]? = some b → xs[n]? = some x → ys[n]? = some y → P b x y := by
  induction xs with
  | nil => exact fun a _ _ => ⟨a, [], rfl, rfl, fun n b x y _ hx => by simp at hx⟩
  | cons x xs ih =>
    intro a ha hx
    obtain ⟨y, e, hP⟩ := h a x ha (hx x (by simp))
    obtain ⟨s, ys, e', l, H⟩ := ih x (hx x (by simp)) (fun z hz => hx z (by simp [hz]))
    refine ⟨s, y :: ys, by simp only [run, e, e'], by simp [l], ?_⟩
    intro n b x' y' h1 h2 h3
    cases n with
    | zero =>
      simp only [List.getElem?_cons_zero, Option.some.injEq] at h1 h2 h3
      rw [← h1, ← h2, ← h3]; exact hP
    | succ n => exact H n b x' y' (by simpa using h1) (by simpa using h2) (by simpa using h3)

theorem num_one : num p ⟨1, 0⟩ = 1 := by
  apply Complex.ext
  · show ((1 : Binary p).val : ℝ) = 1
    rw [Binary.val_one]; norm_num
  · show ((0 : Binary p).val : ℝ) = 0
    rw [Binary.val_zero]; norm_num

/-- **C93** `FMD1`: every output is the phase increment over the bandwidth, up to the errors of the two phases and 42 units of rounding; near half a turn its sign is not determined. -/
theorem C93_fmd1 (hp : 10 ≤ p) (hp' : p ≤ 53) (hl : p ≤ l) (atan2 : Binary p → Binary p → Binary p) (ε : ℝ) (hε0 : 0 ≤ ε) (hε : ε ≤ 1 / 10) (hat : Atan2Near p atan2 ε) (bw : Binary p) (hb : bw.val ≠ 0)
    (xs : List (Cplx (Binary p))) (hx : ∀ x ∈ xs, num p x ≠ 0) :
    ∃ s, scale (constPi l p) bw = .ok s ∧ ∀ (n : ℕ) (a x : Cplx (Binary p)) (y : Binary p), ((⟨1, 0⟩ : Cplx (Binary p)) :: xs)[n]? = some a → xs[n]? = some x →
      (outputs (call1 atan2 (constPi l p) (constTwoPi l p) s) 0 xs)[n]? = some y → Within bw.val (2.02 * ε + 42 / 2 ^ p) (2 * ε + 46 / 2 ^ p) (num p a) (num p x) (y.val : ℝ) := by
  have hb' : (bw.val : ℝ) ≠ 0 := by exact_mod_cast hb
  obtain ⟨s, e, hs⟩ := scale_ok p hp _ bw Real.pi Real.pi_pos (pi_error l p hp' hl) hb'
  refine ⟨s, e, ?_⟩
  suffices H : ∀ (xs : List (Cplx (Binary p))) (c : Cplx (Binary p)) (φ : Binary p), num p c ≠ 0 → |(φ.val : ℝ) - arg (num p c)| ≤ ε → (∀ x ∈ xs, num p x ≠ 0) →
      ∀ (n : ℕ) (a x : Cplx (Binary p)) (y : Binary p), (c :: xs)[n]? = some a → xs[n]? = some x →
      (outputs (call1 atan2 (constPi l p) (constTwoPi l p) s) φ xs)[n]? = some y → Within bw.val (2.02 * ε + 42 / 2 ^ p) (2 * ε + 46 / 2 ^ p) (num p a) (num p x) (y.val : ℝ) by
    refine H xs ⟨1, 0⟩ 0 (by rw [num_one]; exact one_ne_zero) ?_ hx
    rw [num_one, arg_one, Binary.val_zero, Rat.cast_zero, sub_zero, abs_zero]
    exact hε0
  clear hx
  intro xs
  induction xs with
  | nil => intro c φ _ _ _ n a x y _ h; simp at h
  | cons z xs ih =>
    intro c φ hc hφ hx n a x y h1 h2 h3
    obtain ⟨k1, k2⟩ := call1_ok l p hp hp' hl atan2 ε hε hat bw s hb' hs (num p c) φ z hc hφ (hx z (by simp))
    cases n with
    | zero =>
      simp only [outputs, List.getElem?_cons_zero, Option.some.injEq] at h1 h2 h3
      rw [← h1, ← h2, ← h3]; exact k2
    | succ n => exact ih z _ (hx z (by simp)) k1 (fun w hw => hx w (by simp [hw])) n a x y (by simpa using h1) (by simpa using h2) (by simpa [outputs] using h3)

/-- **C93** `FMD2`: the same with the error of one phase and 22 units of rounding. -/
theorem C93_fmd2 (hp : 10 ≤ p) (hp' : p ≤ 53) (hl : p ≤ l) (atan2 : Binary p → Binary p → Binary p) (ε : ℝ) (hat : Atan2Near p atan2 ε) (bw : Binary p) (hb : bw.val ≠ 0)
    (xs : List (Cplx (Binary p))) (hx : ∀ x ∈ xs, num p x ≠ 0) :
    ∃ s a' ys, scale (constPi l p) bw = .ok s ∧ run (call2 atan2 s) ⟨1, 0⟩ xs = .ok (a', ys) ∧ ys.length = xs.length ∧
      ∀ (n : ℕ) (a x : Cplx (Binary p)) (y : Binary p), ((⟨1, 0⟩ : Cplx (Binary p)) :: xs)[n]? = some a → xs[n]? = some x → ys[n]? = some y →
        Within bw.val (1.01 * ε + 22 / 2 ^ p) (5 / 2 ^ p) (num p a) (num p x) (y.val : ℝ) := by
  have hb' : (bw.val : ℝ) ≠ 0 := by exact_mod_cast hb
  obtain ⟨s, e, hs⟩ := scale_ok p hp _ bw Real.pi Real.pi_pos (pi_error l p hp' hl) hb'
  obtain ⟨a', ys, h1, h2, h3⟩ := run_prev (call2 atan2 s) (fun z => num p z ≠ 0) (fun a x y => Within bw.val (1.01 * ε + 22 / 2 ^ p) (5 / 2 ^ p) (num p a) (num p x) (y.val : ℝ))
    (fun a x ha hx => call2_ok p hp atan2 ε hat bw s hb' hs a x ha hx) xs ⟨1, 0⟩ (by rw [num_one]; exact one_ne_zero) hx
  exact ⟨s, a', ys, e, h1, h2, h3⟩

/-- **C93** `FMD3`: the same as `FMD2`. -/
theorem C93_fmd3 (hp : 10 ≤ p) (hp' : p ≤ 53) (hl : p ≤ l) (atan2 : Binary p → Binary p → Binary p) (ε : ℝ) (hat : Atan2Near p atan2 ε) (bw : Binary p) (hb : bw.val ≠ 0)
    (xs : List (Cplx (Binary p))) (hx : ∀ x ∈ xs, num p x ≠ 0) :
    ∃ s a' ys, scale (constPi l p) bw = .ok s ∧ run (call3 atan2 s) ⟨1, 0⟩ xs = .ok (a', ys) ∧ ys.length = xs.length ∧
      ∀ (n : ℕ) (a x : Cplx (Binary p)) (y : Binary p), ((⟨1, 0⟩ : Cplx (Binary p)) :: xs)[n]? = some a → xs[n]? = some x → ys[n]? = some y →
        Within bw.val (1.01 * ε + 22 / 2 ^ p) (5 / 2 ^ p) (num p a) (num p x) (y.val : ℝ) := by
  have hb' : (bw.val : ℝ) ≠ 0 := by exact_mod_cast hb
  obtain ⟨s, e, hs⟩ := scale_ok p hp _ bw Real.pi Real.pi_pos (pi_error l p hp' hl) hb'
  obtain ⟨a', ys, h1, h2, h3⟩ := run_prev (call3 atan2 s) (fun z => num p z ≠ 0) (fun a x y => Within bw.val (1.01 * ε + 22 / 2 ^ p) (5 / 2 ^ p) (num p a) (num p x) (y.val : ℝ))
    (fun a x ha hx => call3_ok p hp atan2 ε hat bw s hb' hs a x ha hx) xs ⟨1, 0⟩ (by rw [num_one]; exact one_ne_zero) hx
  exact ⟨s, a', ys, e, h1, h2, h3⟩

/-- **C93** `FMD4`: the weighted sine of the increment, up to 15 units of rounding relative to the weight. -/
theorem C93_fmd4 (hp : 10 ≤ p) (hp' : p ≤ 53) (hl : p ≤ l) (bw : Binary p) (hb : bw.val ≠ 0) (xs : List (Cplx (Binary p))) (hx : ∀ x ∈ xs, num p x ≠ 0) :
    ∃ s a' ys, scale (constPi l p) bw = .ok s ∧ run (call4 s) ⟨1, 0⟩ xs = .ok (a', ys) ∧ ys.length = xs.length ∧
      ∀ (n : ℕ) (a x : Cplx (Binary p)) (y : Binary p), ((⟨1, 0⟩ : Cplx (Binary p)) :: xs)[n]? = some a → xs[n]? = some x → ys[n]? = some y →
        |(y.val : ℝ) - FM.sine (num p a) (num p x) / bw.val| ≤ 15 / 2 ^ p * (‖num p a‖ / ‖num p x‖) / (Real.pi * |(bw.val : ℝ)|) := by
  have hb' : (bw.val : ℝ) ≠ 0 := by exact_mod_cast hb
  obtain ⟨s, e, hs⟩ := scale_ok p hp _ bw Real.pi Real.pi_pos (pi_error l p hp' hl) hb'
  obtain ⟨a', ys, h1, h2, h3⟩ := run_prev (call4 s) (fun z => num p z ≠ 0)
    (fun a x y => |(y.val : ℝ) - FM.sine (num p a) (num p x) / bw.val| ≤ 15 / 2 ^ p * (‖num p a‖ / ‖num p x‖) / (Real.pi * |(bw.val : ℝ)|))
    (fun a x ha hx => call4_ok p hp bw s hs a x ha hx) xs ⟨1, 0⟩ (by rw [num_one]; exact one_ne_zero) hx
  exact ⟨s, a', ys, e, h1, h2, h3⟩

/-- **C93** `FMD5`: the mean of the weighted sines of two increments, up to 7.5 units of rounding relative to the difference of the outer samples. -/
theorem C93_fmd5 (hp : 10 ≤ p) (hp' : p ≤ 53) (hl : p ≤ l) (bw : Binary p) (hb : bw.val ≠ 0) (xs : List (Cplx (Binary p))) (hx : ∀ x ∈ xs, num p x ≠ 0) :
    ∃ s a' ys, scale (constTwoPi l p) bw = .ok s ∧ run (call5 s) (⟨1, 0⟩, ⟨1, 0⟩) xs = .ok (a', ys) ∧ ys.length = xs.length ∧
      ∀ (n : ℕ) (b a x : Cplx (Binary p)) (y : Binary p), ((⟨1, 0⟩ : Cplx (Binary p)) :: ⟨1, 0⟩ :: xs)[n]? = some b → ((⟨1, 0⟩ : Cplx (Binary p)) :: xs)[n]? = some a → xs[n]? = some x → ys[n]? = some y →
      |(y.val : ℝ) - (‖num p x‖ / ‖num p a‖ * Real.sin (arg (num p x / num p a)) + ‖num p b‖ / ‖num p a‖ * Real.sin (arg (num p a / num p b))) / 2 / Real.pi / bw.val| ≤
        7.5 / 2 ^ p * (‖num p x - num p b‖ / ‖num p a‖) / (Real.pi * |(bw.val : ℝ)|) := by
  have hb' : (bw.val : ℝ) ≠ 0 := by exact_mod_cast hb
  obtain ⟨s, e, hs⟩ := scale_ok p hp _ bw (2 * Real.pi) (by have := Real.pi_pos; linarith) (twoPi_error l p hp' hl) hb'
  suffices H : ∀ (xs : List (Cplx (Binary p))) (c d : Cplx (Binary p)), num p c ≠ 0 → num p d ≠ 0 → (∀ x ∈ xs, num p x ≠ 0) → ∃ a' ys, run (call5 s) (c, d) xs = .ok (a', ys) ∧ ys.length = xs.length ∧
      ∀ (n : ℕ) (b a x : Cplx (Binary p)) (y : Binary p), (d :: c :: xs)[n]? = some b → (c :: xs)[n]? = some a → xs[n]? = some x → ys[n]? = some y →
      |(y.val : ℝ) - (‖num p x‖ / ‖num p a‖ * Real.sin (arg (num p x / num p a)) + ‖num p b‖ / ‖num p a‖ * Real.sin (arg (num p a / num p b))) / 2 / Real.pi / bw.val| ≤
        7.5 / 2 ^ p * (‖num p x - num p b‖ / ‖num p a‖) / (Real.pi * |(bw.val : ℝ)|) by
    have h1 : num p ⟨1, 0⟩ ≠ 0 := by rw [num_one]; exact one_ne_zero
    obtain ⟨a', ys, h⟩ := H xs _ _ h1 h1 hx
    exact ⟨s, a', ys, e, h⟩
  clear hx
  intro xs
  induction xs with
  | nil => exact fun c d _ _ _ => ⟨(c, d), [], rfl, rfl, fun n b a x y _ _ hx => by simp at hx⟩
  | cons x xs ih =>
    intro c d hc hd hx
    obtain ⟨y, e, hP⟩ := call5_ok p hp bw s hs c d x hc hd
    obtain ⟨a', ys, e', l, H⟩ := ih x c (hx x (by simp)) hc (fun z hz => hx z (by simp [hz]))
    refine ⟨a', y :: ys, by simp only [run, e, e'], by simp [l], ?_⟩
    intro n b a x' y' h0 h1 h2 h3
    cases n with
    | zero =>
      simp only [List.getElem?_cons_zero, Option.some.injEq] at h0 h1 h2 h3
      rw [← h0, ← h1, ← h2, ← h3]; exact hP
    | succ n => exact H n b a x' y' (by simpa using h0) (by simpa using h1) (by simpa using h2) (by simpa using h3)

/-- The `atan2` of atan2.hh meets the hypothesis. -/
theorem atan2_near (hp : 20 ≤ p) (hp' : p ≤ 53) (hl : p ≤ l) : Atan2Near p (fun y x => Elementary.atan2 (Elementary.AtanConsts.binary l p) (decide (y.val < 0)) y x) (21 / 2 ^ p) := by
  intro y x h
  have h1 := (Elementary.C79_atan2 l p hp hp' hl y x h).1
  refine h1.trans ?_
  have : (1 : ℝ) / 2 ^ 53 ≤ 1 / 2 ^ p := by gcongr; norm_num
  have h2 : (1.9 : ℝ) / 10 ^ 16 ≤ 2 * (1 / 2 ^ 53) := by norm_num
  rw [show (21 : ℝ) / 2 ^ p = 19 / 2 ^ p + 2 * (1 / 2 ^ p) by ring]
  linarith

/-- The hypotheses can be met: single precision with the `atan2` of atan2.hh, bandwidth one, two samples. -/
example : Atan2Near 24 (fun y x => Elementary.atan2 (Elementary.AtanConsts.binary 64 24) (decide (y.val < 0)) y x) (21 / 2 ^ 24) ∧ (21 : ℝ) / 2 ^ 24 ≤ 1 / 10 ∧ (1 : Binary 24).val ≠ 0 ∧
    ∀ x ∈ [(⟨1, 1⟩ : Cplx (Binary 24)), ⟨0, 1⟩], num 24 x ≠ 0 := by
  refine ⟨atan2_near 64 24 (by norm_num) (by norm_num) (by norm_num), by norm_num, by rw [Binary.val_one]; norm_num, ?_⟩
  have h1 : ((1 : Binary 24).val : ℝ) = 1 := by rw [Binary.val_one]; norm_num
  intro x hx
  simp only [List.mem_cons, List.not_mem_nil, or_false] at hx
  rcases hx with rfl | rfl <;> intro h <;> have h2 := congrArg Complex.im h <;> simp [Cplx.toComplex, h1] at h2

end FMDRounded
end DSP
