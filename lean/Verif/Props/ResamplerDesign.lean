import Verif.Model.ResamplerRounded
import Verif.Spec.Prototype
import Verif.Spec.Spline
import Verif.Props.FirSineError
import Verif.Props.KaiserError
import Verif.Props.NaturalSplineError
import Verif.Props.NaturalSplineStable
import Verif.Props.ResamplerClock

/-!
# The filter of resampler.hh in floating point (C103)
-/

namespace DSP
namespace Resampling

open Spec

/-! ### How fast the prototype changes -/

theorem sinc_change (x y : ℝ) : |sinc x - sinc y| ≤ 1.571 * |x - y| := by
  have e : ∀ x : ℝ, sinc x = ∫ t in (0 : ℝ)..1, Real.cos (Real.pi * x * t) := by
    intro x
    have h := Fir.sinc_passBand (1 / 2) x
    rw [show 2 * (1 / 2 : ℝ) = 1 by norm_num, one_mul, one_mul] at h
    rw [h, passBand]
    have := intervalIntegral.integral_comp_mul_left (a := 0) (b := 1) (fun t => Real.cos (2 * Real.pi * x * t)) (c := (1 / 2 : ℝ)) (by norm_num)
    rw [mul_zero, mul_one, smul_eq_mul] at this
    rw [show (2 : ℝ) = (1 / 2)⁻¹ by norm_num, show ((1 / 2 : ℝ)⁻¹) = 2 by norm_num, show (2 : ℝ) * ∫ t in (0 : ℝ)..1 / 2, Real.cos (2 * Real.pi * x * t) = (1 / 2)⁻¹ * ∫ t in (0 : ℝ)..1 / 2, Real.cos (2 * Real.pi * x * t) by norm_num,
      ← this]
    congr 1
    ext t
    congr 1
    ring
  have hi : ∀ x : ℝ, IntervalIntegrable (fun t => Real.cos (Real.pi * x * t)) MeasureTheory.volume 0 1 := fun x => (by fun_prop : Continuous fun t => Real.cos (Real.pi * x * t)).intervalIntegrable _ _
  rw [e, e, ← intervalIntegral.integral_sub (hi x) (hi y)]
  have hb := intervalIntegral.norm_integral_le_of_norm_le (a := 0) (b := 1) (f := fun t => Real.cos (Real.pi * x * t) - Real.cos (Real.pi * y * t)) (g := fun t => Real.pi * |x - y| * t) (μ := MeasureTheory.volume) (by norm_num)
    (Filter.Eventually.of_forall fun t ht => by
      rw [Real.norm_eq_abs]
      have := Real.abs_cos_sub_cos_le (Real.pi * x * t) (Real.pi * y * t)
      refine this.trans (le_of_eq ?_)
      rw [show Real.pi * x * t - Real.pi * y * t = Real.pi * (x - y) * t by ring, abs_mul, abs_mul, abs_of_pos Real.pi_pos, abs_of_pos ht.1])
    ((by fun_prop : Continuous fun t => Real.pi * |x - y| * t).intervalIntegrable _ _)
  rw [Real.norm_eq_abs] at hb
  refine hb.trans ?_
  rw [intervalIntegral.integral_const_mul, integral_id]
  have hpi : Real.pi ≤ 3.142 := by linarith [Real.pi_lt_d4]
  have := mul_le_mul_of_nonneg_right hpi (abs_nonneg (x - y))
  linarith

theorem besselI0_pos (x : ℝ) : 0 < besselI0 x := by linarith [Win.one_le_bessel x]

theorem kaiserWindow_range (a : ℝ) (N : ℕ) (n : ℤ) : 0 ≤ kaiserWindow a N n ∧ kaiserWindow a N n ≤ 1 := by
  have hI := besselI0_pos (Real.pi * a)
  refine ⟨div_nonneg (besselI0_pos _).le hI.le, (div_le_one hI).mpr ?_⟩
  refine (Win.bessel_change _ _ ?_).1
  rw [abs_mul]
  refine mul_le_of_le_one_right (abs_nonneg _) ?_
  rw [abs_of_nonneg (Real.sqrt_nonneg _), Real.sqrt_le_one]
  nlinarith [sq_nonneg (2 * (n : ℝ) / ((N : ℝ) - 1) - 1)]

theorem kaiserWindow_change (a : ℝ) (N : ℕ) (n : ℕ) (hN : 2 ≤ N) (h1 : n + 1 < N) : |kaiserWindow a N (n + 1 : ℕ) - kaiserWindow a N (n : ℕ)| ≤ 9.87 * a ^ 2 / ((N : ℝ) - 1) := by
  have hN1 : (1 : ℝ) ≤ (N : ℝ) - 1 := by
    have : (2 : ℝ) ≤ N := by exact_mod_cast hN
    linarith
  have hp2 : Real.pi ^ 2 ≤ 9.87 := by nlinarith [Real.pi_gt_three, Real.pi_lt_d4]
  set I := besselI0 (Real.pi * a) with hI
  have hI0 : 0 < I := besselI0_pos _
  have key : ∀ x y : ℝ, -1 ≤ x → x ≤ 1 → -1 ≤ y → y ≤ 1 → |y - x| ≤ 2 / ((N : ℝ) - 1) → |x| ≤ |y| →
      |besselI0 (Real.pi * a * √(1 - x ^ 2)) / I - besselI0 (Real.pi * a * √(1 - y ^ 2)) / I| ≤ 9.87 * a ^ 2 / ((N : ℝ) - 1) := by
    intro x y hx0 hx1 hy0 hy1 hxy hle
    have hsq : x ^ 2 ≤ y ^ 2 := sq_le_sq.mpr hle
    have sx : 0 ≤ 1 - x ^ 2 := by nlinarith
    have sy : 0 ≤ 1 - y ^ 2 := by nlinarith
    have habs : |Real.pi * a * √(1 - y ^ 2)| ≤ |Real.pi * a * √(1 - x ^ 2)| := by
      rw [abs_mul _ √_, abs_mul _ √_, abs_of_nonneg (Real.sqrt_nonneg _), abs_of_nonneg (Real.sqrt_nonneg _)]
      exact mul_le_mul_of_nonneg_left (Real.sqrt_le_sqrt (by linarith)) (abs_nonneg _)
    obtain ⟨h1, h2⟩ := Win.bessel_change _ _ habs
    have hle1 : besselI0 (Real.pi * a * √(1 - x ^ 2)) ≤ I := by
      refine (Win.bessel_change _ _ ?_).1
      rw [abs_mul]
      refine mul_le_of_le_one_right (abs_nonneg _) ?_
      rw [abs_of_nonneg (Real.sqrt_nonneg _), Real.sqrt_le_one]
      nlinarith [sq_nonneg x]
    have e1 : ((Real.pi * a * √(1 - x ^ 2)) ^ 2 - (Real.pi * a * √(1 - y ^ 2)) ^ 2) / 4 = Real.pi ^ 2 * a ^ 2 * ((y ^ 2 - x ^ 2) / 4) := by
      rw [mul_pow, mul_pow _ √(1 - y ^ 2), Real.sq_sqrt sx, Real.sq_sqrt sy]; ring
    rw [e1] at h2
    rw [← sub_div, abs_div, abs_of_pos hI0, div_le_iff₀ hI0, abs_of_nonneg (by linarith)]
    have e2 : (y ^ 2 - x ^ 2) / 4 ≤ 1 / ((N : ℝ) - 1) := by
      have : y ^ 2 - x ^ 2 = (y - x) * (y + x) := by ring
      have h3 : |(y - x) * (y + x)| ≤ 2 / ((N : ℝ) - 1) * 2 := by
        rw [abs_mul]
        exact mul_le_mul hxy (abs_le.mpr ⟨by linarith, by linarith⟩) (abs_nonneg _) (by positivity)
      have h4 := (abs_le.mp h3).2
      rw [this]
      calc _ ≤ 2 / ((N : ℝ) - 1) * 2 / 4 := by linarith
        _ = _ := by ring
    have e0 : 0 ≤ (y ^ 2 - x ^ 2) / 4 := by linarith
    calc _ ≤ Real.pi ^ 2 * a ^ 2 * ((y ^ 2 - x ^ 2) / 4) * besselI0 (Real.pi * a * √(1 - x ^ 2)) := h2
      _ ≤ 9.87 * a ^ 2 * (1 / ((N : ℝ) - 1)) * I := by
        refine mul_le_mul ?_ hle1 (besselI0_pos _).le (by positivity)
        exact mul_le_mul (mul_le_mul_of_nonneg_right hp2 (sq_nonneg _)) e2 e0 (by positivity)
      _ = _ := by ring
  have hn0 : (0 : ℝ) ≤ n := by positivity
  have hnN : (n : ℝ) + 1 ≤ (N : ℝ) - 1 := by
    have : ((n + 1 + 1 : ℕ) : ℝ) ≤ N := by exact_mod_cast h1
    push_cast at this; linarith
  have b0 : -1 ≤ 2 * (n : ℝ) / ((N : ℝ) - 1) - 1 := by
    have : 0 ≤ 2 * (n : ℝ) / ((N : ℝ) - 1) := by positivity
    linarith
  have b1 : 2 * (n : ℝ) / ((N : ℝ) - 1) - 1 ≤ 1 := by
    have : 2 * (n : ℝ) / ((N : ℝ) - 1) ≤ 2 := by rw [div_le_iff₀ (by linarith)]; linarith
    linarith
  have c0 : -1 ≤ 2 * ((n : ℝ) + 1) / ((N : ℝ) - 1) - 1 := by
    have : 0 ≤ 2 * ((n : ℝ) + 1) / ((N : ℝ) - 1) := by positivity
    linarith
  have c1 : 2 * ((n : ℝ) + 1) / ((N : ℝ) - 1) - 1 ≤ 1 := by
    have : 2 * ((n : ℝ) + 1) / ((N : ℝ) - 1) ≤ 2 := by rw [div_le_iff₀ (by linarith)]; linarith
    linarith
  have hd : |(2 * ((n : ℝ) + 1) / ((N : ℝ) - 1) - 1) - (2 * (n : ℝ) / ((N : ℝ) - 1) - 1)| ≤ 2 / ((N : ℝ) - 1) := by
    rw [show (2 * ((n : ℝ) + 1) / ((N : ℝ) - 1) - 1) - (2 * (n : ℝ) / ((N : ℝ) - 1) - 1) = 2 / ((N : ℝ) - 1) by ring, abs_of_nonneg (by positivity)]
  simp only [kaiserWindow]
  push_cast
  rcases le_total |2 * ((n : ℝ) + 1) / ((N : ℝ) - 1) - 1| |2 * (n : ℝ) / ((N : ℝ) - 1) - 1| with h | h
  · exact key _ _ c0 c1 b0 b1 (by rw [abs_sub_comm]; exact hd) h
  · rw [abs_sub_comm]
    exact key _ _ b0 b1 c0 c1 hd h

theorem prototype_size (TAPS OVER : ℕ) (c a : ℝ) (n : ℕ) : |prototype TAPS OVER c a n| ≤ |2 * c| := by
  obtain ⟨w0, w1⟩ := kaiserWindow_range a (TAPS * OVER) n
  rw [prototype, abs_mul, abs_of_nonneg w0]
  exact (mul_le_of_le_one_right (abs_nonneg _) w1).trans (Fir.passBand_le _ _)

/-- The difference of neighbouring coefficients. -/
theorem prototype_change (TAPS OVER : ℕ) (c a : ℝ) (hc : |2 * c| ≤ 1) (n : ℕ) (hO : 1 ≤ OVER) (hK : 2 ≤ TAPS * OVER) (hn : n + 1 < TAPS * OVER) :
    |prototype TAPS OVER c a (n + 1) - prototype TAPS OVER c a n| ≤ |2 * c| * (1.571 * TAPS + 19.74 * a ^ 2) / (TAPS * OVER : ℕ) := by
  have hO' : (0 : ℝ) < OVER := by exact_mod_cast hO
  have hK' : (2 : ℝ) ≤ (TAPS * OVER : ℕ) := by exact_mod_cast hK
  obtain ⟨w0, w1⟩ := kaiserWindow_range a (TAPS * OVER) n
  have hw := kaiserWindow_change a (TAPS * OVER) n hK hn
  have hs : |passBand 0 c (((n + 1 : ℕ) : ℝ) / OVER - ((TAPS : ℝ) - 1) / 2) - passBand 0 c ((n : ℝ) / OVER - ((TAPS : ℝ) - 1) / 2)| ≤ |2 * c| * (1.571 / OVER) := by
    rw [← Fir.sinc_passBand, ← Fir.sinc_passBand, ← mul_sub, abs_mul]
    refine mul_le_mul_of_nonneg_left ?_ (abs_nonneg _)
    refine (sinc_change _ _).trans ?_
    rw [← mul_sub, abs_mul, show ((n + 1 : ℕ) : ℝ) / OVER - ((TAPS : ℝ) - 1) / 2 - ((n : ℝ) / OVER - ((TAPS : ℝ) - 1) / 2) = 1 / OVER by push_cast; ring, abs_of_pos (by positivity : (0 : ℝ) < 1 / OVER)]
    have := mul_le_mul_of_nonneg_right hc (by positivity : (0 : ℝ) ≤ 1 / OVER)
    rw [show (1.571 : ℝ) / OVER = 1.571 * (1 / OVER) by ring]
    linarith
  have hp := Fir.passBand_le c (((n + 1 : ℕ) : ℝ) / OVER - ((TAPS : ℝ) - 1) / 2)
  unfold prototype
  have hh : 9.87 * a ^ 2 / (((TAPS * OVER : ℕ) : ℝ) - 1) ≤ 19.74 * a ^ 2 / (TAPS * OVER : ℕ) := by
    rw [div_le_div_iff₀ (by linarith) (by linarith)]
    nlinarith [sq_nonneg a]
  generalize passBand 0 c (((n + 1 : ℕ) : ℝ) / OVER - ((TAPS : ℝ) - 1) / 2) = P1 at *
  generalize passBand 0 c ((n : ℝ) / OVER - ((TAPS : ℝ) - 1) / 2) = P0 at *
  generalize kaiserWindow a (TAPS * OVER) ((n + 1 : ℕ) : ℤ) = W1 at *
  generalize kaiserWindow a (TAPS * OVER) ((n : ℕ) : ℤ) = W0 at *
  rw [show P1 * W1 - P0 * W0 = P1 * (W1 - W0) + (P1 - P0) * W0 by ring]
  refine (abs_add_le _ _).trans ?_
  rw [abs_mul, abs_mul, abs_of_nonneg w0]
  have m1 := mul_le_mul hp (hw.trans hh) (abs_nonneg _) (abs_nonneg _)
  have m2 : |P1 - P0| * W0 ≤ |2 * c| * (1.571 / OVER) := (mul_le_of_le_one_right (abs_nonneg _) w1).trans hs
  have hT : (TAPS : ℝ) ≠ 0 := by
    rintro h
    have : TAPS = 0 := by exact_mod_cast h
    subst this
    simp at hK
  have e : |2 * c| * (1.571 * TAPS + 19.74 * a ^ 2) / (TAPS * OVER : ℕ) = |2 * c| * (19.74 * a ^ 2 / (TAPS * OVER : ℕ)) + |2 * c| * (1.571 / OVER) := by
    push_cast
    field_simp
    ring
  rw [e]
  linarith

/-! ### The coefficients in floating point -/

theorem place_numbers {u T A D x1 x2 xb : ℝ} (hu0 : 0 ≤ u) (hu : u ≤ 1 / 65536) (hA0 : 0 ≤ A) (hA : A ≤ T) (hD0 : 0 ≤ D) (hD : D ≤ T / 2)
    (h1 : |x1 - A| ≤ u * |A|) (h2 : |x2 - D| ≤ u * |D|) (hb : |xb - (x1 - x2)| ≤ u * |x1 - x2|) : |xb - (A - D)| ≤ 2.51 * (u * T) := by
  rw [abs_of_nonneg hA0] at h1
  rw [abs_of_nonneg hD0] at h2
  have m1 := mul_le_mul_of_nonneg_left hA hu0
  have m2 := mul_le_mul_of_nonneg_left hD hu0
  have hT : 0 ≤ T := hA0.trans hA
  have uT : 0 ≤ u * T := by positivity
  have uT2 : u * T ≤ 1 / 65536 * T := mul_le_mul_of_nonneg_right hu hT
  have e1 : |(x1 - x2) - (A - D)| ≤ 1.5 * (u * T) := by
    rw [show (x1 - x2) - (A - D) = (x1 - A) - (x2 - D) by ring]
    exact (abs_sub _ _).trans (by linarith)
  have e2 : |x1 - x2| ≤ 1.0001 * T := by
    have h3 := abs_sub_abs_le_abs_sub (x1 - x2) (A - D)
    have h4 : |A - D| ≤ T := abs_le.mpr ⟨by linarith, by linarith⟩
    linarith
  have m3 := mul_le_mul_of_nonneg_left e2 hu0
  have := abs_sub_le xb (x1 - x2) (A - D)
  linarith

theorem product_numbers {u T C cb X xb : ℝ} (hu0 : 0 ≤ u) (hu : u ≤ 1 / 65536) (hT : 0 ≤ T) (hX : |X| ≤ T) (hc : |cb - C| ≤ u * |C|) (hx : |xb - X| ≤ 2.51 * (u * T)) :
    |cb * xb - C * X| ≤ 3.52 * (u * T) * |C| ∧ |cb| ≤ 1.0001 * |C| := by
  have hC := abs_nonneg C
  have hcb : |cb| ≤ 1.0001 * |C| := by
    have h3 := abs_sub_abs_le_abs_sub cb C
    have := mul_le_mul_of_nonneg_right hu hC
    linarith
  refine ⟨?_, hcb⟩
  rw [show cb * xb - C * X = cb * (xb - X) + (cb - C) * X by ring]
  refine (abs_add_le _ _).trans ?_
  rw [abs_mul, abs_mul]
  have m1 := mul_le_mul hcb hx (abs_nonneg _) (by positivity)
  have m2 := mul_le_mul hc hX (abs_nonneg _) (by positivity)
  have : 0 ≤ u * T * |C| := by positivity
  nlinarith

theorem weight_numbers {u T C cb s q yb w wb v a : ℝ} (hu0 : 0 ≤ u) (hu : u ≤ 1 / 65536) (hT : 0 ≤ T) (ha : a ^ 2 ≤ 9) (hc : |cb - C| ≤ u * |C|) (hcb : |cb| ≤ 1.0001 * |C|)
    (hq : |q - s| ≤ 13.2 * u + 5.53 * (u * T)) (hq1 : |q| ≤ 1.01) (hy : |yb - cb * q| ≤ u * |cb * q|) (hw0 : 0 ≤ w) (hw1 : w ≤ 1) (hw : |wb - w| ≤ (60 + 85 * a ^ 2) * u * w)
    (hv : |v - yb * wb| ≤ u * |yb * wb|) : |v - C * s * w| ≤ (80 + 87 * a ^ 2 + 6 * T) * u * |C| := by
  have hC := abs_nonneg C
  have uT : 0 ≤ u * T := by positivity
  have ha0 := sq_nonneg a
  have ua : 0 ≤ u * a ^ 2 := by positivity
  have hcq : |cb * q| ≤ 1.0102 * |C| := by
    rw [abs_mul]
    have := mul_le_mul hcb hq1 (abs_nonneg _) (by positivity)
    linarith
  have e1 : |yb - C * s| ≤ (15.3 * u + 5.53 * (u * T)) * |C| := by
    rw [show yb - C * s = (yb - cb * q) + (cb - C) * q + C * (q - s) by ring]
    refine (abs_add_three _ _ _).trans ?_
    rw [abs_mul (cb - C), abs_mul C]
    have m1 := mul_le_mul hc hq1 (abs_nonneg _) (by positivity)
    have m2 := mul_le_mul_of_nonneg_left hq hC
    have m3 := mul_le_mul_of_nonneg_left hcq hu0
    nlinarith [mul_nonneg hu0 hC]
  have hyb : |yb| ≤ 1.0103 * |C| := by
    have h3 := abs_sub_abs_le_abs_sub yb (cb * q)
    have m3 := mul_le_mul_of_nonneg_left hcq hu0
    have m4 := mul_le_mul_of_nonneg_right hu hC
    linarith
  have hwe : |wb - w| ≤ (60 + 85 * a ^ 2) * u := hw.trans (mul_le_of_le_one_right (by positivity) hw1)
  have hwb : |wb| ≤ 1.013 := by
    have h3 := abs_sub_abs_le_abs_sub wb w
    rw [abs_of_nonneg hw0] at h3
    have h4 : u * a ^ 2 ≤ 1 / 65536 * 9 := mul_le_mul hu ha ha0 (by norm_num)
    nlinarith
  have hyw : |yb * wb| ≤ 1.0235 * |C| := by
    rw [abs_mul]
    have := mul_le_mul hyb hwb (abs_nonneg _) (by positivity)
    linarith
  rw [show v - C * s * w = (v - yb * wb) + yb * (wb - w) + (yb - C * s) * w by ring]
  refine (abs_add_three _ _ _).trans ?_
  rw [abs_mul yb, abs_mul (yb - C * s), abs_of_nonneg hw0]
  have m1 := mul_le_mul_of_nonneg_left hyw hu0
  have m2 := mul_le_mul hyb hwe (abs_nonneg _) (by positivity)
  have m3 : |yb - C * s| * w ≤ (15.3 * u + 5.53 * (u * T)) * |C| := (mul_le_of_le_one_right (abs_nonneg _) hw1).trans e1
  have n1 : 0 ≤ u * |C| := by positivity
  have n2 : 0 ≤ u * a ^ 2 * |C| := by positivity
  have n3 : 0 ≤ u * T * |C| := by positivity
  nlinarith

section
variable (l p q : ℕ) [NeZero p] [NeZero q] (hp : 16 ≤ p) (hp' : p ≤ 53) (hl : p ≤ l) (hq : p ≤ q) (sin : Binary p → Binary p) (hsin : Fir.LibrarySine p sin) (TAPS OVER : ℕ) (hT : 1 ≤ TAPS)
  (hO : 2 ≤ OVER) (hK : 64 * (TAPS * OVER) ≤ 2 ^ p) (hK2 : TAPS * OVER ≤ 1073741824) (rate cutoff alpha : Binary p) (hr : rate.val ≠ 0) (hc : |2 * ((cutoff.val : ℝ) / rate.val)| ≤ 1) (ha : |(alpha.val : ℝ)| ≤ 3)

omit [NeZero p] in
include hp in
theorem unit_tiny : (0 : ℝ) ≤ 1 / 2 ^ p ∧ (1 : ℝ) / 2 ^ p ≤ 1 / 65536 := by
  refine ⟨by positivity, ?_⟩
  rw [show (65536 : ℝ) = 2 ^ 16 by norm_num]
  gcongr
  norm_num

include hp hp' hl hsin hT hO hK hK2 hr hc ha in
/-- Each coefficient is close to that of the prototype. -/
theorem coefficient_near (n : ℕ) (hn : n < TAPS * OVER) : ∃ v, Rounded.coefficient l p sin TAPS OVER rate cutoff alpha n = .ok v ∧
    |(v.val : ℝ) - prototype TAPS OVER ((cutoff.val : ℝ) / rate.val) alpha.val n| ≤ (80 + 87 * (alpha.val : ℝ) ^ 2 + 6 * TAPS) * (1 / 2 ^ p) * |2 * ((cutoff.val : ℝ) / rate.val)| := by
  have hR := binary_roundedField p
  obtain ⟨hu0, hu⟩ := unit_tiny p hp
  have hr' : (rate.val : ℝ) ≠ 0 := by exact_mod_cast hr
  have hKn : TAPS * OVER < 2 ^ p := by omega
  have hTK : TAPS ≤ TAPS * OVER := Nat.le_mul_of_pos_right _ (by omega)
  have hOK : OVER ≤ TAPS * OVER := Nat.le_mul_of_pos_left _ (by omega)
  have hKz : ((TAPS * OVER : ℕ) : ℤ) < 2 ^ p := by exact_mod_cast hKn
  have en : (((n : ℤ) : Binary p).val : ℝ) = n := by
    rw [Binary.cast_exact p n (by rw [abs_of_nonneg (by omega)]; omega)]; push_cast; rfl
  have eO : (((OVER : ℤ) : Binary p).val : ℝ) = OVER := by
    rw [Binary.cast_exact p OVER (by rw [abs_of_nonneg (by omega)]; omega)]; push_cast; rfl
  have eT : ((((TAPS : ℤ) - 1 : ℤ) : Binary p).val : ℝ) = (TAPS : ℝ) - 1 := by
    rw [Binary.cast_exact p _ (by rw [abs_of_nonneg (by omega)]; omega)]; push_cast; rfl
  have e2 : (((2 : ℤ) : Binary p).val : ℝ) = 2 := by
    rw [Binary.cast_exact p 2 (by rw [abs_of_nonneg (by omega)]; omega)]; push_cast; rfl
  have hOr : (0 : ℝ) < OVER := by exact_mod_cast (by omega : 0 < OVER)
  have hTr : (1 : ℝ) ≤ TAPS := by exact_mod_cast hT
  have d1 := hR.div ((n : ℤ) : Binary p) ((OVER : ℤ) : Binary p) (by rw [eO]; exact hOr.ne')
  have d2 := hR.div (((TAPS : ℤ) - 1 : ℤ) : Binary p) ((2 : ℤ) : Binary p) (by rw [e2]; norm_num)
  have d3 := hR.div (((2 : ℤ) : Binary p) * cutoff) rate hr'
  rw [en, eO] at d1
  rw [eT, e2] at d2
  rw [Fir.double_exact p (by omega), mul_div_assoc] at d3
  have hA : (n : ℝ) / OVER ≤ TAPS := by
    rw [div_le_iff₀ hOr]
    exact_mod_cast hn.le
  have hA0 : (0 : ℝ) ≤ (n : ℝ) / OVER := by positivity
  have hx := place_numbers hu0 hu hA0 hA (by linarith : (0 : ℝ) ≤ ((TAPS : ℝ) - 1) / 2) (by linarith) d1 d2 (hR.sub _ _)
  have hX : |(n : ℝ) / OVER - ((TAPS : ℝ) - 1) / 2| ≤ TAPS := abs_le.mpr ⟨by linarith, by linarith⟩
  obtain ⟨hcx, hcb⟩ := product_numbers hu0 hu (by linarith) hX d3 hx
  obtain ⟨s, es, s1, s2⟩ := Fir.sinc_near l p (by omega) hp' hl sin hsin _ _ ((Rel.refl (1 / 2 ^ p) _).round hu0 (hR.mul ((((2 : ℤ) : Binary p) * cutoff) / rate) (((n : ℤ) : Binary p) / ((OVER : ℤ) : Binary p) - (((TAPS : ℤ) - 1 : ℤ) : Binary p) / ((2 : ℤ) : Binary p))))
  obtain ⟨w, -, ew, -, -, -, hw⟩ := Win.C83_kaiser l p hp hp' hl alpha ha n (TAPS * OVER : ℕ) (by have := Nat.mul_le_mul hT hO; omega) (by omega) (by omega) (by omega)
  obtain ⟨w0, w1⟩ := kaiserWindow_range alpha.val (TAPS * OVER) n
  refine ⟨(((((2 : ℤ) : Binary p) * cutoff) / rate) * s) * w, ?_, ?_⟩
  · simp only [Rounded.coefficient, bind, Except.bind, pure, Except.pure]
    rw [Fir.fdiv_ok' p _ _ (by rw [eO]; exact hOr.ne'), Fir.fdiv_ok' p _ _ (by rw [e2]; norm_num), Fir.fdiv_ok' p _ _ hr']
    simp only []
    rw [es]
    simp only []
    rw [ew]
  · rw [prototype, ← Fir.sinc_passBand]
    have ha2 : (alpha.val : ℝ) ^ 2 ≤ 9 := by rw [← sq_abs]; nlinarith [abs_nonneg (alpha.val : ℝ)]
    have hsc := sinc_change ((((((2 : ℤ) : Binary p) * cutoff) / rate).val : ℝ) * ((((n : ℤ) : Binary p) / ((OVER : ℤ) : Binary p) - (((TAPS : ℤ) - 1 : ℤ) : Binary p) / ((2 : ℤ) : Binary p)).val : ℝ))
      (2 * ((cutoff.val : ℝ) / rate.val) * ((n : ℝ) / OVER - ((TAPS : ℝ) - 1) / 2))
    have hq : |(s.val : ℝ) - sinc (2 * ((cutoff.val : ℝ) / rate.val) * ((n : ℝ) / OVER - ((TAPS : ℝ) - 1) / 2))| ≤ 13.2 * (1 / 2 ^ p) + 5.53 * (1 / 2 ^ p * TAPS) := by
      refine (abs_sub_le _ _ _).trans (add_le_add (s1.trans (le_of_eq (by ring))) (hsc.trans ?_))
      have hm := mul_le_mul_of_nonneg_left hc (by positivity : (0 : ℝ) ≤ 1 / 2 ^ p * TAPS)
      have : (0 : ℝ) ≤ 1 / 2 ^ p * TAPS := by positivity
      nlinarith
    refine weight_numbers (cb := ((((2 : ℤ) : Binary p) * cutoff) / rate).val) (q := s.val) (wb := w.val) hu0 hu (by linarith) ha2 d3 hcb hq s2 (hR.mul _ _) w0 w1 ?_ (hR.mul _ _)
    refine hw.trans (le_of_eq ?_)
    rw [kaiserWindow]
    push_cast
    ring

/-! ### The filter -/

theorem tau_numbers {u O κ k d τ : ℝ} (hu0 : 0 ≤ u) (hu : u ≤ 1 / 65536) (hO : 0 < O) (hk : |k - κ| ≤ 2.01 * u * |κ|) (hd : |d - 1 / O| ≤ 2.01 * u * |1 / O|) (hτ : |τ - k / d| ≤ 2.01 * u * |k / d|) :
    d ≠ 0 ∧ |k / d| ≤ 1.001 * (|κ| * O) ∧ |τ - κ * O| ≤ 6.1 * u * (|κ| * O) := by
  have hκ := abs_nonneg κ
  have e1 : |d * O - 1| ≤ 2.01 * u := by
    rw [show d * O - 1 = (d - 1 / O) * O by field_simp, abs_mul, abs_of_pos hO]
    rw [abs_of_pos (by positivity : 0 < 1 / O)] at hd
    calc _ ≤ 2.01 * u * (1 / O) * O := mul_le_mul_of_nonneg_right hd hO.le
      _ = _ := by field_simp
  have e2 := abs_le.mp e1
  have hdO : 0.9999 ≤ d * O := by linarith
  have hd0 : d ≠ 0 := by rintro rfl; norm_num at hdO
  have e3 : k / d - κ * O = O * ((k - κ) + κ * (1 - d * O)) / (d * O) := by
    field_simp
    ring
  have e4 : |k / d - κ * O| ≤ 4.021 * u * (|κ| * O) := by
    rw [e3, abs_div, abs_of_pos (by linarith : 0 < d * O), div_le_iff₀ (by linarith), abs_mul, abs_of_pos hO]
    have h1 : |(k - κ) + κ * (1 - d * O)| ≤ 4.02 * u * |κ| := by
      refine (abs_add_le _ _).trans ?_
      rw [abs_mul κ, abs_sub_comm 1]
      have := mul_le_mul_of_nonneg_left e1 hκ
      linarith
    have h2 := mul_le_mul_of_nonneg_left h1 hO.le
    have h3 : 0 ≤ u * (|κ| * O) := by positivity
    nlinarith
  have hκO : 0 ≤ |κ| * O := by positivity
  have h4 : |k / d| ≤ 1.001 * (|κ| * O) := by
    have h5 := abs_sub_abs_le_abs_sub (k / d) (κ * O)
    rw [abs_mul κ O, abs_of_pos hO] at h5
    nlinarith
  refine ⟨hd0, h4, ?_⟩
  have h6 := abs_sub_le τ (k / d) (κ * O)
  have h7 := mul_le_mul_of_nonneg_left h4 (by positivity : 0 ≤ 2.01 * u)
  have h8 : 0 ≤ u * (|κ| * O) := by positivity
  nlinarith

omit [NeZero p] in
include hK in
theorem taps_small : (TAPS : ℝ) * OVER * (1 / 2 ^ p) ≤ 1 / 64 := by
  have : ((64 * (TAPS * OVER) : ℕ) : ℝ) ≤ ((2 ^ p : ℕ) : ℝ) := by exact_mod_cast hK
  push_cast at this
  have h2 : (0 : ℝ) < 2 ^ p := by positivity
  rw [mul_one_div, div_le_div_iff₀ h2 (by norm_num)]
  linarith

include hp hq in
theorem step_near (hO1 : 1 ≤ OVER) (hO2 : OVER < 2 ^ p) : ∃ dx, Fir.Rounded.fdiv ((1 : ℤ) : Binary q) ((OVER : ℤ) : Binary q) = .ok dx ∧
    |((Binary.convert p dx).val : ℝ) - 1 / OVER| ≤ 2.01 * (1 / 2 ^ p) * |1 / (OVER : ℝ)| := by
  have hR := binary_roundedField q
  obtain ⟨hu0, hu⟩ := unit_tiny p hp
  have hOr : (0 : ℝ) < OVER := by exact_mod_cast hO1
  have hqp : (2 : ℤ) ^ p ≤ 2 ^ q := by gcongr; norm_num
  have hOz : (OVER : ℤ) < 2 ^ p := by exact_mod_cast hO2
  have eO : (((OVER : ℤ) : Binary q).val : ℝ) = OVER := by
    rw [Binary.cast_exact q OVER (by rw [abs_of_nonneg (by omega)]; omega)]; push_cast; rfl
  have e1 : (((1 : ℤ) : Binary q).val : ℝ) = 1 := hR.one
  refine ⟨_, Fir.fdiv_ok' q _ _ (by rw [eO]; exact hOr.ne'), ?_⟩
  have d1 := hR.div ((1 : ℤ) : Binary q) ((OVER : ℤ) : Binary q) (by rw [eO]; exact hOr.ne')
  rw [e1, eO] at d1
  have d2 : |((Binary.convert p (((1 : ℤ) : Binary q) / ((OVER : ℤ) : Binary q))).val : ℝ) - ((((1 : ℤ) : Binary q) / ((OVER : ℤ) : Binary q)).val : ℝ)| ≤ 1 / 2 ^ p * |((((1 : ℤ) : Binary q) / ((OVER : ℤ) : Binary q)).val : ℝ)| := by
    have := Binary.round_error p (((1 : ℤ) : Binary q) / ((OVER : ℤ) : Binary q)).val
    have := (Rat.cast_le (K := ℝ)).mpr this
    push_cast at this
    refine this.trans (le_of_eq (by ring))
  have hqu : (1 : ℝ) / 2 ^ q ≤ 1 / 2 ^ p := by gcongr; norm_num
  have d1' : |((((1 : ℤ) : Binary q) / ((OVER : ℤ) : Binary q)).val : ℝ) - 1 / OVER| ≤ 1 / 2 ^ p * |1 / (OVER : ℝ)| := d1.trans (mul_le_mul_of_nonneg_right hqu (abs_nonneg _))
  have r1 : Rel (1 / 2 ^ p) 1 ((((1 : ℤ) : Binary q) / ((OVER : ℤ) : Binary q)).val : ℝ) (1 / OVER) := by simpa [Rel] using d1'
  exact (r1.round hu0 d2).bound hu0 (by norm_num at hu ⊢; linarith) (by norm_num at hu ⊢; linarith)

set_option maxHeartbeats 1600000 in
include hp hp' hl hq hsin hT hO hK hK2 hr hc ha in
/-- The filter is near the natural spline through the prototype. -/
theorem lpf_near (tmp junk : List (Binary p)) (ht : tmp.length = TAPS * OVER) (hj : junk.length = TAPS * OVER - 1) : ∃ s S, Rounded.lpf l p q sin TAPS OVER rate cutoff alpha tmp junk = .ok s ∧
    IsNaturalSpline (TAPS * OVER) (prototype TAPS OVER ((cutoff.val : ℝ) / rate.val) alpha.val) S ∧ ∀ (κ : ℝ) (k : Binary p), |(k.val : ℝ) - κ| ≤ 2.01 * (1 / 2 ^ p) * |κ| →
      (1 / 2 ≤ κ → κ ≤ TAPS - 1 / 2 → ∃ v, s.call Binary.trunc (TAPS * OVER) k = .ok v ∧ |(v.val : ℝ)| ≤ 2.9 * |2 * ((cutoff.val : ℝ) / rate.val)| ∧
        |(v.val : ℝ) - S (κ * OVER)| ≤ (710 + 990 * (alpha.val : ℝ) ^ 2 + 77 * TAPS) * (1 / 2 ^ p) * |2 * ((cutoff.val : ℝ) / rate.val)|) ∧
      (|κ| ≤ 1 / 2 → ∃ v, s.call Binary.trunc (TAPS * OVER) k = .ok v ∧ |(v.val : ℝ)| ≤ 8.6 * ((OVER : ℝ) / 2 + 1.1) ^ 3 * |2 * ((cutoff.val : ℝ) / rate.val)| ∧
        |(v.val : ℝ) - S (κ * OVER)| ≤ (1018 + 870 * (alpha.val : ℝ) ^ 2 + 48 * TAPS) * ((OVER : ℝ) / 2 + 1.1) ^ 3 * (1 / 2 ^ p) * |2 * ((cutoff.val : ℝ) / rate.val)|) := by
  have hKK : 2 ≤ TAPS * OVER := by have := Nat.mul_le_mul hT hO; omega
  have hOK : OVER ≤ TAPS * OVER := Nat.le_mul_of_pos_left _ (by omega)
  obtain ⟨hu0, hu⟩ := unit_tiny p hp
  have hsm := taps_small p TAPS OVER hK
  have hOr : (2 : ℝ) ≤ OVER := by exact_mod_cast hO
  have hTr : (1 : ℝ) ≤ TAPS := by exact_mod_cast hT
  choose! y hy using coefficient_near l p hp hp' hl sin hsin TAPS OVER hT hO hK hK2 rate cutoff alpha hr hc ha
  obtain ⟨dx, edx, hdx⟩ := step_near p q hp hq OVER (by omega) (by omega)
  have hfill : (List.range (TAPS * OVER)).foldlM (fun tmp (n : ℕ) => do
    let v ← Rounded.coefficient l p sin TAPS OVER rate cutoff alpha n
    wr tmp n v) tmp = .ok ((List.range (TAPS * OVER)).map y) := by
    refine update_loop _ _ _ _ ht (by simp) fun b i u v hi hb _ _ hv => ?_
    rw [List.getElem?_map, List.getElem?_range hi, Option.map_some, Option.some.injEq] at hv
    simp only [(hy i hi).1, bind, Except.bind, ← hv]
    exact wr_nat (by omega)
  set C := |2 * ((cutoff.val : ℝ) / rate.val)| with hC
  have hC0 : 0 ≤ C := abs_nonneg _
  set h := prototype TAPS OVER ((cutoff.val : ℝ) / rate.val) alpha.val with hh
  have ha2 : (alpha.val : ℝ) ^ 2 ≤ 9 := by rw [← sq_abs]; nlinarith [abs_nonneg (alpha.val : ℝ)]
  have ha0 := sq_nonneg (alpha.val : ℝ)
  obtain ⟨u, hue⟩ : ∃ u : ℝ, u = 1 / 2 ^ p := ⟨_, rfl⟩
  have huT : u * TAPS ≤ 1 / 128 := by
    rw [hue]
    have : (TAPS : ℝ) * 2 * (1 / 2 ^ p) ≤ TAPS * OVER * (1 / 2 ^ p) := by gcongr
    linarith
  have hE : (80 + 87 * (alpha.val : ℝ) ^ 2 + 6 * TAPS) * (1 / 2 ^ p) ≤ 0.07 := by
    rw [← hue] at hu0 hu ⊢
    have : u * (alpha.val : ℝ) ^ 2 ≤ 1 / 65536 * 9 := mul_le_mul hu ha2 ha0 (by norm_num)
    linarith
  have hB : ∀ i < TAPS * OVER, |((y i).val : ℝ)| ≤ 1.07 * C := by
    intro i hi
    have h1 := (hy i hi).2
    have h2 := prototype_size TAPS OVER ((cutoff.val : ℝ) / rate.val) alpha.val i
    have h3 := abs_sub_abs_le_abs_sub ((y i).val : ℝ) (h i)
    have h4 := mul_le_mul_of_nonneg_right hE hC0
    linarith
  have hdx0 : (Binary.convert p dx).val ≠ 0 := by
    have := (tau_numbers (κ := 0) (k := 0) (τ := 0) hu0 hu (by linarith : (0 : ℝ) < OVER) (by simp) hdx (by simp)).1
    exact_mod_cast this
  obtain ⟨s, es, S', hS', hcall⟩ := NaturalSpline.C90_natural p y (TAPS * OVER) (1.07 * C) (by omega) hKK (by exact_mod_cast (by omega : TAPS * OVER ≤ 2 ^ p)) junk ((List.range (TAPS * OVER)).map y) hj 1
    (fun i hi => by simp [hi]) hB ((0 : ℤ) : Binary p) (Binary.convert p dx) hdx0
  have hx0 : (((0 : ℤ) : Binary p).val) = 0 := by
    have := Binary.cast_exact p 0 (by simp)
    simpa using this
  refine ⟨s, NaturalSpline.S h (TAPS * OVER), ?_, NaturalSpline.S_natural _ _ hKK, fun κ k hk => ?_⟩
  · unfold Rounded.lpf
    rw [hfill]
    simp only [edx, bind, Except.bind]
    exact_mod_cast es
  rw [NaturalSpline.C91_unique _ hKK _ _ _ hS' (NaturalSpline.S_natural _ _ hKK)] at hcall
  have hx0r : ((((0 : ℤ) : Binary p).val : ℚ) : ℝ) = 0 := by rw [hx0]; norm_num
  obtain ⟨-, hsize, -⟩ := tau_numbers (τ := (k.val : ℝ) / (Binary.convert p dx).val) hu0 hu (by linarith : (0 : ℝ) < OVER) hk hdx (by simp; positivity)
  have hKr : (TAPS : ℝ) * OVER ≤ 1073741824 := by exact_mod_cast hK2
  have run : |κ| ≤ TAPS → ∃ v τ : Binary p, s.call Binary.trunc (TAPS * OVER) k = .ok v ∧ |(τ.val : ℝ) - κ * OVER| ≤ 6.1 * u * (|κ| * OVER) ∧
      ∀ T : ℝ, 1 ≤ T → -(T - 1) ≤ (τ.val : ℝ) → (τ.val : ℝ) ≤ TAPS * OVER - 1 + (T - 1) →
        |(v.val : ℝ) - NaturalSpline.S (fun i => ((y i).val : ℝ)) (TAPS * OVER) τ.val| ≤ 364 * u * C * T ^ 3 := by
    intro hκ
    have hκO : |κ| * OVER ≤ 1073741824 := (mul_le_mul_of_nonneg_right hκ (by linarith)).trans hKr
    obtain ⟨v, τ, e, hτ, -, herr, -⟩ := hcall k (by rw [hx0r, sub_zero]; linarith)
    rw [hx0r, sub_zero] at hτ
    obtain ⟨-, -, hτ2⟩ := tau_numbers hu0 hu (by linarith : (0 : ℝ) < OVER) hk hdx (hτ.trans (le_of_eq (by ring)))
    refine ⟨v, τ, e, by rw [hue]; exact hτ2, fun T hT0 h0 h1 => ?_⟩
    refine (herr (T - 1) (by linarith) (by exact_mod_cast h0) (by push_cast; linarith)).trans ?_
    rw [show 340 / 2 ^ p * (1.07 * C) * (1 + (T - 1)) ^ 3 = 363.8 * (u * C * T ^ 3) by rw [hue]; ring, show 364 * u * C * T ^ 3 = 364 * (u * C * T ^ 3) by ring]
    have : 0 ≤ u * C * T ^ 3 := by rw [hue]; positivity
    linarith
  have hdata : ∀ i < TAPS * OVER, |(fun i => ((y i).val : ℝ) - h i) i| ≤ (80 + 87 * (alpha.val : ℝ) ^ 2 + 6 * TAPS) * u * C := fun i hi => by rw [hue]; exact (hy i hi).2
  have hsteps : ∀ i, i + 1 < TAPS * OVER → |h (i + 1) - h i| ≤ C * (1.571 * TAPS + 19.74 * (alpha.val : ℝ) ^ 2) / (TAPS * OVER : ℕ) := fun i hi => prototype_change TAPS OVER _ _ hc i (by omega) hKK hi
  rw [← hue] at hu0 hu hsm
  have uC : 0 ≤ u * C := by positivity
  have uCa : 0 ≤ u * C * (alpha.val : ℝ) ^ 2 := by positivity
  have uCT : 0 ≤ u * C * TAPS := by positivity
  have hKpos : (0 : ℝ) < (TAPS : ℝ) * OVER := by positivity
  constructor
  · intro κ0 κ1
    have hκ : |κ| = κ := abs_of_nonneg (by linarith)
    obtain ⟨v, τ, e, hτ, herr⟩ := run (by rw [hκ]; linarith)
    have hκO : κ * OVER ≤ TAPS * OVER - 1 := by
      have := mul_le_mul_of_nonneg_right κ1 (by linarith : (0 : ℝ) ≤ OVER)
      linarith
    have hκO0 : 1 ≤ κ * OVER := by
      have := mul_le_mul_of_nonneg_right κ0 (by linarith : (0 : ℝ) ≤ OVER)
      linarith
    have hτ' : |(τ.val : ℝ) - κ * OVER| ≤ 6.1 * (u * (TAPS * OVER)) := by
      rw [hκ] at hτ
      refine hτ.trans ?_
      have : u * (κ * OVER) ≤ u * (TAPS * OVER) := mul_le_mul_of_nonneg_left (by linarith) hu0
      linarith
    have hτ'' := abs_le.mp hτ'
    have e1 := herr 1.1 (by norm_num) (by linarith) (by linarith)
    have hKc : (((TAPS * OVER : ℕ)) : ℝ) = TAPS * OVER := by push_cast; rfl
    have e2 := NaturalSpline.S_near _ _ hKK _ hdata 0.1 (by norm_num) (by norm_num) (τ.val : ℝ) (by linarith) (by rw [hKc]; linarith)
    rw [NaturalSpline.S_sub] at e2
    have e3 := NaturalSpline.S_slope h _ hKK _ hsteps 1.1 (by norm_num) (τ.val : ℝ) (κ * OVER) (by linarith) (by rw [hKc]; linarith) (by linarith) (by rw [hKc]; linarith)
    have e4 := NaturalSpline.S_near _ _ hKK _ hB 0.1 (by norm_num) (by norm_num) (τ.val : ℝ) (by linarith) (by rw [hKc]; linarith)
    have e5 : (6 * (1.1 : ℝ) ^ 2 - 1) * (C * (1.571 * TAPS + 19.74 * (alpha.val : ℝ) ^ 2) / (TAPS * OVER : ℕ)) * |(τ.val : ℝ) - κ * OVER| ≤ 6.26 * 6.1 * (u * C * (1.571 * TAPS + 19.74 * (alpha.val : ℝ) ^ 2)) := by
      calc _ ≤ (6 * (1.1 : ℝ) ^ 2 - 1) * (C * (1.571 * TAPS + 19.74 * (alpha.val : ℝ) ^ 2) / (TAPS * OVER : ℕ)) * (6.1 * (u * (TAPS * OVER))) := by gcongr
        _ = 6.26 * 6.1 * (u * C * (1.571 * TAPS + 19.74 * (alpha.val : ℝ) ^ 2)) * ((TAPS * OVER) / (TAPS * OVER)) := by rw [hKc]; ring
        _ = _ := by rw [div_self hKpos.ne', mul_one]
    refine ⟨v, e, ?_, ?_⟩
    · have h3 := abs_sub_abs_le_abs_sub (v.val : ℝ) (NaturalSpline.S (fun i => ((y i).val : ℝ)) (TAPS * OVER) τ.val)
      have : u * C ≤ 1 / 65536 * C := mul_le_mul_of_nonneg_right hu hC0
      linarith
    · rw [← hue]
      have h4 := abs_sub_le (v.val : ℝ) (NaturalSpline.S (fun i => ((y i).val : ℝ)) (TAPS * OVER) τ.val) (NaturalSpline.S h (TAPS * OVER) (κ * OVER))
      have h5 := abs_sub_le (NaturalSpline.S (fun i => ((y i).val : ℝ)) (TAPS * OVER) τ.val) (NaturalSpline.S h (TAPS * OVER) τ.val) (NaturalSpline.S h (TAPS * OVER) (κ * OVER))
      linarith
  · intro κ1
    obtain ⟨v, τ, e, hτ, herr⟩ := run (by linarith)
    obtain ⟨T, hTe⟩ : ∃ T : ℝ, T = OVER / 2 + 1.1 := ⟨_, rfl⟩
    have hT2 : 2.1 ≤ T := by linarith
    have hκO : |κ| * OVER ≤ OVER / 2 := by
      have := mul_le_mul_of_nonneg_right κ1 (by linarith : (0 : ℝ) ≤ OVER)
      linarith
    have hκO' : |κ * OVER| ≤ OVER / 2 := by rw [abs_mul, abs_of_nonneg (by linarith : (0 : ℝ) ≤ OVER)]; exact hκO
    have hκO2 := abs_le.mp hκO'
    have hτ' : |(τ.val : ℝ) - κ * OVER| ≤ 3.05 * (u * OVER) := by
      refine hτ.trans ?_
      have : u * (|κ| * OVER) ≤ u * (OVER / 2) := mul_le_mul_of_nonneg_left hκO hu0
      linarith
    have huO : u * OVER ≤ 1 / 64 := by
      have : (1 : ℝ) * OVER * u ≤ TAPS * OVER * u := by gcongr
      linarith
    have hτ'' := abs_le.mp hτ'
    have hKO : (OVER : ℝ) ≤ TAPS * OVER := by
      have := mul_le_mul_of_nonneg_right hTr (by linarith : (0 : ℝ) ≤ OVER)
      linarith
    have hKc : (((TAPS * OVER : ℕ)) : ℝ) = TAPS * OVER := by push_cast; rfl
    have b0 : -(T - 1) ≤ (τ.val : ℝ) := by linarith
    have b1 : (τ.val : ℝ) ≤ TAPS * OVER - 1 + (T - 1) := by linarith
    have e1 := herr T (by linarith) b0 b1
    have e2 := NaturalSpline.S_far _ _ hKK _ hdata T (by linarith) (τ.val : ℝ) b0 (by rw [hKc]; exact b1)
    rw [NaturalSpline.S_sub] at e2
    have e3 := NaturalSpline.S_slope h _ hKK _ hsteps T (by linarith) (τ.val : ℝ) (κ * OVER) b0 (by rw [hKc]; exact b1) (by linarith) (by rw [hKc]; linarith)
    have e4 := NaturalSpline.S_far _ _ hKK _ hB T (by linarith) (τ.val : ℝ) b0 (by rw [hKc]; exact b1)
    have hT3 : 0 ≤ T ^ 3 := by positivity
    have hT2' : T ^ 2 * 2.1 ≤ T ^ 3 := by
      have := mul_le_mul_of_nonneg_left hT2 (sq_nonneg T)
      linarith
    have e5 : (6 * T ^ 2 - 1) * (C * (1.571 * TAPS + 19.74 * (alpha.val : ℝ) ^ 2) / (TAPS * OVER : ℕ)) * |(τ.val : ℝ) - κ * OVER| ≤ (14 + 173 * (alpha.val : ℝ) ^ 2) * T ^ 3 * (u * C) := by
      calc _ ≤ 6 * T ^ 2 * (C * (1.571 * TAPS + 19.74 * (alpha.val : ℝ) ^ 2) / (TAPS * OVER : ℕ)) * (3.05 * (u * OVER)) := by
            gcongr
            linarith
        _ = 18.3 * T ^ 2 * (u * C) * (1.571 + 19.74 * (alpha.val : ℝ) ^ 2 / TAPS) := by
            rw [hKc, show 6 * T ^ 2 * (C * (1.571 * TAPS + 19.74 * (alpha.val : ℝ) ^ 2) / (TAPS * OVER)) * (3.05 * (u * OVER)) = 18.3 * T ^ 2 * (u * C) * ((1.571 * TAPS + 19.74 * (alpha.val : ℝ) ^ 2) / (TAPS * OVER) * OVER) by ring]
            congr 1
            have : (TAPS : ℝ) ≠ 0 := by positivity
            rw [div_mul_eq_mul_div, mul_div_mul_right _ _ (by positivity : (OVER : ℝ) ≠ 0), add_div, mul_div_cancel_right₀ _ this]
        _ ≤ 18.3 * T ^ 2 * (u * C) * (1.571 + 19.74 * (alpha.val : ℝ) ^ 2) := by
            gcongr
            exact div_le_self (by positivity) hTr
        _ ≤ 18.3 * (T ^ 3 / 2.1) * (u * C) * (1.571 + 19.74 * (alpha.val : ℝ) ^ 2) := by
            gcongr
            rw [le_div_iff₀ (by norm_num)]
            exact hT2'
        _ ≤ _ := by
            have n1 : 0 ≤ T ^ 3 * (u * C) := by positivity
            have n2 : 0 ≤ T ^ 3 * (u * C) * (alpha.val : ℝ) ^ 2 := by positivity
            rw [show 18.3 * (T ^ 3 / 2.1) * (u * C) * (1.571 + 19.74 * (alpha.val : ℝ) ^ 2) = 18.3 / 2.1 * 1.571 * (T ^ 3 * (u * C)) + 18.3 / 2.1 * 19.74 * (T ^ 3 * (u * C) * (alpha.val : ℝ) ^ 2) by ring,
              show (14 + 173 * (alpha.val : ℝ) ^ 2) * T ^ 3 * (u * C) = 14 * (T ^ 3 * (u * C)) + 173 * (T ^ 3 * (u * C) * (alpha.val : ℝ) ^ 2) by ring]
            refine add_le_add (mul_le_mul_of_nonneg_right (by norm_num) n1) (mul_le_mul_of_nonneg_right (by norm_num) n2)
    rw [← hTe]
    have n1 : 0 ≤ T ^ 3 * (u * C) := by positivity
    have n2 : 0 ≤ T ^ 3 * (u * C) * (alpha.val : ℝ) ^ 2 := by positivity
    have n3 : 0 ≤ T ^ 3 * (u * C) * TAPS := by positivity
    refine ⟨v, e, ?_, ?_⟩
    · have h3 := abs_sub_abs_le_abs_sub (v.val : ℝ) (NaturalSpline.S (fun i => ((y i).val : ℝ)) (TAPS * OVER) τ.val)
      have h6 : T ^ 3 * (u * C) ≤ T ^ 3 * (1 / 65536 * C) := mul_le_mul_of_nonneg_left (mul_le_mul_of_nonneg_right hu hC0) hT3
      have h7 : 0 ≤ T ^ 3 * C := by positivity
      linarith
    · rw [← hue]
      have h4 := abs_sub_le (v.val : ℝ) (NaturalSpline.S (fun i => ((y i).val : ℝ)) (TAPS * OVER) τ.val) (NaturalSpline.S h (TAPS * OVER) (κ * OVER))
      have h5 := abs_sub_le (NaturalSpline.S (fun i => ((y i).val : ℝ)) (TAPS * OVER) τ.val) (NaturalSpline.S h (TAPS * OVER) τ.val) (NaturalSpline.S h (TAPS * OVER) (κ * OVER))
      linarith

end

end Resampling
end DSP
