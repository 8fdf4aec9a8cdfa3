import Verif.Props.PixelsSpecial
import Verif.Props.PnmPixels
import Verif.Props.Range
import Verif.Spec.Srgb
import Mathlib.Analysis.Complex.ExponentialBounds
import Mathlib.Analysis.Convex.SpecificFunctions.Basic

/-!
# C138: codes of pixels in IEEE arithmetic
-/

namespace DSP

open Ieee Spec FFT Bridge

namespace PixelsIeee

/-! ### Powers -/

theorem exp_change {a b : ℝ} (ha : a ≤ 0) (hb : b ≤ 0) : |Real.exp a - Real.exp b| ≤ |a - b| := by
  have key : ∀ a b : ℝ, a ≤ b → b ≤ 0 → |Real.exp a - Real.exp b| ≤ |a - b| := by
    intro a b h hb
    rw [abs_of_nonpos (sub_nonpos.mpr (Real.exp_le_exp.mpr h)), abs_of_nonpos (sub_nonpos.mpr h)]
    have e : Real.exp a = Real.exp b * Real.exp (a - b) := by rw [← Real.exp_add]; ring_nf
    have h1 := Real.add_one_le_exp (a - b)
    have h2 := Real.exp_le_one_iff.mpr hb
    have h3 := Real.exp_pos b
    rw [e]
    nlinarith
  rcases le_total a b with h | h
  · exact key a b h hb
  · rw [abs_sub_comm, abs_sub_comm a]
    exact key b a h ha

theorem log_low {x : ℝ} (h : 3 / 1000 ≤ x) : -6 ≤ Real.log x := by
  rw [Real.le_log_iff_exp_le (by linarith)]
  refine le_trans ?_ h
  rw [Real.exp_neg, inv_le_comm₀ (Real.exp_pos _) (by norm_num)]
  have h1 := Real.exp_one_gt_d9
  calc ((3 / 1000 : ℝ))⁻¹ ≤ 2.7 ^ 6 := by norm_num
    _ ≤ Real.exp 1 ^ 6 := pow_le_pow_left₀ (by norm_num) (by linarith) 6
    _ = Real.exp 6 := by rw [← Real.exp_nat_mul]; norm_num

theorem power_exponent {x y y' : ℝ} (h0 : 3 / 1000 ≤ x) (h1 : x ≤ 1) (hy : 0 ≤ y) (hy' : 0 ≤ y') : |x ^ y - x ^ y'| ≤ 6 * |y - y'| := by
  have hx : 0 < x := by linarith
  have l0 := log_low h0
  have l1 : Real.log x ≤ 0 := Real.log_nonpos hx.le h1
  rw [Real.rpow_def_of_pos hx, Real.rpow_def_of_pos hx]
  refine (exp_change (mul_nonpos_of_nonpos_of_nonneg l1 hy) (mul_nonpos_of_nonpos_of_nonneg l1 hy')).trans ?_
  rw [← mul_sub, abs_mul]
  refine mul_le_mul_of_nonneg_right ?_ (abs_nonneg _)
  rw [abs_le]
  constructor <;> linarith

theorem power_slope {y : ℝ} (h : 3 / 1000 ≤ y) : y ^ (1 / (2.4 : ℝ)) ≤ 31 * y := by
  refine Pnm.root_le (by linarith) (by linarith) ?_
  have h7 : (3 / 1000 : ℝ) ^ 7 ≤ y ^ 7 := pow_le_pow_left₀ (by norm_num) h 7
  have h5 : (0 : ℝ) < y ^ 5 := by positivity
  calc y ^ 5 = y ^ 5 * 1 := by ring
    _ ≤ y ^ 5 * (31 ^ 12 * y ^ 7) := mul_le_mul_of_nonneg_left (le_trans (by norm_num) (mul_le_mul_of_nonneg_left h7 (by norm_num))) h5.le
    _ = (31 * y) ^ 12 := by ring

theorem curve_slope {x y : ℝ} (hx : 3 / 1000 ≤ x) (hy : 3 / 1000 ≤ y) : |Pnm.curve x - Pnm.curve y| ≤ 14 * |x - y| := by
  have key : ∀ x y : ℝ, 3 / 1000 ≤ y → y ≤ x → |Pnm.curve x - Pnm.curve y| ≤ 14 * |x - y| := by
    intro x y hy h
    have y0 : 0 < y := by linarith
    rw [abs_of_nonneg (sub_nonneg.mpr (Pnm.curve_mono y0.le h)), abs_of_nonneg (sub_nonneg.mpr h)]
    have hs : -1 ≤ (x - y) / y := le_trans (by norm_num) (div_nonneg (sub_nonneg.mpr h) y0.le)
    have hb := rpow_one_add_le_one_add_mul_self hs (p := 1 / (2.4 : ℝ)) (by norm_num) (by norm_num)
    have e : x = y * (1 + (x - y) / y) := by field_simp; ring
    have hm : x ^ (1 / (2.4 : ℝ)) = y ^ (1 / (2.4 : ℝ)) * (1 + (x - y) / y) ^ (1 / (2.4 : ℝ)) := by
      rw [← Real.mul_rpow y0.le (by linarith), ← e]
    have hr := Real.rpow_nonneg y0.le (1 / (2.4 : ℝ))
    have h1 : x ^ (1 / (2.4 : ℝ)) - y ^ (1 / (2.4 : ℝ)) ≤ y ^ (1 / (2.4 : ℝ)) * (1 / (2.4 : ℝ) * ((x - y) / y)) := by
      rw [hm]
      nlinarith
    have h2 : y ^ (1 / (2.4 : ℝ)) * (1 / (2.4 : ℝ) * ((x - y) / y)) ≤ 31 / 2.4 * (x - y) := by
      have h3 := power_slope hy
      calc y ^ (1 / (2.4 : ℝ)) * (1 / (2.4 : ℝ) * ((x - y) / y)) ≤ 31 * y * (1 / (2.4 : ℝ) * ((x - y) / y)) :=
            mul_le_mul_of_nonneg_right h3 (mul_nonneg (by norm_num) (div_nonneg (sub_nonneg.mpr h) y0.le))
        _ = _ := by field_simp
    unfold Pnm.curve
    norm_num at h1 h2 ⊢
    linarith
  rcases le_total y x with h | h
  · exact key x y hy h
  · rw [abs_sub_comm, abs_sub_comm x]
    exact key y x hx h

theorem curve_at_joint : |Pnm.curve Pnm.joint - 0.04045| ≤ 3e-8 := by
  have h1 := Pnm.curve_joint
  have h2 := Pnm.curve_upper (t := 0) le_rfl
  norm_num at h2
  rw [abs_le]
  constructor
  · linarith
  · norm_num at *
    linarith

/-! ### The code -/

variable {F : Format}

/-- A `std::pow` that is right to five digits, for bases between zero and one and exponents of up to three. -/
def Accurate (pow : Ieee F → Ieee F → Ieee F) : Prop :=
  ∀ x y : Ieee F, GoodIeee x → GoodIeee y → 0 < x.val → x.val ≤ 1 → 0 < y.val → y.val ≤ 3 → GoodIeee (pow x y) ∧ |((pow x y).val : ℝ) - (x.val : ℝ) ^ (y.val : ℝ)| ≤ 1 / 100000

variable [NeZero F.p] (D : UnitCircle.Deep F) (hp' : F.p ≤ 53)

section
include D hp'

theorem lit (q : ℚ) (h0 : 1 / 1000 ≤ q) (h1 : q ≤ 4000) : GoodIeee (Pnm.constant F q) ∧ |((Pnm.constant F q).val : ℝ) - q| ≤ q / 500000 := by
  have e : |q| = q := abs_of_nonneg (by linarith)
  obtain ⟨a, b⟩ := Elementary.AtanIeee.literal_between 53 F.p D.wide.p hp' q _ _ le_rfl le_rfl
  rw [e] at a b
  have s := UnitCircle.same_literal D (Binary.literal 53 F.p q) (by
    rw [abs_of_nonneg (by linarith)]
    refine le_trans ?_ a
    have : (1 : ℚ) / 2 ^ 60 ≤ 1 / 2000 := by norm_num
    linarith) (by
    rw [abs_of_nonneg (by linarith)]
    linarith)
  unfold Pnm.constant
  refine ⟨⟨s.1, s.2.1⟩, ?_⟩
  rw [s.2.2]
  have a' : ((q - q / 524288 : ℚ) : ℝ) ≤ ((Binary.literal 53 F.p q).val : ℝ) := by exact_mod_cast a
  have b' : ((Binary.literal 53 F.p q).val : ℝ) ≤ ((q + q / 524288 : ℚ) : ℝ) := by exact_mod_cast b
  have q0 : (0 : ℝ) ≤ q := by exact_mod_cast (show (0 : ℚ) ≤ q by linarith)
  push_cast at a' b'
  rw [abs_le]
  constructor <;> linarith

theorem exponent_close : GoodIeee (1 / (Pnm.constant F 2.4)) ∧ |((1 / (Pnm.constant F 2.4)).val : ℝ) - 1 / 2.4| ≤ 2e-6 := by
  have U := NCO.usual_of_wide D.wide
  obtain ⟨g, a⟩ := lit D hp' 2.4 (by norm_num) (by norm_num)
  obtain ⟨g1, v1⟩ := FMDRounded.good_one U
  generalize (Pnm.constant F 2.4) = y at *
  obtain ⟨a, b⟩ := abs_le.mp a
  norm_num at a b
  have l : (1 : ℝ) / 2.4 - 9e-7 ≤ 1 / y.val := by rw [le_div_iff₀ (by linarith)]; norm_num; linarith
  have u : (1 : ℝ) / y.val ≤ 1 / 2.4 + 9e-7 := by rw [div_le_iff₀ (by linarith)]; norm_num; linarith
  norm_num at l u
  rw [← one_div] at l u
  obtain ⟨h1, h2⟩ := FMDRounded.good_div U 1 y g1 g (by intro h; rw [h] at a; norm_num at a) (room D (by rw [v1, abs_le]; constructor <;> linarith))
  have h2 := close D h2
  rw [v1, abs_of_nonneg (a := (1 : ℝ) / y.val) (by linarith)] at h2
  obtain ⟨c, d⟩ := abs_le.mp h2
  refine ⟨h1, ?_⟩
  rw [abs_le]
  norm_num
  constructor <;> linarith

theorem joint_close : GoodIeee ((Pnm.constant F 0.04045) / (Pnm.constant F 12.92)) ∧ |(((Pnm.constant F 0.04045) / (Pnm.constant F 12.92)).val : ℝ) - Pnm.joint| ≤ 2e-8 := by
  have U := NCO.usual_of_wide D.wide
  obtain ⟨g, a⟩ := lit D hp' 12.92 (by norm_num) (by norm_num)
  obtain ⟨g', a'⟩ := lit D hp' 0.04045 (by norm_num) (by norm_num)
  generalize (Pnm.constant F 12.92) = y at *
  generalize (Pnm.constant F 0.04045) = x at *
  obtain ⟨a, b⟩ := abs_le.mp a
  obtain ⟨a', b'⟩ := abs_le.mp a'
  norm_num at a b a' b'
  have l : Pnm.joint - 14e-9 ≤ x.val / y.val := by unfold Pnm.joint; rw [le_div_iff₀ (by linarith)]; norm_num; linarith
  have u : (x.val : ℝ) / y.val ≤ Pnm.joint + 14e-9 := by unfold Pnm.joint; rw [div_le_iff₀ (by linarith)]; norm_num; linarith
  have j1 : Pnm.joint ≤ 0.0032 := by norm_num [Pnm.joint]
  have j0 : 0.0031 ≤ Pnm.joint := by norm_num [Pnm.joint]
  generalize Pnm.joint = j at *
  norm_num at l u j0 j1
  obtain ⟨h1, h2⟩ := FMDRounded.good_div U x y g' g (by intro h; rw [h] at a; norm_num at a) (room D (by rw [abs_le]; constructor <;> linarith))
  have h2 := close D h2
  rw [abs_of_nonneg (a := (x.val : ℝ) / y.val) (by linarith)] at h2
  obtain ⟨c, d⟩ := abs_le.mp h2
  refine ⟨h1, ?_⟩
  rw [abs_le]
  norm_num
  constructor <;> linarith

theorem low_close (c : Ieee F) (g : GoodIeee c) (c0 : 0 ≤ (c.val : ℝ)) (c1 : (c.val : ℝ) ≤ 4 / 1000) : GoodIeee (c * (Pnm.constant F 12.92)) ∧ |((c * (Pnm.constant F 12.92)).val : ℝ) - 12.92 * c.val| ≤ 2e-7 := by
  have U := NCO.usual_of_wide D.wide
  obtain ⟨gy, a⟩ := lit D hp' 12.92 (by norm_num) (by norm_num)
  generalize (Pnm.constant F 12.92) = y at *
  obtain ⟨a, b⟩ := abs_le.mp a
  norm_num at a b
  have p0 : (0 : ℝ) ≤ c.val * y.val := mul_nonneg c0 (by linarith)
  have p1 : (c.val : ℝ) * y.val ≤ 4 / 1000 * 13 := mul_le_mul c1 (by linarith) (by linarith) (by norm_num)
  obtain ⟨h1, h2⟩ := good_mul U c y g gy (room D (by rw [abs_of_nonneg p0]; linarith))
  have h2 := close D h2
  rw [abs_of_nonneg p0] at h2
  obtain ⟨e, d⟩ := abs_le.mp h2
  refine ⟨h1, ?_⟩
  have q1 : (c.val : ℝ) * y.val ≤ c.val * (12.92 + 3e-5) := mul_le_mul_of_nonneg_left (by norm_num; linarith) c0
  have q0 : c.val * (12.92 - 3e-5) ≤ (c.val : ℝ) * y.val := mul_le_mul_of_nonneg_left (by norm_num; linarith) c0
  rw [abs_le]
  norm_num at *
  constructor <;> linarith

theorem high_close {pow : Ieee F → Ieee F → Ieee F} (P : Accurate pow) (c : Ieee F) (g : GoodIeee c) (c0 : 3 / 1000 ≤ (c.val : ℝ)) (c1 : c.val ≤ 1) :
    GoodIeee ((1 + (Pnm.constant F 0.055)) * pow c (1 / (Pnm.constant F 2.4)) - (Pnm.constant F 0.055)) ∧
    |(((1 + (Pnm.constant F 0.055)) * pow c (1 / (Pnm.constant F 2.4)) - (Pnm.constant F 0.055)).val : ℝ) - Pnm.curve c.val| ≤ 3e-5 := by
  have U := NCO.usual_of_wide D.wide
  obtain ⟨gy, hy⟩ := exponent_close D hp'
  obtain ⟨ga, a⟩ := lit D hp' 0.055 (by norm_num) (by norm_num)
  obtain ⟨g1, v1⟩ := FMDRounded.good_one U
  generalize 1 / (Pnm.constant F 2.4) = y at *
  generalize (Pnm.constant F 0.055) = o at *
  obtain ⟨a, b⟩ := abs_le.mp a
  norm_num at a b
  have cp' : 0 < c.val := by
    have : (0 : ℝ) < c.val := by linarith
    exact_mod_cast this
  have c1' : (c.val : ℝ) ≤ 1 := by exact_mod_cast c1
  obtain ⟨hy1, hy2⟩ := abs_le.mp hy
  have y0 : (0 : ℝ) < y.val := by norm_num at hy1; linarith
  have y3 : (y.val : ℝ) ≤ 3 := by norm_num at hy2; linarith
  obtain ⟨gp, q2⟩ := P c y g gy cp' c1 (by exact_mod_cast y0) (by exact_mod_cast y3)
  have q3 := power_exponent c0 c1' y0.le (show (0 : ℝ) ≤ 1 / 2.4 by norm_num)
  have r0 := Real.rpow_nonneg (show (0 : ℝ) ≤ c.val by linarith) (1 / 2.4)
  have r1 := Real.rpow_le_one (show (0 : ℝ) ≤ c.val by linarith) c1' (show (0 : ℝ) ≤ 1 / 2.4 by norm_num)
  unfold Pnm.curve
  have q4 : |((pow c y).val : ℝ) - (c.val : ℝ) ^ (1 / (2.4 : ℝ))| ≤ 2.2e-5 := by
    refine (abs_sub_le _ ((c.val : ℝ) ^ (y.val : ℝ)) _).trans ?_
    norm_num at *
    linarith
  generalize (c.val : ℝ) ^ (1 / (2.4 : ℝ)) = r at *
  generalize pow c y = w at *
  clear q2 q3
  obtain ⟨w0, w1⟩ := abs_le.mp q4
  norm_num at w0 w1
  -- the sum
  obtain ⟨gs, hs⟩ := good_add U 1 o g1 ga (room D (by rw [v1, abs_le]; constructor <;> linarith))
  have hs := close D hs
  rw [v1, abs_of_nonneg (a := (1 : ℝ) + o.val) (by linarith)] at hs
  obtain ⟨s0, s1⟩ := abs_le.mp hs
  generalize 1 + o = s at *
  -- the product
  have sl : (1.055 : ℝ) - 1.3e-6 ≤ s.val := by norm_num at *; linarith
  have su : (s.val : ℝ) ≤ 1.055 + 1.3e-6 := by norm_num at *; linarith
  have hm : |(s.val : ℝ) * w.val - 1.055 * r| ≤ 2.5e-5 := by
    have e : (s.val : ℝ) * w.val - 1.055 * r = (s.val - 1.055) * w.val + 1.055 * (w.val - r) := by ring
    rw [e]
    refine (abs_add_le _ _).trans ?_
    rw [abs_mul, abs_mul]
    have b1 : |(s.val : ℝ) - 1.055| ≤ 1.3e-6 := abs_le.mpr ⟨by linarith, by linarith⟩
    have b2 : |(w.val : ℝ)| ≤ 1.0001 := abs_le.mpr ⟨by norm_num; linarith, by norm_num; linarith⟩
    have b3 : |(s.val : ℝ) - 1.055| * |(w.val : ℝ)| ≤ 1.3e-6 * 1.0001 := mul_le_mul b1 b2 (abs_nonneg _) (by norm_num)
    have b4 : |(1.055 : ℝ)| * |(w.val : ℝ) - r| ≤ 1.055 * 2.2e-5 := mul_le_mul (by rw [abs_of_pos (by norm_num)]) q4 (abs_nonneg _) (by norm_num)
    norm_num at *
    linarith
  obtain ⟨m0, m1⟩ := abs_le.mp hm
  norm_num at m0 m1
  obtain ⟨gt, ht⟩ := good_mul U s w gs gp (room D (by rw [abs_le]; constructor <;> linarith))
  have ht := close D ht
  have hab : |(s.val : ℝ) * w.val| ≤ 1.06 := abs_le.mpr ⟨by norm_num; linarith, by norm_num; linarith⟩
  obtain ⟨t0, t1⟩ := abs_le.mp (ht.trans (show (1 : ℝ) / 1000000 * (|(s.val : ℝ) * w.val| + 1 / 1000000) ≤ 1.1e-6 by norm_num at *; linarith))
  generalize s * w = t at *
  norm_num at t0 t1
  -- the difference
  obtain ⟨gd, hd⟩ := good_sub U t o gt ga (room D (by rw [abs_le]; constructor <;> linarith))
  have hd := close D hd
  have hab2 : |(t.val : ℝ) - o.val| ≤ 1.06 := abs_le.mpr ⟨by norm_num; linarith, by norm_num; linarith⟩
  obtain ⟨d0, d1⟩ := abs_le.mp (hd.trans (show (1 : ℝ) / 1000000 * (|(t.val : ℝ) - o.val| + 1 / 1000000) ≤ 1.1e-6 by norm_num at *; linarith))
  norm_num at d0 d1
  refine ⟨gd, abs_le.mpr ⟨?_, ?_⟩⟩ <;> norm_num <;> linarith

omit hp' in
theorem whole (m : ℤ) (h : |m| ≤ 65535) : GoodIeee ((m : ℤ) : Ieee F) ∧ (((m : ℤ) : Ieee F).val : ℝ) = m := by
  have sm := UnitCircle.same_int D m (by omega)
  refine ⟨⟨sm.1, sm.2.1⟩, ?_⟩
  rw [sm.2.2, WavBinary.cast_val m ?_]
  · norm_cast
  · have := pow_le_pow_right₀ (by norm_num : (1 : ℤ) ≤ 2) D.wide.p
    norm_num at this
    omega

omit hp' in
/-- The conversion at the end. -/
theorem code_close (m : ℤ) (h0 : 1 ≤ m) (h1 : m ≤ 65535) (v : Ieee F) (g : GoodIeee v) (hv : |(v.val : ℝ)| ≤ 1.2) :
    ∃ q, int32 (Ieee.code ((m : Ieee F) * v)) = .ok q ∧ |(q : ℝ) - m * v.val| ≤ 1 / 2 + m / 500000 := by
  have U := NCO.usual_of_wide D.wide
  obtain ⟨gm, vm⟩ := whole D m (by rw [abs_le]; omega)
  have m0 : (1 : ℝ) ≤ m := by exact_mod_cast h0
  have m1 : (m : ℝ) ≤ 65535 := by exact_mod_cast h1
  have p1 : |(m : ℝ) * v.val| ≤ m * 1.2 := by
    rw [abs_mul, abs_of_nonneg (by linarith)]
    exact mul_le_mul_of_nonneg_left hv (by linarith)
  obtain ⟨gw, hw⟩ := good_mul U ((m : ℤ) : Ieee F) v gm g (room D (by rw [vm]; exact p1.trans (by norm_num; linarith)))
  have hw := close D hw
  rw [vm] at hw
  generalize ((m : ℤ) : Ieee F) * v = w at *
  obtain ⟨gf, gv⟩ := gw
  obtain ⟨a, b⟩ := abs_le.mp (hw.trans (show (1 : ℝ) / 1000000 * (|(m : ℝ) * v.val| + 1 / 1000000) ≤ m / 500000 by norm_num at p1 ⊢; linarith))
  have ec : Ieee.code w = Binary.nearest w.val := by
    cases w with
    | nan => exact gf.elim
    | inf => exact gf.elim
    | num s n => rfl
  have hr : |((Binary.nearest w.val : ℤ) : ℝ) - (w.val : ℝ)| ≤ 1 / 2 := by
    have h := Binary.nearest_near w.val
    have : ((|((Binary.nearest w.val : ℤ) : ℚ) - w.val| : ℚ) : ℝ) ≤ ((1 / 2 : ℚ) : ℝ) := by exact_mod_cast h
    push_cast at this
    exact this
  obtain ⟨c, d⟩ := abs_le.mp hr
  obtain ⟨p2, p3⟩ := abs_le.mp p1
  norm_num at p2 p3
  rw [ec]
  generalize Binary.nearest w.val = q at *
  have q0 : (-100000 : ℝ) < q := by linarith
  have q1 : (q : ℝ) < 100000 := by linarith
  have q0' : -100000 < q := by exact_mod_cast q0
  have q1' : q < 100000 := by exact_mod_cast q1
  refine ⟨q, Wav.int32_ok (by omega), ?_⟩
  rw [abs_le]
  constructor <;> linarith

/-- Either branch of the encoder. -/
theorem encode {pow : Ieee F → Ieee F → Ieee F} (P : Accurate pow) (m : ℤ) (h0 : 1 ≤ m) (h1 : m ≤ 65535) (c : Ieee F) (gc : GoodIeee c) (c0 : 0 ≤ c.val) (c1 : c.val ≤ 1) :
    ∃ (q : ℤ) (v j : ℝ), curve pow m (Pnm.constant F 0.04045) (Pnm.constant F 0.055) (Pnm.constant F 12.92) (Pnm.constant F 2.4) c = .ok q ∧
      |(q : ℝ) - m * v| ≤ 1 / 2 + m / 500000 ∧ |j - Pnm.joint| ≤ 2e-8 ∧
      ((c.val ≤ j ∧ |v - 12.92 * c.val| ≤ 2e-7) ∨ (j < c.val ∧ |v - Pnm.curve c.val| ≤ 3e-5)) := by
  obtain ⟨gj, hj⟩ := joint_close D hp'
  have c0' : (0 : ℝ) ≤ c.val := by exact_mod_cast c0
  have c1' : (c.val : ℝ) ≤ 1 := by exact_mod_cast c1
  have lw := low_close D hp' c gc c0'
  have hg := fun h => high_close D hp' P c gc h c1
  generalize (Pnm.constant F 0.04045) = K0 at *
  generalize (Pnm.constant F 0.055) = a at *
  generalize (Pnm.constant F 12.92) = phi at *
  generalize (Pnm.constant F 2.4) = gamma at *
  unfold curve
  have ha := at_most c _ gc gj
  have jl : (3.1e-3 : ℝ) ≤ Pnm.joint := by norm_num [Pnm.joint]
  have ju : Pnm.joint ≤ 3.2e-3 := by norm_num [Pnm.joint]
  obtain ⟨j0, j1⟩ := abs_le.mp hj
  norm_num at j0 j1 jl ju
  by_cases h : c.val ≤ (K0 / phi).val
  · rw [if_pos (ha.mpr h)]
    have h2 : (c.val : ℝ) ≤ (K0 / phi).val := by exact_mod_cast h
    obtain ⟨gv, w⟩ := lw (by linarith)
    obtain ⟨q, e, hq⟩ := code_close D m h0 h1 _ gv (by
      obtain ⟨w0, w1⟩ := abs_le.mp w
      rw [abs_le]
      norm_num at w0 w1 ⊢
      constructor <;> linarith)
    exact ⟨q, _, (K0 / phi).val, e, hq, hj, .inl ⟨h2, w⟩⟩
  · rw [if_neg (fun k => h (ha.mp k))]
    have h2 : ((K0 / phi).val : ℝ) < c.val := by exact_mod_cast not_le.mp h
    obtain ⟨gv, w⟩ := hg (by linarith)
    have r0 := Real.rpow_nonneg c0' (1 / 2.4)
    have r1 := Real.rpow_le_one c0' c1' (show (0 : ℝ) ≤ 1 / 2.4 by norm_num)
    obtain ⟨q, e, hq⟩ := code_close D m h0 h1 _ gv (by
      obtain ⟨w0, w1⟩ := abs_le.mp w
      unfold Pnm.curve at w0 w1
      generalize (c.val : ℝ) ^ (1 / (2.4 : ℝ)) = r at *
      rw [abs_le]
      norm_num at *
      constructor <;> linarith)
    exact ⟨q, _, (K0 / phi).val, e, hq, hj, .inr ⟨h2, w⟩⟩

end

theorem standard (x : ℝ) : srgbCurve x = if x ≤ Pnm.joint then 12.92 * x else Pnm.curve x := by
  unfold srgbCurve Pnm.joint Pnm.curve
  norm_num

/-- Where the two branches meet they agree, so that a slightly misplaced joint does not matter. -/
theorem branches {c v j : ℝ} (hj : |j - Pnm.joint| ≤ 2e-8) (h : (c ≤ j ∧ |v - 12.92 * c| ≤ 2e-7) ∨ (j < c ∧ |v - Pnm.curve c| ≤ 3e-5)) : |v - srgbCurve c| ≤ 4e-5 := by
  have jl : (3.1e-3 : ℝ) ≤ Pnm.joint := by norm_num [Pnm.joint]
  have je : 12.92 * Pnm.joint = 0.04045 := by norm_num [Pnm.joint]
  have cj := curve_at_joint
  obtain ⟨j0, j1⟩ := abs_le.mp hj
  obtain ⟨k0, k1⟩ := abs_le.mp cj
  rw [standard]
  norm_num at j0 j1 jl je k0 k1
  rcases h with ⟨h, w⟩ | ⟨h, w⟩ <;> obtain ⟨w0, w1⟩ := abs_le.mp w <;> norm_num at w0 w1
  · by_cases hc : c ≤ Pnm.joint
    · rw [if_pos hc, abs_le]
      norm_num
      constructor <;> linarith
    · rw [if_neg hc]
      push Not at hc
      have s := curve_slope (x := c) (y := Pnm.joint) (by linarith) (by linarith)
      rw [abs_of_pos (a := c - Pnm.joint) (by linarith)] at s
      obtain ⟨s0, s1⟩ := abs_le.mp s
      rw [abs_le]
      norm_num
      constructor <;> linarith
  · by_cases hc : c ≤ Pnm.joint
    · rw [if_pos hc]
      have s := curve_slope (x := c) (y := Pnm.joint) (by linarith) (by linarith)
      rw [abs_of_nonpos (a := c - Pnm.joint) (by linarith)] at s
      obtain ⟨s0, s1⟩ := abs_le.mp s
      rw [abs_le]
      norm_num
      constructor <;> linarith
    · rw [if_neg hc, abs_le]
      norm_num
      constructor <;> linarith

include D in
theorem clamp_val (x : Ieee F) (g : GoodIeee x) : (stdMin (stdMax x 0) 1).val = min (max x.val 0) 1 := by
  obtain ⟨s1, v1⟩ := SamplesIeee.int_same D 1 (by norm_num)
  obtain ⟨s0, v0⟩ := SamplesIeee.int_same D 0 (by norm_num)
  rw [Int.cast_one] at v1
  rw [Int.cast_zero] at v0
  have o : (1 : Ieee F) = ((1 : ℤ) : Ieee F) := rfl
  have z : Same (0 : Ieee F) ((0 : ℤ) : Binary F.p) := ⟨FMDRounded.zero_good.1.1, FMDRounded.zero_good.1.2, by rw [v0]; exact FMDRounded.zero_good.2⟩
  have hs := FMDRounded.free_same g.1 g.2
  have he := FMDRounded.free_val g.2
  have mm := SamplesIeee.min_same (SamplesIeee.max_same hs z) s1
  rw [o, mm.2.2, ← he, v0, v1]
  generalize (FMDRounded.free x) = y
  rw [apply_ite Binary.val, apply_ite Binary.val, v0, v1]
  rcases lt_or_ge y.val 0 with h | h
  · rw [if_pos h, max_eq_right h.le, min_eq_left zero_le_one, if_neg (by norm_num)]
  · rw [if_neg (not_lt.mpr h), max_eq_left h]
    rcases lt_or_ge 1 y.val with k | k
    · rw [if_pos k, min_eq_right k.le]
    · rw [if_neg (not_lt.mpr k), min_eq_left k]

/-! ### The way back -/

/-- Powers with an exponent above one do not stretch the numbers up to one by more than the exponent. -/
theorem power_base {a b p : ℝ} (a0 : 0 < a) (b0 : 0 < b) (a1 : a ≤ 1) (b1 : b ≤ 1) (hp : 1 ≤ p) : |a ^ p - b ^ p| ≤ p * |a - b| := by
  have key : ∀ a b : ℝ, 0 < a → a ≤ b → b ≤ 1 → |a ^ p - b ^ p| ≤ p * |a - b| := by
    intro a b a0 h b1
    have b0 : 0 < b := a0.trans_le h
    have hm := Real.rpow_le_rpow a0.le h (by linarith : 0 ≤ p)
    rw [abs_of_nonpos (by linarith), abs_of_nonpos (by linarith)]
    have hs : -1 ≤ (a - b) / b := by rw [le_div_iff₀ b0]; linarith
    have hb := one_add_mul_self_le_rpow_one_add hs hp
    have e : a = b * (1 + (a - b) / b) := by field_simp; ring
    have e2 : a ^ p = b ^ p * (1 + (a - b) / b) ^ p := by rw [← Real.mul_rpow b0.le (by linarith), ← e]
    have hr : b ^ p ≤ b := by
      calc b ^ p ≤ b ^ (1 : ℝ) := Real.rpow_le_rpow_of_exponent_ge b0 b1 hp
        _ = b := Real.rpow_one b
    have hr0 : 0 ≤ b ^ p := (Real.rpow_pos_of_pos b0 p).le
    have h1 : b ^ p - a ^ p ≤ b ^ p * (p * ((b - a) / b)) := by
      have e3 : (a - b) / b = -((b - a) / b) := by ring
      rw [e2]
      rw [e3] at hb ⊢
      nlinarith
    have h2 : b ^ p * (p * ((b - a) / b)) ≤ b * (p * ((b - a) / b)) :=
      mul_le_mul_of_nonneg_right hr (mul_nonneg (by linarith) (div_nonneg (by linarith) b0.le))
    have h3 : b * (p * ((b - a) / b)) = p * (b - a) := by field_simp
    linarith
  rcases le_total a b with h | h
  · exact key a b a0 h b1
  · rw [abs_sub_comm, abs_sub_comm a]
    exact key b a b0 h a1

section
include D hp'

/-- A constant multiplied by the largest code. -/
theorem scaled (q : ℚ) (m : ℤ) (h0 : 1 / 100 ≤ q) (h1 : q ≤ 13) (m0 : 1 ≤ m) (m1 : m ≤ 255) :
    GoodIeee (Pnm.constant F (Binary.round 53 q * m)) ∧ |((Pnm.constant F (Binary.round 53 q * m)).val : ℝ) - q * m| ≤ q * m / 400000 := by
  have e := Binary.round_error 53 q
  rw [abs_of_nonneg (a := q) (by linarith)] at e
  obtain ⟨e0, e1⟩ := abs_le.mp (e.trans (show q / 2 ^ 53 ≤ q / 4000000 by gcongr; norm_num))
  have m0' : (1 : ℚ) ≤ m := by exact_mod_cast m0
  have m1' : (m : ℚ) ≤ 255 := by exact_mod_cast m1
  generalize Binary.round 53 q = r at *
  obtain ⟨g, a⟩ := lit D hp' (r * m) (by nlinarith) (by nlinarith)
  refine ⟨g, ?_⟩
  have l : ((q * m - q * m / 4000000 : ℚ) : ℝ) ≤ ((r * m : ℚ) : ℝ) := by
    have : q * m - q * m / 4000000 ≤ r * m := by nlinarith
    exact_mod_cast this
  have u : ((r * m : ℚ) : ℝ) ≤ ((q * m + q * m / 4000000 : ℚ) : ℝ) := by
    have : r * m ≤ q * m + q * m / 4000000 := by nlinarith
    exact_mod_cast this
  have pos : (0 : ℝ) ≤ (q : ℝ) * m := by
    have : (0 : ℚ) ≤ q * m := by nlinarith
    exact_mod_cast this
  generalize (Pnm.constant F (r * m)).val = v at *
  obtain ⟨a0, a1⟩ := abs_le.mp a
  push_cast at l u a0 a1
  rw [abs_le]
  constructor <;> linarith

omit D hp' in
omit [NeZero F.p] in
/-- Rounding does not move the threshold to another code. -/
theorem threshold (m : ℤ) (m0 : 1 ≤ m) (m1 : m ≤ 255) : Binary.nearest (Binary.round 53 (Binary.round 53 0.04045 * m)) = Pnm.nearbyint (0.04045 * m) := by
  obtain ⟨n, n1, n2⟩ : ∃ n : ℤ, 20000 * n - 10000 + 24 ≤ 809 * m ∧ 809 * m ≤ 20000 * n + 10000 - 24 := by
    refine ⟨(809 * m + 10000) / 20000, ?_⟩
    have hc : ∀ k : Fin 256, 20000 * ((809 * (k.val : Int) + 10000) / 20000) - 10000 + 24 ≤ 809 * (k.val : Int) ∧
        809 * (k.val : Int) ≤ 20000 * ((809 * (k.val : Int) + 10000) / 20000) + 10000 - 24 := by decide +kernel
    have := hc ⟨m.toNat, by omega⟩
    simp only [Int.toNat_of_nonneg (show 0 ≤ m by omega)] at this
    exact this
  have n1r : (20000 : ℝ) * n - 10000 + 24 ≤ 809 * m := by exact_mod_cast n1
  have n2r : (809 : ℝ) * m ≤ 20000 * n + 10000 - 24 := by exact_mod_cast n2
  have n1q : (20000 : ℚ) * n - 10000 + 24 ≤ 809 * m := by exact_mod_cast n1
  have n2q : (809 : ℚ) * m ≤ 20000 * n + 10000 - 24 := by exact_mod_cast n2
  have hr : Pnm.nearbyint (0.04045 * m) = n := by
    apply Pnm.nearbyint_eq
    rw [abs_lt]
    norm_num
    constructor <;> linarith
  rw [hr]
  apply WavBinary.nearest_eq
  have m0' : (1 : ℚ) ≤ m := by exact_mod_cast m0
  have m1' : (m : ℚ) ≤ 255 := by exact_mod_cast m1
  have e := Binary.round_error 53 0.04045
  generalize Binary.round 53 0.04045 = r at *
  have e := e.trans (show |(0.04045 : ℚ)| / 2 ^ 53 ≤ 1e-9 by rw [abs_of_pos (by norm_num)]; norm_num)
  obtain ⟨e0, e1⟩ := abs_le.mp e
  norm_num at e0 e1
  have d := Binary.round_error 53 (r * m)
  have p0 : 0 ≤ r * m := mul_nonneg (by linarith) (by linarith)
  have p1 : r * m ≤ 0.04045 * m + 1e-9 * m := by norm_num; nlinarith
  have p2 : 0.04045 * m - 1e-9 * m ≤ r * m := by norm_num; nlinarith
  generalize r * (m : ℚ) = s at *
  norm_num at p1 p2
  rw [abs_of_nonneg p0] at d
  have d := d.trans (show s / 2 ^ 53 ≤ 1 / 10000000 by rw [div_le_iff₀ (by norm_num)]; norm_num; linarith)
  obtain ⟨d0, d1⟩ := abs_le.mp d
  rw [abs_lt]
  constructor <;> linarith

/-- The straight part. -/
theorem linear_low (m q : ℤ) (m0 : 1 ≤ m) (m1 : m ≤ 255) (q0 : 0 ≤ q) (q1 : q ≤ m) :
    GoodIeee (((q : ℤ) : Ieee F) / Pnm.constant F (Binary.round 53 12.92 * m)) ∧
    |((((q : ℤ) : Ieee F) / Pnm.constant F (Binary.round 53 12.92 * m)).val : ℝ) - (q / m) / 12.92| ≤ 4e-7 := by
  have U := NCO.usual_of_wide D.wide
  obtain ⟨g, a⟩ := scaled D hp' 12.92 m (by norm_num) (by norm_num) m0 m1
  obtain ⟨gq, vq⟩ := whole D q (by rw [abs_le]; omega)
  generalize Pnm.constant F (Binary.round 53 12.92 * m) = phi at *
  have m0' : (1 : ℝ) ≤ m := by exact_mod_cast m0
  have m1' : (m : ℝ) ≤ 255 := by exact_mod_cast m1
  have q0' : (0 : ℝ) ≤ q := by exact_mod_cast q0
  have q1' : (q : ℝ) ≤ m := by exact_mod_cast q1
  obtain ⟨a0, a1⟩ := abs_le.mp a
  norm_num at a0 a1
  have pp : (0 : ℝ) < phi.val := by linarith
  have l : (q : ℝ) / m / 12.92 - 2.5e-7 ≤ q / phi.val := by
    rw [le_div_iff₀ pp]
    obtain ⟨z, hz⟩ : ∃ z : ℝ, z = q / m := ⟨_, rfl⟩
    have hq : (q : ℝ) = m * z := by rw [hz]; field_simp
    have z0 : 0 ≤ z := by rw [hz]; positivity
    have z1 : z ≤ 1 := by rw [hz]; exact (div_le_one (by linarith)).mpr q1'
    rw [← hz, hq]
    norm_num at *
    nlinarith
  have u : (q : ℝ) / phi.val ≤ q / m / 12.92 + 2.5e-7 := by
    rw [div_le_iff₀ pp]
    obtain ⟨z, hz⟩ : ∃ z : ℝ, z = q / m := ⟨_, rfl⟩
    have hq : (q : ℝ) = m * z := by rw [hz]; field_simp
    have z0 : 0 ≤ z := by rw [hz]; positivity
    have z1 : z ≤ 1 := by rw [hz]; exact (div_le_one (by linarith)).mpr q1'
    rw [← hz, hq]
    norm_num at *
    nlinarith
  have r0 : 0 ≤ (q : ℝ) / phi.val := div_nonneg q0' pp.le
  have r1 : (q : ℝ) / phi.val ≤ 0.1 := by rw [div_le_iff₀ pp]; norm_num; linarith
  have hd := FMDRounded.good_div U _ phi gq g (by intro h; rw [h] at pp; norm_num at pp) (room D (by rw [vq, abs_of_nonneg r0]; norm_num at r1; linarith))
  refine ⟨hd.1, ?_⟩
  have h2 := close D hd.2
  rw [vq, abs_of_nonneg r0] at h2
  obtain ⟨c, d⟩ := abs_le.mp h2
  rw [abs_le]
  norm_num at *
  constructor <;> linarith

omit hp' in
/-- The base of the power. -/
theorem base_close (m q : ℤ) (m0 : 1 ≤ m) (m1 : m ≤ 255) (q0 : 0 ≤ q) (q1 : q ≤ m) (o : Ieee F) (go : GoodIeee o) (ho : |(o.val : ℝ) - 0.055 * m| ≤ 0.055 * m / 400000) :
    GoodIeee ((((q : ℤ) : Ieee F) + o) / (((m : ℤ) : Ieee F) + o)) ∧ ((((q : ℤ) : Ieee F) + o) / (((m : ℤ) : Ieee F) + o)).val ≤ 1 ∧
    |(((((q : ℤ) : Ieee F) + o) / (((m : ℤ) : Ieee F) + o)).val : ℝ) - (q / m + 0.055) / 1.055| ≤ 1e-5 := by
  have U := NCO.usual_of_wide D.wide
  have hp : 0 < F.p := by have := U.p; omega
  obtain ⟨gq, vq⟩ := whole D q (by rw [abs_le]; omega)
  obtain ⟨gm, vm⟩ := whole D m (by rw [abs_le]; omega)
  have m0' : (1 : ℝ) ≤ m := by exact_mod_cast m0
  have m1' : (m : ℝ) ≤ 255 := by exact_mod_cast m1
  have q0' : (0 : ℝ) ≤ q := by exact_mod_cast q0
  have q1' : (q : ℝ) ≤ m := by exact_mod_cast q1
  obtain ⟨a0, a1⟩ := abs_le.mp ho
  norm_num at a0 a1
  have hn := good_add U _ o gq go (room D (by rw [vq, abs_le]; constructor <;> linarith))
  have hd := good_add U _ o gm go (room D (by rw [vm, abs_le]; constructor <;> linarith))
  have vn := add_val hp _ o gq.1 go.1 hn.1.1
  have vd := add_val hp _ o gm.1 go.1 hd.1.1
  have order : (((q : ℤ) : Ieee F) + o).val ≤ (((m : ℤ) : Ieee F) + o).val := by
    rw [vn, vd]
    refine roundTo_mono hp _ _ ?_
    have : (((q : ℤ) : Ieee F).val : ℝ) ≤ (((m : ℤ) : Ieee F).val : ℝ) := by rw [vq, vm]; exact q1'
    have : ((q : ℤ) : Ieee F).val ≤ ((m : ℤ) : Ieee F).val := by exact_mod_cast this
    linarith
  have en := close D hn.2
  have ed := close D hd.2
  have gn := hn.1
  have gd := hd.1
  generalize ((q : ℤ) : Ieee F) + o = n at *
  generalize ((m : ℤ) : Ieee F) + o = d at *
  rw [vq, abs_of_nonneg (a := (q : ℝ) + o.val) (by linarith)] at en
  rw [vm, abs_of_nonneg (a := (m : ℝ) + o.val) (by linarith)] at ed
  obtain ⟨n0, n1⟩ := abs_le.mp en
  obtain ⟨d0, d1⟩ := abs_le.mp ed
  have nl : ((q : ℝ) + 0.055 * m) * (1 - 4e-6) ≤ n.val := by norm_num; linarith
  have nu : (n.val : ℝ) ≤ (q + 0.055 * m) * (1 + 4e-6) := by norm_num; linarith
  have dl : (1.055 * m : ℝ) * (1 - 1.3e-6) ≤ d.val := by norm_num; linarith
  have du : (d.val : ℝ) ≤ 1.055 * m * (1 + 1.3e-6) := by norm_num; linarith
  clear n0 n1 d0 d1 en ed vn vd a0 a1 hn hd
  norm_num at nl nu dl du
  have dp : (0 : ℝ) < d.val := by linarith
  have np : (0 : ℝ) ≤ n.val := by linarith
  obtain ⟨z, hz⟩ : ∃ z : ℝ, z = q / m := ⟨_, rfl⟩
  have hq : (q : ℝ) = m * z := by rw [hz]; field_simp
  have z0 : 0 ≤ z := by rw [hz]; positivity
  have z1 : z ≤ 1 := by rw [hz]; exact (div_le_one (by linarith)).mpr q1'
  rw [← hz]
  obtain ⟨b, hb⟩ : ∃ b : ℝ, b = (z + 0.055) / 1.055 := ⟨_, rfl⟩
  have hb' : z = 1.055 * b - 0.055 := by rw [hb]; ring
  have b1 : b ≤ 1 := by rw [hb, div_le_one (by norm_num)]; norm_num; linarith
  have b0 : 0 ≤ b := by rw [hb]; positivity
  rw [← hb]
  have hqb : (q : ℝ) + 11 / 200 * m = 211 / 200 * (m * b) := by rw [hq, hb']; ring
  have mb0 : 0 ≤ m * b := mul_nonneg (by linarith) b0
  have mb1 : m * b ≤ m := by nlinarith
  have l : b - 8e-6 ≤ n.val / d.val := by
    rw [le_div_iff₀ dp]
    norm_num
    rcases le_total b (8e-6) with h | h
    · norm_num at h
      nlinarith
    · have : (b - 1 / 125000) * d.val ≤ (b - 1 / 125000) * (211 / 200 * m * (1 + 13 / 10000000)) := by
        refine mul_le_mul_of_nonneg_left ?_ (by norm_num at h; linarith)
        linarith
      nlinarith
  have u : n.val / d.val ≤ b + 8e-6 := by
    rw [div_le_iff₀ dp]
    norm_num
    have : (b + 1 / 125000) * (211 / 200 * m * (1 - 13 / 10000000)) ≤ (b + 1 / 125000) * d.val := by
      refine mul_le_mul_of_nonneg_left ?_ (by linarith)
      linarith
    nlinarith
  have r0 : (0 : ℝ) ≤ n.val / d.val := div_nonneg np dp.le
  have r1 : (n.val : ℝ) / d.val ≤ 1 := (div_le_one dp).mpr (by exact_mod_cast order)
  have dne : d.val ≠ 0 := by intro h; rw [h] at dp; norm_num at dp
  have h := FMDRounded.good_div U n d gn gd dne (room D (by rw [abs_of_nonneg r0]; linarith))
  refine ⟨h.1, ?_, ?_⟩
  · have f1 : Fits F 1 := by
      have := Range.fits_pow (F := F) hp 0 (by have := U.emin; omega)
      rwa [zpow_zero] at this
    rw [div_val hp n d gn.1 gd.1 gn.2 gd.2 h.1.1 dne, ← roundTo_of_fits hp 1 f1]
    refine roundTo_mono hp _ _ ?_
    exact_mod_cast r1
  · have h2 := close D h.2
    rw [abs_of_nonneg r0] at h2
    obtain ⟨c, e⟩ := abs_le.mp h2
    rw [abs_le]
    norm_num at *
    constructor <;> linarith

/-- The curved part. -/
theorem linear_high {pow : Ieee F → Ieee F → Ieee F} (P : Accurate pow) (m q : ℤ) (m0 : 1 ≤ m) (m1 : m ≤ 255) (q0 : 0 ≤ q) (q1 : q ≤ m) :
    GoodIeee (pow ((((q : ℤ) : Ieee F) + Pnm.constant F (Binary.round 53 0.055 * m)) / (((m : ℤ) : Ieee F) + Pnm.constant F (Binary.round 53 0.055 * m))) (Pnm.constant F 2.4)) ∧
    |((pow ((((q : ℤ) : Ieee F) + Pnm.constant F (Binary.round 53 0.055 * m)) / (((m : ℤ) : Ieee F) + Pnm.constant F (Binary.round 53 0.055 * m))) (Pnm.constant F 2.4)).val : ℝ) -
      ((q / m + 0.055) / 1.055) ^ (2.4 : ℝ)| ≤ 6.5e-5 := by
  obtain ⟨go, ho⟩ := scaled D hp' 0.055 m (by norm_num) (by norm_num) m0 m1
  obtain ⟨gg, hg⟩ := lit D hp' 2.4 (by norm_num) (by norm_num)
  generalize Pnm.constant F (Binary.round 53 0.055 * m) = o at *
  generalize Pnm.constant F 2.4 = gamma at *
  obtain ⟨gb, b1, hb⟩ := base_close D m q m0 m1 q0 q1 o go (by norm_num at ho ⊢; exact ho)
  generalize (((q : ℤ) : Ieee F) + o) / (((m : ℤ) : Ieee F) + o) = b at *
  have m0' : (1 : ℝ) ≤ m := by exact_mod_cast m0
  have q0' : (0 : ℝ) ≤ q := by exact_mod_cast q0
  have q1' : (q : ℝ) ≤ m := by exact_mod_cast q1
  have z0 : 0 ≤ (q : ℝ) / m := by positivity
  have z1 : (q : ℝ) / m ≤ 1 := (div_le_one (by linarith)).mpr q1'
  have B0 : 0.05 ≤ ((q : ℝ) / m + 0.055) / 1.055 := by rw [le_div_iff₀ (by norm_num)]; norm_num; linarith
  have B1 : ((q : ℝ) / m + 0.055) / 1.055 ≤ 1 := by rw [div_le_one (by norm_num)]; norm_num; linarith
  generalize ((q : ℝ) / m + 0.055) / 1.055 = B at *
  have b1' : (b.val : ℝ) ≤ 1 := by exact_mod_cast b1
  obtain ⟨c0, c1⟩ := abs_le.mp hb
  obtain ⟨g0, g1⟩ := abs_le.mp hg
  norm_num at c0 c1 g0 g1 B0
  have b0 : (3 / 1000 : ℝ) ≤ b.val := by linarith
  have b0' : (0 : ℝ) < b.val := by linarith
  have y0 : (0 : ℝ) < gamma.val := by linarith
  have y3 : (gamma.val : ℝ) ≤ 3 := by linarith
  obtain ⟨gp, q2⟩ := P b gamma gb gg (by exact_mod_cast b0') b1 (by exact_mod_cast y0) (by exact_mod_cast y3)
  refine ⟨gp, ?_⟩
  have q3 := power_exponent b0 b1' y0.le (show (0 : ℝ) ≤ 2.4 by norm_num)
  have q4 := power_base b0' (show 0 < B by linarith) b1' B1 (show (1 : ℝ) ≤ 2.4 by norm_num)
  have q5 : |(gamma.val : ℝ) - 2.4| ≤ 4.8e-6 := by rw [abs_le]; norm_num; constructor <;> linarith
  calc |((pow b gamma).val : ℝ) - B ^ (2.4 : ℝ)| ≤ |((pow b gamma).val : ℝ) - (b.val : ℝ) ^ (gamma.val : ℝ)| + |(b.val : ℝ) ^ (gamma.val : ℝ) - B ^ (2.4 : ℝ)| := abs_sub_le _ _ _
    _ ≤ 1 / 100000 + (6 * 4.8e-6 + 2.4 * 1e-5) := by
        refine add_le_add q2 ((abs_sub_le _ ((b.val : ℝ) ^ (2.4 : ℝ)) _).trans (add_le_add (q3.trans ?_) (q4.trans ?_)))
        · exact mul_le_mul_of_nonneg_left q5 (by norm_num)
        · exact mul_le_mul_of_nonneg_left hb (by norm_num)
    _ ≤ _ := by norm_num

end

/-- If a code on the straight part is encoded on the curved one, little changes. -/
theorem beyond (m q : ℤ) (m0 : 1 ≤ m) (m1 : m ≤ 255) (hc : q ≤ Pnm.nearbyint (0.04045 * m)) (zj : 0.04045 < (q : ℝ) / m) :
    m * |Pnm.curve (q / m / 12.92) - q / m| ≤ 0.26 := by
  have mpos : (0 : ℝ) < m := by exact_mod_cast (show 0 < m by omega)
  have hmr : (m : ℝ) ≤ 255 := by exact_mod_cast m1
  obtain ⟨z, hz⟩ : ∃ z : ℝ, z = q / m := ⟨_, rfl⟩
  have hq : (q : ℝ) = m * z := by rw [hz]; field_simp
  rw [← hz] at zj ⊢
  have hK := Pnm.nearbyint_near (0.04045 * m)
  rw [abs_le] at hK
  have hcr : (q : ℝ) ≤ Pnm.nearbyint (0.04045 * m) := by exact_mod_cast hc
  have hqm : (q : ℝ) ≤ 0.04045 * m + 1 / 2 := by linarith [hK.1]
  have qone : (1 : ℝ) ≤ q := by
    have : (0 : ℝ) < q := by rw [hq]; exact mul_pos mpos (by linarith)
    have : 0 < q := by exact_mod_cast this
    exact_mod_cast this
  obtain ⟨t, ht⟩ : ∃ t : ℝ, t = z / 0.04045 - 1 := ⟨_, rfl⟩
  have hzt : z = 0.04045 * (1 + t) := by rw [ht]; ring
  have t0 : 0 ≤ t := by rw [hzt] at zj; linarith
  have hmt : m * (0.04045 * t) ≤ 1 / 2 := by
    have : (m : ℝ) * z ≤ 0.04045 * m + 1 / 2 := by rw [← hq]; exact hqm
    rw [hzt] at this; linarith
  have hmj : 1 / 2 ≤ 0.04045 * (m : ℝ) := by linarith
  have t1 : t ≤ 1 := by
    by_contra h; push Not at h
    have : 0.04045 * (m : ℝ) * 1 < 0.04045 * m * t := by apply mul_lt_mul_of_pos_left h; positivity
    linarith
  have ez : z / 12.92 = Pnm.joint * (1 + t) := by rw [hzt]; unfold Pnm.joint; ring
  have lo := Pnm.curve_lower t0 t1
  have up := Pnm.curve_upper t0
  rw [← ez] at lo up
  have : |Pnm.curve (z / 12.92) - z| ≤ 0.04045 * (t / 2) + 3e-8 := by
    rw [abs_le]; constructor
    · linarith
    · rw [← hzt] at up; have : 0 ≤ 0.04045 * (t / 2) + 3e-8 := by positivity
      linarith
  calc (m : ℝ) * |Pnm.curve (z / 12.92) - z| ≤ m * (0.04045 * (t / 2) + 3e-8) := mul_le_mul_of_nonneg_left this mpos.le
    _ = m * (0.04045 * t) / 2 + m * 3e-8 := by ring
    _ ≤ 1 / 2 / 2 + 255 * 3e-8 := by
        have : (m : ℝ) * 3e-8 ≤ 255 * 3e-8 := mul_le_mul_of_nonneg_right hmr (by norm_num)
        linarith
    _ ≤ _ := by norm_num

/-- The codes above the threshold are well above the joint. -/
theorem above (m q : ℤ) (m0 : 1 ≤ m) (m1 : m ≤ 255) (q1 : q ≤ m) (hc : Pnm.nearbyint (0.04045 * m) < q) :
    3.25e-3 ≤ (((q : ℝ) / m + 0.055) / 1.055) ^ (2.4 : ℝ) ∧ (((q : ℝ) / m + 0.055) / 1.055) ^ (2.4 : ℝ) ≤ 1 ∧ Pnm.curve ((((q : ℝ) / m + 0.055) / 1.055) ^ (2.4 : ℝ)) = q / m := by
  have mpos : (0 : ℝ) < m := by exact_mod_cast (show 0 < m by omega)
  have hmr : (m : ℝ) ≤ 255 := by exact_mod_cast m1
  have q1' : (q : ℝ) ≤ m := by exact_mod_cast q1
  have hK := Pnm.nearbyint_near (0.04045 * m)
  rw [abs_le] at hK
  have hcr : ((Pnm.nearbyint (0.04045 * m) : ℤ) : ℝ) + 1 ≤ q := by exact_mod_cast hc
  have hqm : 0.04045 * m + 1 / 2 ≤ (q : ℝ) := by linarith [hK.2]
  have zl : 0.0424 ≤ (q : ℝ) / m := by
    rw [le_div_iff₀ mpos]
    norm_num at *
    linarith
  have z1 : (q : ℝ) / m ≤ 1 := (div_le_one mpos).mpr q1'
  generalize (q : ℝ) / m = z at *
  have w0 : 0 ≤ (z + 0.055) / 1.055 := by
    refine div_nonneg ?_ (by norm_num)
    norm_num at zl ⊢
    linarith
  have w1 : (z + 0.055) / 1.055 ≤ 1 := by rw [div_le_one (by norm_num)]; norm_num; linarith
  refine ⟨?_, Real.rpow_le_one w0 w1 (by norm_num), ?_⟩
  · by_contra h
    push Not at h
    have h5 := pow_le_pow_left₀ (Real.rpow_nonneg w0 _) h.le 5
    rw [Pnm.pow_pow5 w0] at h5
    have : ((0.0424 + 0.055) / 1.055 : ℝ) ^ 12 ≤ ((z + 0.055) / 1.055) ^ 12 :=
      pow_le_pow_left₀ (by norm_num) (div_le_div_of_nonneg_right (by linarith) (by norm_num)) 12
    have : (3.25e-3 : ℝ) ^ 5 < ((0.0424 + 0.055) / 1.055 : ℝ) ^ 12 := by norm_num
    linarith
  · unfold Pnm.curve
    rw [Pnm.pow_root w0]
    ring

theorem clamp_near {x y : ℝ} (h0 : 0 ≤ y) (h1 : y ≤ 1) : |min (max x 0) 1 - y| ≤ |x - y| := by
  rcases le_total x 0 with h | h
  · rw [max_eq_right h, min_eq_left zero_le_one, abs_of_nonpos (by linarith), abs_of_nonpos (by linarith)]
    linarith
  · rw [max_eq_left h]
    rcases le_total x 1 with k | k
    · rw [min_eq_left k]
    · rw [min_eq_right k, abs_of_nonneg (by linarith), abs_of_nonneg (by linarith)]
      linarith

end PixelsIeee

open PixelsIeee Pnm

section
variable {F : Format} [NeZero F.p] (D : UnitCircle.Deep F) (hp' : F.p ≤ 53) {pow : Ieee F → Ieee F → Ieee F} (P : Accurate pow)
include D hp' P

/-- **C138** The code of an intensity is within half a step, and five steps in a hundred thousand of the range, of the sRGB curve. -/
theorem C138_encode (m : ℤ) (h0 : 1 ≤ m) (h1 : m ≤ 65535) (x : Ieee F) (g : GoodIeee x) :
    ∃ q : ℤ, srgbIeee pow m x = .ok q ∧ |(q : ℝ) - m * srgbCurve (min (max (x.val : ℝ) 0) 1)| ≤ 1 / 2 + m / 20000 := by
  obtain ⟨gc, c0, c1, -, -⟩ := PixelsIeee.clamp D x (by rintro rfl; exact g.1.elim) g.2
  obtain ⟨q, v, j, e, hq, hj, hv⟩ := encode D hp' P m h0 h1 _ gc c0 c1
  refine ⟨q, (curve_eq pow _ _ _ _ m x).trans e, ?_⟩
  have hb := branches hj hv
  rw [clamp_val D x g] at hb
  push_cast at hb
  have m0 : (1 : ℝ) ≤ m := by exact_mod_cast h0
  calc |(q : ℝ) - m * srgbCurve (min (max (x.val : ℝ) 0) 1)| ≤ |(q : ℝ) - m * v| + |m * v - m * srgbCurve (min (max (x.val : ℝ) 0) 1)| := abs_sub_le _ _ _
    _ ≤ (1 / 2 + m / 500000) + m * 4e-5 := by
        refine add_le_add hq ?_
        rw [← mul_sub, abs_mul, abs_of_pos (by linarith)]
        exact mul_le_mul_of_nonneg_left hb (by linarith)
    _ ≤ _ := by norm_num; linarith

/-- **C138** A code is decoded to a number within one in ten thousand of the exact one. -/
theorem C138_decode (m q : ℤ) (m0 : 1 ≤ m) (m1 : m ≤ 255) (q0 : 0 ≤ q) (q1 : q ≤ m) :
    GoodIeee (linearIeee pow m q) ∧ |((linearIeee pow m q).val : ℝ) - linear m q| ≤ 1 / 10000 := by
  have m0' : (1 : ℝ) ≤ m := by exact_mod_cast m0
  have mne : (m : ℝ) ≠ 0 := by linarith
  have t := threshold m m0 m1
  have l := linear_low D hp' m q m0 m1 q0 q1
  have h := linear_high D hp' P m q m0 m1 q0 q1
  unfold linearIeee linearWith linear
  rw [t]
  generalize (constant F (Binary.round 53 12.92 * m)) = phi at *
  generalize (constant F (Binary.round 53 0.055 * m)) = a at *
  generalize (constant F 2.4) = gamma at *
  simp only
  by_cases hc : q ≤ Pnm.nearbyint (0.04045 * m)
  · rw [if_pos hc, if_pos hc]
    have e : (q : ℝ) / (12.92 * m) = q / m / 12.92 := by field_simp
    rw [e]
    exact ⟨l.1, l.2.trans (by norm_num)⟩
  · rw [if_neg hc, if_neg hc]
    have e : ((q : ℝ) + 0.055 * m) / (m + 0.055 * m) = (q / m + 0.055) / 1.055 := by field_simp; ring
    rw [e]
    exact ⟨h.1, h.2.trans (by norm_num)⟩

/-- **C138** Decoding a code and encoding the result gives the code. -/
theorem C138_codes (m q : ℤ) (m0 : 1 ≤ m) (m1 : m ≤ 255) (q0 : 0 ≤ q) (q1 : q ≤ m) : srgbIeee pow m (linearIeee pow m q) = .ok q := by
  have m0' : (1 : ℝ) ≤ m := by exact_mod_cast m0
  have m1' : (m : ℝ) ≤ 255 := by exact_mod_cast m1
  have mne : (m : ℝ) ≠ 0 := by linarith
  have q0' : (0 : ℝ) ≤ q := by exact_mod_cast q0
  have q1' : (q : ℝ) ≤ m := by exact_mod_cast q1
  have z0 : 0 ≤ (q : ℝ) / m := by positivity
  have z1 : (q : ℝ) / m ≤ 1 := (div_le_one (by linarith)).mpr q1'
  have hq : (q : ℝ) = m * (q / m) := by field_simp
  have t := threshold m m0 m1
  have l := linear_low D hp' m q m0 m1 q0 q1
  have h := linear_high D hp' P m q m0 m1 q0 q1
  obtain ⟨x, hx⟩ : ∃ x, x = linearIeee pow m q := ⟨_, rfl⟩
  have hx' : GoodIeee x ∧ ((q ≤ Pnm.nearbyint (0.04045 * m) ∧ |(x.val : ℝ) - q / m / 12.92| ≤ 4e-7) ∨ (Pnm.nearbyint (0.04045 * m) < q ∧ |(x.val : ℝ) - ((q / m + 0.055) / 1.055) ^ (2.4 : ℝ)| ≤ 6.5e-5)) := by
    unfold linearIeee linearWith at hx
    rw [t] at hx
    by_cases hc : q ≤ Pnm.nearbyint (0.04045 * m)
    · rw [if_pos hc] at hx
      rw [hx]
      exact ⟨l.1, .inl ⟨hc, l.2⟩⟩
    · rw [if_neg hc] at hx
      rw [hx]
      exact ⟨h.1, .inr ⟨by omega, h.2⟩⟩
  rw [← hx]
  clear l h hx
  obtain ⟨g, hx⟩ := hx'
  obtain ⟨gc, c0, c1, -, -⟩ := PixelsIeee.clamp D x (by rintro rfl; exact g.1.elim) g.2
  have hcl := clamp_val D x g
  obtain ⟨r, v, j, e, hr, hj, hv⟩ := encode D hp' P m m0 (by omega) _ gc c0 c1
  have e' := (curve_eq pow _ _ _ _ m x).trans e
  have e'' : srgbIeee pow m x = .ok r := e'
  rw [e'']
  clear e e' e''
  generalize (stdMin (stdMax x 0) 1).val = c at *
  have hcr : (c : ℝ) = min (max (x.val : ℝ) 0) 1 := by rw [hcl]; push_cast; rfl
  -- it is enough that the argument of the rounding is near
  suffices hvz : m * |v - q / m| ≤ 0.4 by
    have h1 : |(r : ℝ) - q| < 1 := by
      calc |(r : ℝ) - q| ≤ |(r : ℝ) - m * v| + |m * v - q| := abs_sub_le _ _ _
        _ = |(r : ℝ) - m * v| + m * |v - q / m| := by
            congr 1
            conv_lhs => rw [hq]
            rw [← mul_sub, abs_mul, abs_of_pos (by linarith)]
        _ ≤ (1 / 2 + m / 500000) + 0.4 := add_le_add hr hvz
        _ < 1 := by norm_num; linarith
    have h2 : |r - q| < 1 := by exact_mod_cast h1
    rw [abs_lt] at h2
    have : r = q := by omega
    rw [this]
  have jl : (3.1e-3 : ℝ) ≤ Pnm.joint := by norm_num [Pnm.joint]
  have ju : Pnm.joint ≤ 3.14e-3 := by norm_num [Pnm.joint]
  have je : 12.92 * Pnm.joint = 0.04045 := by norm_num [Pnm.joint]
  obtain ⟨j0, j1⟩ := abs_le.mp hj
  rcases hx with ⟨hk, hx⟩ | ⟨hk, hx⟩
  · have hc := (clamp_near (x := x.val) (show 0 ≤ (q : ℝ) / m / 12.92 by positivity) (by rw [div_le_one (by norm_num)]; norm_num; linarith)).trans hx
    rw [← hcr] at hc
    rcases hv with ⟨hb, hv⟩ | ⟨hb, hv⟩
    · have hs : |v - q / m| ≤ 6e-6 := by
        obtain ⟨a0, a1⟩ := abs_le.mp hc
        obtain ⟨b0, b1⟩ := abs_le.mp hv
        generalize (q : ℝ) / m = z at *
        rw [abs_le]
        norm_num at *
        constructor <;> linarith
      calc (m : ℝ) * |v - q / m| ≤ 255 * 6e-6 := mul_le_mul m1' hs (abs_nonneg _) (by norm_num)
        _ ≤ 0.4 := by norm_num
    · obtain ⟨a0, a1⟩ := abs_le.mp hc
      have w0 : 3e-3 ≤ (q : ℝ) / m / 12.92 := by norm_num at *; linarith
      have s := curve_slope (x := c) (y := (q : ℝ) / m / 12.92) (by norm_num at *; linarith) (by norm_num at *; linarith)
      have s := s.trans (mul_le_mul_of_nonneg_left hc (by norm_num))
      rcases lt_or_ge 0.04045 ((q : ℝ) / m) with hz | hz
      · have hb := beyond m q m0 m1 hk hz
        calc (m : ℝ) * |v - q / m| ≤ m * (|v - Pnm.curve c| + (|Pnm.curve c - Pnm.curve (q / m / 12.92)| + |Pnm.curve (q / m / 12.92) - q / m|)) :=
              mul_le_mul_of_nonneg_left ((abs_sub_le _ (Pnm.curve c) _).trans (add_le_add le_rfl (abs_sub_le _ _ _))) (by linarith)
          _ = m * |v - Pnm.curve c| + m * |Pnm.curve c - Pnm.curve (q / m / 12.92)| + m * |Pnm.curve (q / m / 12.92) - q / m| := by ring
          _ ≤ 255 * 3e-5 + 255 * (14 * 4e-7) + 0.26 := add_le_add (add_le_add (mul_le_mul m1' hv (abs_nonneg _) (by norm_num)) (mul_le_mul m1' s (abs_nonneg _) (by norm_num))) hb
          _ ≤ _ := by norm_num
      · have zl : 0.04045 - 6e-6 ≤ (q : ℝ) / m := by norm_num at *; linarith
        have s2 := curve_slope (x := (q : ℝ) / m / 12.92) (y := Pnm.joint) (by norm_num at *; linarith) (by norm_num at *; linarith)
        have s3 : |(q : ℝ) / m / 12.92 - Pnm.joint| ≤ 6e-7 := by rw [abs_le]; norm_num at *; constructor <;> linarith
        have s2 := s2.trans (mul_le_mul_of_nonneg_left s3 (by norm_num))
        have s4 := curve_at_joint
        have hs : |v - q / m| ≤ 1e-4 := by
          obtain ⟨k0, k1⟩ := abs_le.mp s
          obtain ⟨l0, l1⟩ := abs_le.mp s2
          obtain ⟨n0, n1⟩ := abs_le.mp s4
          obtain ⟨b0, b1⟩ := abs_le.mp hv
          rw [abs_le]
          norm_num at *
          constructor <;> linarith
        calc (m : ℝ) * |v - q / m| ≤ 255 * 1e-4 := mul_le_mul m1' hs (abs_nonneg _) (by norm_num)
          _ ≤ 0.4 := by norm_num
  · obtain ⟨L0, L1, L2⟩ := above m q m0 m1 q1 hk
    generalize (((q : ℝ) / m + 0.055) / 1.055) ^ (2.4 : ℝ) = L at *
    have hc := (clamp_near (x := x.val) (show 0 ≤ L by norm_num at L0; linarith) L1).trans hx
    rw [← hcr] at hc
    obtain ⟨a0, a1⟩ := abs_le.mp hc
    rcases hv with ⟨hb, hv⟩ | ⟨hb, hv⟩
    · exfalso
      norm_num at *
      linarith
    · have s := curve_slope (x := c) (y := L) (by norm_num at *; linarith) (by norm_num at *; linarith)
      have s := s.trans (mul_le_mul_of_nonneg_left hc (by norm_num))
      rw [L2] at s
      calc (m : ℝ) * |v - q / m| ≤ m * (|v - Pnm.curve c| + |Pnm.curve c - q / m|) := mul_le_mul_of_nonneg_left (abs_sub_le _ _ _) (by linarith)
        _ = m * |v - Pnm.curve c| + m * |Pnm.curve c - q / m| := by ring
        _ ≤ 255 * 3e-5 + 255 * (14 * 6.5e-5) := add_le_add (mul_le_mul m1' hv (abs_nonneg _) (by norm_num)) (mul_le_mul m1' s (abs_nonneg _) (by norm_num))
        _ ≤ _ := by norm_num

end

/-- A power in steps of 1/524288 is accurate enough. -/
noncomputable def PixelsIeee.finePow (F : Format) (x y : Ieee F) : Ieee F := Ieee.literal (⌊(x.val : ℝ) ^ (y.val : ℝ) * 524288⌋ / 524288)

theorem PixelsIeee.fine_accurate {F : Format} [NeZero F.p] (D : UnitCircle.Deep F) : Accurate (finePow F) := by
  intro x y gx gy x0 x1 y0 y3
  have p0 : (0 : ℝ) < x.val := by exact_mod_cast x0
  have p1 : (x.val : ℝ) ≤ 1 := by exact_mod_cast x1
  have q0 : (0 : ℝ) < y.val := by exact_mod_cast y0
  have r0 := Real.rpow_pos_of_pos p0 (y.val : ℝ)
  have r1 := Real.rpow_le_one p0.le p1 q0.le
  unfold finePow
  generalize (x.val : ℝ) ^ (y.val : ℝ) = r at *
  have f1 := Int.floor_le (r * 524288)
  have f2 := Int.lt_floor_add_one (r * 524288)
  have k0 : 0 ≤ ⌊r * 524288⌋ := Int.floor_nonneg.mpr (by positivity)
  have k1 : (⌊r * 524288⌋ : ℝ) ≤ 524288 := by linarith
  have k1' : ⌊r * 524288⌋ ≤ 524288 := by exact_mod_cast k1
  generalize ⌊r * 524288⌋ = k at *
  have main : GoodIeee (Ieee.literal ((k : ℚ) / 524288) : Ieee F) ∧ (Ieee.literal ((k : ℚ) / 524288) : Ieee F).val = k / 524288 := by
    rcases k0.eq_or_lt with h | h
    · rw [← h]
      have z := FMDRounded.zero_good (F := F)
      have e : (Ieee.literal (((0 : ℤ) : ℚ) / 524288) : Ieee F) = 0 := by
        have h0 : (((0 : ℤ) : ℚ) / 524288) = 0 := by norm_num
        rw [h0]
        have h1 : decide ((0 : ℚ) < 0) = false := by simp
        show pack (decide ((0 : ℚ) < 0)) 0 = _
        rw [h1, FMDRounded.pack_zero]
        rfl
      rw [e]
      exact ⟨z.1, by rw [z.2]; norm_num⟩
    · have hq : (1 : ℚ) ≤ k := by exact_mod_cast h
      have hq' : (k : ℚ) ≤ 524288 := by exact_mod_cast k1'
      have s := UnitCircle.same_literal D ⟨(k : ℚ) / 524288, ⟨k, -19, by
          have := pow_le_pow_right₀ (by norm_num : (1 : ℤ) ≤ 2) D.wide.p
          norm_num at this
          rw [abs_lt]
          omega, by norm_num; ring⟩⟩ (by
        show _ ≤ |(k : ℚ) / 524288|
        rw [abs_of_nonneg (by positivity), le_div_iff₀ (by norm_num)]
        exact le_trans (by norm_num) hq) (by
        show |(k : ℚ) / 524288| ≤ _
        rw [abs_of_nonneg (by positivity), div_le_iff₀ (by norm_num)]
        linarith)
      exact ⟨⟨s.1, s.2.1⟩, s.2.2⟩
  refine ⟨main.1, ?_⟩
  rw [main.2]
  push_cast
  rw [abs_le]
  constructor <;> linarith

/-- Code 11 of 255 in single precision lies just above the joint. -/
example : srgbIeee (finePow Format.single) 255 (linearIeee (finePow Format.single) 255 11) = .ok 11 :=
  C138_codes UnitCircle.deep_single (by decide) (fine_accurate UnitCircle.deep_single) 255 11 (by norm_num) (by norm_num) (by norm_num) (by norm_num)

/-- The code of zero. -/
example : ∃ q : ℤ, srgbIeee (finePow Format.single) 65535 0 = .ok q ∧ |(q : ℝ)| ≤ 4 := by
  obtain ⟨q, e, h⟩ := C138_encode UnitCircle.deep_single (by decide) (fine_accurate UnitCircle.deep_single) 65535 (by norm_num) (by norm_num) (0 : Ieee Format.single) FMDRounded.zero_good.1
  refine ⟨q, e, ?_⟩
  rw [FMDRounded.zero_good.2] at h
  norm_num [srgbCurve] at h
  linarith

end DSP
