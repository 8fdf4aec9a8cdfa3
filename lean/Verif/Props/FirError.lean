import Verif.Props.Fir
import Verif.Props.WindowError
import Verif.Props.UnitCircleSymmetry
import Verif.Model.FirRounded

/-!
# Filter designs in floating point (C86)
-/

namespace DSP
namespace Fir

open Spec

section
variable (l p : ℕ) [NeZero p] (hp : 10 ≤ p) (hp' : p ≤ 53) (hl : p ≤ l)

include hp' hl in
theorem halfPi_near : |((Rounded.halfPi l p).val : ℝ) - Real.pi / 2| ≤ 2.001 * (1 / 2 ^ p) * (Real.pi / 2) := by
  have h := literal_error l p hl 1.570796326794896619231321691639751442098584699687552910487472296153
  obtain ⟨h1, h2⟩ := Const.pi_between
  have hu : (1 : ℝ) / 2 ^ 53 ≤ 1 / 2 ^ p := by gcongr; norm_num
  have hc : |((1.570796326794896619231321691639751442098584699687552910487472296153 : ℚ) : ℝ) - Real.pi / 2| ≤ 1 / 10 ^ 60 := by
    push_cast
    rw [abs_le]
    constructor
    · norm_num at h1 h2 ⊢; linarith
    · norm_num at h1 h2 ⊢; linarith
  have hle : |((1.570796326794896619231321691639751442098584699687552910487472296153 : ℚ) : ℝ)| ≤ Real.pi / 2 := by
    push_cast
    rw [abs_of_pos (by norm_num)]
    norm_num at h1 ⊢; linarith
  have e : ((Rounded.halfPi l p).val : ℝ) = ((Binary.literal l p 1.570796326794896619231321691639751442098584699687552910487472296153).val : ℝ) := rfl
  have hpi3 : (1.5 : ℝ) ≤ Real.pi / 2 := by linarith [Real.pi_gt_three]
  calc _ ≤ _ + |((1.570796326794896619231321691639751442098584699687552910487472296153 : ℚ) : ℝ) - Real.pi / 2| := abs_sub_le _ _ _
    _ ≤ 2 * (1 / 2 ^ p) * (Real.pi / 2) + 1 / 10 ^ 60 := by
      apply add_le_add _ hc
      rw [e]
      exact h.trans (by gcongr)
    _ ≤ 2 * (1 / 2 ^ p) * (Real.pi / 2) + 0.001 * (1 / 2 ^ 53) * 1.5 := by
      gcongr
      norm_num
    _ ≤ 2 * (1 / 2 ^ p) * (Real.pi / 2) + 0.001 * (1 / 2 ^ p) * (Real.pi / 2) := by gcongr
    _ = _ := by ring

include hp' hl in
theorem halfPi_rel : Rel (1 / 2 ^ p) 3 ((Rounded.halfPi l p).val : ℝ) (Real.pi / 2) := by
  refine Rel.of_le (e := 2.001 * (1 / 2 ^ p)) (by positivity) ?_ ?_
  · rw [abs_of_pos (by have := Real.pi_pos; positivity : (0 : ℝ) < Real.pi / 2)]
    exact halfPi_near l p hp' hl
  · have : (0 : ℝ) ≤ 1 / 2 ^ p := by positivity
    push_cast
    linarith

omit [NeZero p] in
/-- A number other than zero. -/
theorem beq_zero_false {a : Binary p} (h : (a.val : ℝ) ≠ 0) : (a == 0) = false := by
  rw [beq_eq_false_iff_ne]
  intro c
  apply h
  rw [c]
  exact Rat.cast_zero

theorem fdiv_ok' (a b : Binary p) (h : (b.val : ℝ) ≠ 0) : Rounded.fdiv a b = .ok (a / b) := by
  simp only [Rounded.fdiv, beq_zero_false p h, M.ite, Bool.false_eq_true, if_false]
  rfl

variable (n N : ℤ) (h1 : 1 ≤ N) (h2 : N ≤ 2147483647)
variable (num den : ℤ) (hd : 1 ≤ den) (hd2 : den ≤ 134217727) (hnum : num ≠ 0) (hnum2 : -1073741824 ≤ num) (hnum3 : num ≤ 1073741823)
  (hn : -1073741824 ≤ n) (hn2 : n ≤ 1073741823) (hx : -2147483648 ≤ 2 * n - (N - 1) ∧ 2 * n - (N - 1) ≤ 2147483647)
  (hq : -2147483648 ≤ (2 * n - (N - 1)) * num ∧ (2 * n - (N - 1)) * num ≤ 2147483647)

include hp hd hnum2 hnum3 in
theorem factor_rel : ∃ f : Binary p, Rounded.factor num den = .ok f ∧ Rel (1 / 2 ^ p) 4 (f.val : ℝ) (2 * ((num : ℝ) / den)) := by
  have hR := binary_roundedField p
  have hu0 : (0 : ℝ) ≤ 1 / 2 ^ p := by positivity
  have hu := Win.unit_small p hp
  have hd' : (den : ℝ) ≠ 0 := by exact_mod_cast (by omega : den ≠ 0)
  have r1 : Rel (1 / 2 ^ p) 1 (((2 * num : ℤ) : Binary p).val : ℝ) ((2 * num : ℤ) : ℝ) := Rel.of_le hu0 (hR.cast _) (by norm_num)
  have r2 : Rel (1 / 2 ^ p) 1 (((den : ℤ) : Binary p).val : ℝ) ((den : ℤ) : ℝ) := Rel.of_le hu0 (hR.cast _) (by norm_num)
  obtain ⟨h0, r⟩ := r1.div hu0 (by linarith) r2 hd' (by norm_num at hu ⊢; linarith) (hR.div _ _)
  refine ⟨((2 * num : ℤ) : Binary p) / ((den : ℤ) : Binary p), ?_, ?_⟩
  · simp only [Rounded.factor, bind, Except.bind, int32_fits (show -2147483648 ≤ 2 * num ∧ 2 * num ≤ 2147483647 by omega)]
    exact fdiv_ok' p _ _ h0
  · rw [show (2 : ℝ) * (num / den) = ((2 * num : ℤ) : ℝ) / (den : ℤ) by push_cast; ring]
    exact r

include h1 h2 hn hn2 hx in
theorem twoX_ok' : Rounded.twoX n N = .ok (2 * n - (N - 1)) := twoX_ok n N h1 h2 hn hn2 hx

include hp hp' hl hd hd2 hnum in
theorem ratio_rel (f : Binary p) (hf : Rel (1 / 2 ^ p) 4 (f.val : ℝ) (2 * ((num : ℝ) / den))) (twox : ℤ) (hx : twox ≠ 0) (hq : -2147483648 ≤ twox * num ∧ twox * num ≤ 2147483647) :
    ∃ w, Rounded.ratio (Kernels.of (UnitCircle.Coeffs.binary l p)) (Rounded.halfPi l p) num den f twox = .ok w ∧ Rel (1 / 2 ^ p) 30 (w.val : ℝ) (passBand 0 ((num : ℝ) / den) ((twox : ℝ) / 2)) := by
  have hR := binary_roundedField p
  have hu0 : (0 : ℝ) ≤ 1 / 2 ^ p := by positivity
  have hu := Win.unit_small p hp
  have hd' : (den : ℝ) ≠ 0 := by exact_mod_cast (by omega : den ≠ 0)
  have hnum' : (num : ℝ) ≠ 0 := by exact_mod_cast hnum
  have hx' : (twox : ℝ) ≠ 0 := by exact_mod_cast hx
  have hpi := Real.pi_ne_zero
  have rpi := halfPi_rel l p hp' hl
  obtain ⟨m1, m2⟩ := Win.tmod_range (twox * num) (2 * den) (by omega)
  obtain ⟨-, s, es, hs⟩ := UnitCircle.C84_binary l p hp hp' hl ((twox * num).tmod (2 * den)) (2 * den) (by omega) (by omega) m1 m2
  rw [show (13 : ℝ) / 2 ^ p = 13 * (1 / 2 ^ p) by ring, Win.sin_tmod (twox * num) (2 * den) (by omega)] at hs
  obtain ⟨u, hu'⟩ : ∃ u : ℝ, u = 1 / 2 ^ p := ⟨_, rfl⟩
  rw [← hu'] at hR hu0 hu rpi hs hf ⊢
  have rs : Rel u 13 (s.val : ℝ) _ := Rel.of_le hu0 hs (by norm_num)
  have rx : Rel u 1 ((twox : Binary p).val : ℝ) (twox : ℝ) := Rel.of_le hu0 (hR.cast _) (by norm_num)
  have ra := hf.mul hu0 rs (hR.mul f s)
  have rb := (rpi.mul hu0 hf (hR.mul _ _)).mul hu0 rx (hR.mul _ _)
  have hb : Real.pi / 2 * (2 * ((num : ℝ) / den)) * twox ≠ 0 := by positivity
  obtain ⟨h0, r⟩ := ra.div hu0 (by linarith) rb hb (by norm_num; linarith) (hR.div _ _)
  refine ⟨f * s / (Rounded.halfPi l p * f * (twox : Binary p)), ?_, ?_⟩
  · simp only [Rounded.ratio, bind, Except.bind, int32_fits hq, int32_fits (show -2147483648 ≤ 2 * den ∧ 2 * den ≤ 2147483647 by omega), Win.irem_ok _ (2 * den) (by omega), es]
    exact fdiv_ok' p _ _ h0
  · rw [passBand_ne _ _ _ (div_ne_zero hx' two_ne_zero), mul_zero, Real.sin_zero, sub_zero]
    rw [show 2 * Real.pi * ((twox : ℝ) / 2) * ((num : ℝ) / den) = 2 * Real.pi * ((twox * num : ℤ) : ℝ) / ((2 * den : ℤ) : ℝ) by push_cast; field_simp]
    have e : ∀ x : ℝ, x / (Real.pi * ((twox : ℝ) / 2)) = 2 * ((num : ℝ) / den) * x / (Real.pi / 2 * (2 * ((num : ℝ) / den)) * twox) := by
      intro x
      field_simp
    rw [e]
    exact r

include hp hp' hl h1 h2 hd hd2 hnum hnum2 hnum3 hn hn2 hx hq in
/-- **C86** The low pass filters with a rational cutoff frequency have a relative error of at most `31` units, however far from the centre or close to a zero of the response the tap is. -/
theorem C86_lowPass2 : ∃ w, Rounded.lowPass2 (Kernels.of (UnitCircle.Coeffs.binary l p)) (Rounded.halfPi l p) num den n N = .ok w ∧
    |(w.val : ℝ) - passBand 0 ((num : ℝ) / den) ((n : ℝ) - ((N : ℝ) - 1) / 2)| ≤ 31 / 2 ^ p * |passBand 0 ((num : ℝ) / den) ((n : ℝ) - ((N : ℝ) - 1) / 2)| := by
  have ex : (n : ℝ) - ((N : ℝ) - 1) / 2 = ((2 * n - (N - 1) : ℤ) : ℝ) / 2 := by push_cast; ring
  have hu0 : (0 : ℝ) ≤ 1 / 2 ^ p := by positivity
  have hu := Win.unit_small p hp
  obtain ⟨f, ef, hf⟩ := factor_rel p hp num den hd hnum2 hnum3
  rw [ex, show (31 : ℝ) / 2 ^ p = 31 * (1 / 2 ^ p) by ring]
  simp only [Rounded.lowPass2, bind, Except.bind, ef, twoX_ok' n N h1 h2 hn hn2 hx]
  generalize 2 * n - (N - 1) = twox at *
  by_cases c : twox = 0
  · subst c
    refine ⟨f, rfl, ?_⟩
    rw [Int.cast_zero, zero_div, passBand_zero, sub_zero]
    exact hf.bound hu0 (by norm_num at hu ⊢; linarith) (by norm_num at hu ⊢; linarith)
  · obtain ⟨w, ew, hw⟩ := ratio_rel l p hp hp' hl num den hd hd2 hnum f hf twox c hq
    refine ⟨w, ?_, hw.bound hu0 (by norm_num at hu ⊢; linarith) (by norm_num at hu ⊢; linarith)⟩
    rw [show (twox == 0) = false from beq_eq_false_iff_ne.mpr c]
    exact ew

include hp hp' hl in
theorem impulse_rel (twox : ℤ) (hx : twox ≠ 0) : ∃ s, UnitCircle.sin (Kernels.of (UnitCircle.Coeffs.binary l p)) (twox.tmod 4) 4 = .ok s ∧
    ((Rounded.halfPi l p * (twox : Binary p)).val : ℝ) ≠ 0 ∧ Rel (1 / 2 ^ p) 20 ((s / (Rounded.halfPi l p * (twox : Binary p))).val : ℝ) (passBand 0 (1 / 2) ((twox : ℝ) / 2)) := by
  have hR := binary_roundedField p
  have hu0 : (0 : ℝ) ≤ 1 / 2 ^ p := by positivity
  have hu := Win.unit_small p hp
  have hx' : (twox : ℝ) ≠ 0 := by exact_mod_cast hx
  have hpi := Real.pi_ne_zero
  have rpi := halfPi_rel l p hp' hl
  obtain ⟨m1, m2⟩ := Win.tmod_range twox 4 (by omega)
  obtain ⟨-, s, es, hs⟩ := UnitCircle.C84_binary l p hp hp' hl (twox.tmod 4) 4 (by omega) (by omega) m1 m2
  refine ⟨s, es, ?_⟩
  rw [show (13 : ℝ) / 2 ^ p = 13 * (1 / 2 ^ p) by ring, Win.sin_tmod twox 4 (by omega)] at hs
  obtain ⟨u, hu'⟩ : ∃ u : ℝ, u = 1 / 2 ^ p := ⟨_, rfl⟩
  rw [← hu'] at hR hu0 hu rpi hs ⊢
  have rs : Rel u 13 (s.val : ℝ) _ := Rel.of_le hu0 hs (by norm_num)
  have rx : Rel u 1 ((twox : Binary p).val : ℝ) (twox : ℝ) := Rel.of_le hu0 (hR.cast _) (by norm_num)
  have rb := rpi.mul hu0 rx (hR.mul _ _)
  have hb : Real.pi / 2 * (twox : ℝ) ≠ 0 := by positivity
  obtain ⟨h0, r⟩ := rs.div hu0 (by linarith) rb hb (by norm_num; linarith) (hR.div _ _)
  refine ⟨h0, ?_⟩
  rw [passBand_ne _ _ _ (div_ne_zero hx' two_ne_zero), mul_zero, Real.sin_zero, sub_zero]
  rw [show 2 * Real.pi * ((twox : ℝ) / 2) * (1 / 2) = 2 * Real.pi * (twox : ℝ) / ((4 : ℤ) : ℝ) by push_cast; ring, show Real.pi * ((twox : ℝ) / 2) = Real.pi / 2 * twox by ring]
  exact r

theorem passBand_small (c : ℝ) (twox : ℤ) (hx : twox ≠ 0) : |passBand 0 c ((twox : ℝ) / 2)| ≤ 0.6367 / |(twox : ℝ)| := by
  have hx' : (twox : ℝ) ≠ 0 := by exact_mod_cast hx
  have h0 : 0 < |(twox : ℝ)| := abs_pos.mpr hx'
  rw [passBand_ne _ _ _ (div_ne_zero hx' two_ne_zero), mul_zero, Real.sin_zero, sub_zero, abs_div, abs_mul, abs_div, abs_of_pos Real.pi_pos, abs_two]
  have hs := Real.abs_sin_le_one (2 * Real.pi * ((twox : ℝ) / 2) * c)
  have hpi := Real.pi_gt_d4
  rw [div_le_div_iff₀ (by positivity) h0]
  nlinarith

include hp hp' hl h1 h2 hd hd2 hnum hnum2 hnum3 hn hn2 hx hq in
/-- **C86** The high pass filters with a rational cutoff frequency: beside the centre the error falls with the distance, as the response does. -/
theorem C86_highPass2 : ∃ w, Rounded.highPass2 (Kernels.of (UnitCircle.Coeffs.binary l p)) (Rounded.halfPi l p) num den n N = .ok w ∧
    (2 * n ≠ N - 1 → |(w.val : ℝ) - passBand ((num : ℝ) / den) (1 / 2) ((n : ℝ) - ((N : ℝ) - 1) / 2)| ≤ 35 / 2 ^ p / |2 * (n : ℝ) - (N - 1)|) ∧
    (2 * n = N - 1 → |(w.val : ℝ) - (1 - 2 * ((num : ℝ) / den))| ≤ (6 * |2 * ((num : ℝ) / den)| + 1) / 2 ^ p) := by
  have ex : (n : ℝ) - ((N : ℝ) - 1) / 2 = ((2 * n - (N - 1) : ℤ) : ℝ) / 2 := by push_cast; ring
  have ex2 : 2 * (n : ℝ) - (N - 1) = ((2 * n - (N - 1) : ℤ) : ℝ) := by push_cast; ring
  have ex3 : 2 * n = N - 1 ↔ 2 * n - (N - 1) = 0 := by omega
  have hR := binary_roundedField p
  have hu0 : (0 : ℝ) ≤ 1 / 2 ^ p := by positivity
  have hu := Win.unit_small p hp
  obtain ⟨f, ef, hf⟩ := factor_rel p hp num den hd hnum2 hnum3
  rw [ex, ex2, ne_eq, ex3]
  simp only [Rounded.highPass2, bind, Except.bind, ef, twoX_ok' n N h1 h2 hn hn2 hx]
  generalize 2 * n - (N - 1) = twox at *
  by_cases c : twox = 0
  · subst c
    refine ⟨((1 : ℤ) : Binary p) - f, rfl, fun h => absurd rfl h, fun _ => ?_⟩
    have hsub := hR.sub ((1 : ℤ) : Binary p) f
    have h1' := hR.one
    rw [h1'] at hsub
    have hb := hf.bound hu0 (by norm_num at hu ⊢; linarith) (show _ ≤ (4.02 : ℝ) by norm_num at hu ⊢; linarith)
    generalize ((((1 : ℤ) : Binary p) - f).val : ℝ) = w at *
    generalize (f.val : ℝ) = a at *
    generalize 2 * ((num : ℝ) / den) = F at *
    rw [show (6 * |F| + 1) / 2 ^ p = (6 * |F| + 1) * (1 / 2 ^ p) by ring]
    generalize (1 : ℝ) / 2 ^ p = u at *
    have e1 : |1 - a| ≤ 1 + |F| + |a - F| := by
      calc |1 - a| = |1 + -F + -(a - F)| := by congr 1; ring
        _ ≤ |1| + |-F| + |-(a - F)| := abs_add_three _ _ _
        _ = _ := by rw [abs_neg, abs_neg, abs_one]
    have e2 : |w - (1 - F)| ≤ |w - (1 - a)| + |a - F| := by
      calc |w - (1 - F)| = |(w - (1 - a)) + -(a - F)| := by congr 1; ring
        _ ≤ _ := by rw [← abs_neg (a - F)]; exact abs_add_le _ _
    have hF := abs_nonneg F
    have e3 : u * |1 - a| ≤ u * (1 + |F| + 4.02 * u * |F|) := mul_le_mul_of_nonneg_left (by linarith) hu0
    have e4 : u * (u * |F|) ≤ 1 / 1000 * (u * |F|) := mul_le_mul_of_nonneg_right hu (by positivity)
    have e5 : 0 ≤ u * |F| := by positivity
    nlinarith
  · obtain ⟨s, es, h0, ha⟩ := impulse_rel l p hp hp' hl twox c
    obtain ⟨b, eb, hb⟩ := ratio_rel l p hp hp' hl num den hd hd2 hnum f hf twox c hq
    refine ⟨s / (Rounded.halfPi l p * (twox : Binary p)) - b, ?_, fun _ => ?_, fun h => absurd h c⟩
    · rw [show (twox == 0) = false from beq_eq_false_iff_ne.mpr c]
      simp only [M.ite, Bool.false_eq_true, if_false, Win.irem_ok twox 4 (by norm_num), es, fdiv_ok' p _ _ h0, eb]
      rfl
    · rw [eq_sub_of_add_eq' (passBand_add 0 ((num : ℝ) / den) (1 / 2) ((twox : ℝ) / 2))]
      have b1 := ha.bound hu0 (by norm_num at hu ⊢; linarith) (show _ ≤ (20.4 : ℝ) by norm_num at hu ⊢; linarith)
      have b2 := hb.bound hu0 (by norm_num at hu ⊢; linarith) (show _ ≤ (30.9 : ℝ) by norm_num at hu ⊢; linarith)
      have s1 := passBand_small (1 / 2) twox c
      have s2 := passBand_small ((num : ℝ) / den) twox c
      have hsub := hR.sub (s / (Rounded.halfPi l p * (twox : Binary p))) b
      generalize (((s / (Rounded.halfPi l p * (twox : Binary p))) - b).val : ℝ) = w at *
      generalize ((s / (Rounded.halfPi l p * (twox : Binary p))).val : ℝ) = x at *
      generalize (b.val : ℝ) = y at *
      generalize passBand 0 (1 / 2) ((twox : ℝ) / 2) = A at *
      generalize passBand 0 ((num : ℝ) / den) ((twox : ℝ) / 2) = B at *
      rw [show (35 : ℝ) / 2 ^ p / |(twox : ℝ)| = 35 * (1 / 2 ^ p) * (1 / |(twox : ℝ)|) by ring]
      rw [show (0.6367 : ℝ) / |(twox : ℝ)| = 0.6367 * (1 / |(twox : ℝ)|) by ring] at s1 s2
      have ht : (0 : ℝ) ≤ 1 / |(twox : ℝ)| := by positivity
      generalize (1 : ℝ) / |(twox : ℝ)| = t at *
      generalize (1 : ℝ) / 2 ^ p = u at *
      have e1 : |w - (A - B)| ≤ |w - (x - y)| + |x - A| + |y - B| := by
        calc |w - (A - B)| = |(w - (x - y)) + (x - A) + -(y - B)| := by congr 1; ring
          _ ≤ _ := by rw [← abs_neg (y - B)]; exact abs_add_three _ _ _
      have e2 : |x - y| ≤ |A| + |B| + |x - A| + |y - B| := by
        calc |x - y| = |(A + -B) + ((x - A) + -(y - B))| := by congr 1; ring
          _ ≤ (|A| + |-B|) + (|x - A| + |-(y - B)|) := (abs_add_le _ _).trans (add_le_add (abs_add_le _ _) (abs_add_le _ _))
          _ = _ := by rw [abs_neg, abs_neg]; ring
      have e3 : 20.4 * u * |A| ≤ 20.4 * u * (0.6367 * t) := mul_le_mul_of_nonneg_left s1 (by positivity)
      have e4 : 30.9 * u * |B| ≤ 30.9 * u * (0.6367 * t) := mul_le_mul_of_nonneg_left s2 (by positivity)
      have e5 : 0 ≤ u * t := by positivity
      have e6 : u * (u * t) ≤ 1 / 1000 * (u * t) := mul_le_mul_of_nonneg_right hu e5
      have e7 : u * |x - y| ≤ u * (0.6367 * t + 0.6367 * t + 20.4 * u * (0.6367 * t) + 30.9 * u * (0.6367 * t)) := mul_le_mul_of_nonneg_left (by linarith) hu0
      nlinarith

include hp hp' hl h1 h2 hd hd2 hnum hnum2 hnum3 hn hn2 hx hq in
/-- **C86** With a tap in the centre, low and high pass add up to exactly zero beside it. -/
theorem C86_complement (hodd : N % 2 = 1) (hc : 2 * n ≠ N - 1) : ∃ a b, Rounded.lowPass2 (Kernels.of (UnitCircle.Coeffs.binary l p)) (Rounded.halfPi l p) num den n N = .ok a ∧
    Rounded.highPass2 (Kernels.of (UnitCircle.Coeffs.binary l p)) (Rounded.halfPi l p) num den n N = .ok b ∧ a.val + b.val = 0 := by
  obtain ⟨f, ef, hf⟩ := factor_rel p hp num den hd hnum2 hnum3
  have hev : (2 * n - (N - 1)) % 2 = 0 := by omega
  have c : 2 * n - (N - 1) ≠ 0 := by omega
  simp only [Rounded.lowPass2, Rounded.highPass2, bind, Except.bind, ef, twoX_ok' n N h1 h2 hn hn2 hx]
  generalize 2 * n - (N - 1) = twox at *
  obtain ⟨s, es, h0, ha⟩ := impulse_rel l p hp hp' hl twox c
  obtain ⟨b, eb, hb⟩ := ratio_rel l p hp hp' hl num den hd hd2 hnum f hf twox c hq
  rw [show (twox == 0) = false from beq_eq_false_iff_ne.mpr c]
  refine ⟨b, s / (Rounded.halfPi l p * (twox : Binary p)) - b, eb, ?_, ?_⟩
  · simp only [M.ite, Bool.false_eq_true, if_false, Win.irem_ok twox 4 (by norm_num), es, fdiv_ok' p _ _ h0, eb]
    rfl
  · obtain ⟨k, rfl⟩ : ∃ k, twox = 2 * k := ⟨twox / 2, by omega⟩
    have hz : passBand 0 (1 / 2) (((2 * k : ℤ) : ℝ) / 2) = 0 := by
      have hk : (((2 * k : ℤ) : ℝ) / 2) = k := by push_cast; ring
      have hk0 : (k : ℝ) ≠ 0 := by exact_mod_cast (by omega : k ≠ 0)
      rw [hk, passBand_ne _ _ _ hk0, mul_zero, Real.sin_zero, sub_zero, show 2 * Real.pi * (k : ℝ) * (1 / 2) = k * Real.pi by ring, Real.sin_int_mul_pi, zero_div]
    unfold Rel at ha
    rw [hz, abs_zero, mul_zero, sub_zero] at ha
    have hz' : (s / (Rounded.halfPi l p * ((2 * k : ℤ) : Binary p))).val = 0 := by exact_mod_cast abs_nonpos_iff.mp ha
    show b.val + Binary.round p ((s / (Rounded.halfPi l p * ((2 * k : ℤ) : Binary p))).val - b.val) = 0
    rw [hz', zero_sub, Binary.round_neg, Binary.round_of_representable p _ b.representable, add_neg_cancel]

/-- The sine of the reduced angle and of its negative. -/
theorem sin_tmod_neg (c : UnitCircle.Coeffs (Binary p)) (k M : ℤ) (hM : 1 ≤ M) (hM2 : M ≤ 268435455) (ho : ∀ j : ℤ, 8 * k ≠ (2 * j + 1) * M) :
    ∃ s, UnitCircle.sin (Kernels.of c) (k.tmod M) M = .ok s ∧ UnitCircle.sin (Kernels.of c) ((-k).tmod M) M = .ok (-s) := by
  obtain ⟨m1, m2⟩ := Win.tmod_range k M hM
  have h : ∀ j : ℤ, 8 * k.tmod M ≠ (2 * j + 1) * M := by
    intro j hj
    apply ho (j + 4 * k.tdiv M)
    have := Int.tmod_add_mul_tdiv k M
    calc 8 * k = 8 * (k.tmod M + M * k.tdiv M) := by rw [this]
      _ = 8 * k.tmod M + 8 * M * k.tdiv M := by ring
      _ = _ := by rw [hj]; ring
  refine ⟨_, UnitCircle.sin_eq p c _ M hM hM2 m1 m2, ?_⟩
  rw [Int.neg_tmod, UnitCircle.sin_eq p c _ M hM hM2 (by omega) (by omega), (UnitCircle.pieces_odd p c _ M hM h).1]

theorem neg_div_neg' (a b : Binary p) : -a / -b = a / b := by
  rw [UnitCircle.binary_neg_div, UnitCircle.binary_div_neg, UnitCircle.binary_neg_neg]

theorem fdiv_neg' (a b : Binary p) : Rounded.fdiv (-a) (-b) = Rounded.fdiv a b := by
  have h : (-b == 0) = (b == 0) := by
    by_cases c : b.val = 0
    · have e1 : b = 0 := Binary.val_injective p c
      have e2 : -b = 0 := Binary.val_injective p (show -b.val = 0 by rw [c, neg_zero])
      rw [e1] at e2 ⊢
      rw [e2]
    · have e1 : b ≠ 0 := fun h => c (by rw [h]; rfl)
      have e2 : -b ≠ 0 := fun h => c (by have : (-b).val = 0 := by rw [h]; rfl
                                         have e : -b.val = 0 := this
                                         linarith)
      rw [beq_eq_false_iff_ne.mpr e1, beq_eq_false_iff_ne.mpr e2]
  simp only [Rounded.fdiv, h, neg_div_neg']

include hd hd2 in
theorem ratio_neg (c : UnitCircle.Coeffs (Binary p)) (g f : Binary p) (twox : ℤ) (hq : -2147483647 ≤ twox * num ∧ twox * num ≤ 2147483647) (ho : ∀ k : ℤ, 4 * (twox * num) ≠ (2 * k + 1) * den) :
    Rounded.ratio (Kernels.of c) g num den f (-twox) = Rounded.ratio (Kernels.of c) g num den f twox := by
  obtain ⟨s, h1, h2⟩ := sin_tmod_neg p c (twox * num) (2 * den) (by omega) (by omega) (by
    intro k h
    apply ho k
    have : 2 * (4 * (twox * num)) = 2 * ((2 * k + 1) * den) := by linarith
    omega)
  have e : -twox * num = -(twox * num) := by ring
  simp only [Rounded.ratio, bind, Except.bind, e, int32_fits (show -2147483648 ≤ twox * num ∧ twox * num ≤ 2147483647 by omega),
    int32_fits (show -2147483648 ≤ -(twox * num) ∧ -(twox * num) ≤ 2147483647 by omega), int32_fits (show -2147483648 ≤ 2 * den ∧ 2 * den ≤ 2147483647 by omega),
    Win.irem_ok _ (2 * den) (by omega), h1, h2, UnitCircle.binary_cast_neg, UnitCircle.binary_mul_neg, fdiv_neg']

include hd hd2 in
/-- **C86** Both are exactly symmetric, so that their phase is exactly linear, unless the angle at the tap is an odd multiple of an eighth of a turn. -/
theorem C86_symmetric (c : UnitCircle.Coeffs (Binary p)) (g : Binary p) (hn : 0 ≤ n) (hnN : n < N) (hN : N ≤ 1073741824)
    (hq : -2147483647 ≤ (2 * n - (N - 1)) * num ∧ (2 * n - (N - 1)) * num ≤ 2147483647) (ho : ∀ k : ℤ, 4 * ((2 * n - (N - 1)) * num) ≠ (2 * k + 1) * den) :
    Rounded.lowPass2 (Kernels.of c) g num den (N - 1 - n) N = Rounded.lowPass2 (Kernels.of c) g num den n N ∧
      Rounded.highPass2 (Kernels.of c) g num den (N - 1 - n) N = Rounded.highPass2 (Kernels.of c) g num den n N := by
  have t1 := twoX_ok' n N (by omega) (by omega) (by omega) (by omega) (by omega)
  have t2 := twoX_ok' (N - 1 - n) N (by omega) (by omega) (by omega) (by omega) (by omega)
  rw [show 2 * (N - 1 - n) - (N - 1) = -(2 * n - (N - 1)) by ring] at t2
  simp only [Rounded.lowPass2, Rounded.highPass2, t1, t2]
  have hb : -2147483647 ≤ 2 * n - (N - 1) ∧ 2 * n - (N - 1) ≤ 2147483647 := by omega
  generalize 2 * n - (N - 1) = twox at *
  rcases Rounded.factor (V := Binary p) num den with e | f
  · simp only [bind, Except.bind, and_self]
  simp only [bind, Except.bind]
  by_cases c0 : twox = 0
  · simp only [c0, neg_zero, and_self]
  rw [show (twox == 0) = false from beq_eq_false_iff_ne.mpr c0, show (-twox == 0) = false from beq_eq_false_iff_ne.mpr (by omega)]
  simp only [M.ite, Bool.false_eq_true, if_false]
  simp only [ratio_neg p num den hd hd2 c g f twox hq ho, true_and]
  obtain ⟨s, h1, h2⟩ := sin_tmod_neg p c twox 4 (by omega) (by omega) (by intro k; omega)
  simp only [Win.irem_ok _ 4 (by omega), h1, h2, UnitCircle.binary_cast_neg, UnitCircle.binary_mul_neg, fdiv_neg']

end

set_option maxRecDepth 100000 in
theorem asymmetric : (match Rounded.lowPass2 (Kernels.of (UnitCircle.Coeffs.binary 64 53)) (Rounded.halfPi 64 53) 1 4 0 2, Rounded.lowPass2 (Kernels.of (UnitCircle.Coeffs.binary 64 53)) (Rounded.halfPi 64 53) 1 4 1 2 with
    | .ok a, .ok b => decide (b.val ≠ a.val) | _, _ => false) = true := by decide +kernel

/-- **C86** A half band filter of even length is not symmetric: there every tap is at an odd multiple of an eighth of a turn. -/
theorem C86_asymmetric : ∃ a b, Rounded.lowPass2 (Kernels.of (UnitCircle.Coeffs.binary 64 53)) (Rounded.halfPi 64 53) 1 4 0 2 = .ok a ∧
    Rounded.lowPass2 (Kernels.of (UnitCircle.Coeffs.binary 64 53)) (Rounded.halfPi 64 53) 1 4 1 2 = .ok b ∧ b.val ≠ a.val := by
  have := asymmetric
  revert this
  rcases Rounded.lowPass2 (Kernels.of (UnitCircle.Coeffs.binary 64 53)) (Rounded.halfPi 64 53) 1 4 0 2 with _ | a <;>
    rcases Rounded.lowPass2 (Kernels.of (UnitCircle.Coeffs.binary 64 53)) (Rounded.halfPi 64 53) 1 4 1 2 with _ | b <;> intro h
  · exact absurd h (by simp)
  · exact absurd h (by simp)
  · exact absurd h (by simp)
  · exact ⟨a, b, rfl, rfl, of_decide_eq_true h⟩

end Fir
end DSP
