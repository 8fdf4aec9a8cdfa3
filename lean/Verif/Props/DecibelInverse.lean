import Verif.Props.DecibelSpecial

/-!
# C123: levels and ratios are inverse up to rounding

There and back in the number formats of the processor.
-/

namespace DSP

open Elementary DecibelIeee ExpIeee AtanIeee Binary Ieee

namespace Elementary
namespace DecibelIeee

theorem log_ten_size : 2.302585 ≤ Real.log 10 ∧ Real.log 10 ≤ 2.302586 := by
  have h10 := abs_le.mp Digits.log_ten
  rw [Digits.log10] at h10
  push_cast at h10
  constructor <;> norm_num at h10 ⊢ <;> linarith [h10.1, h10.2]

/-- An error of a level as an error of the ratio. -/
theorem ratio_error {d L : ℝ} (h : |d - L| ≤ 0.012) : |(10 : ℝ) ^ (d / 10) - 10 ^ (L / 10)| ≤ 0.231 * |d - L| * (10 : ℝ) ^ (L / 10) := by
  obtain ⟨k1, k2⟩ := log_ten_size
  have hT0 : (0 : ℝ) < (10 : ℝ) ^ (L / 10) := by positivity
  set T := (10 : ℝ) ^ (L / 10) with hT
  have hE : (10 : ℝ) ^ (d / 10) = T * Real.exp (Real.log 10 * ((d - L) / 10)) := by
    rw [hT, Real.rpow_def_of_pos (by norm_num), Real.rpow_def_of_pos (by norm_num), ← Real.exp_add]
    congr 1
    ring
  set δ := Real.log 10 * ((d - L) / 10) with hδ
  have hδ1 : |δ| ≤ 0.2302586 * |d - L| := by
    rw [hδ, abs_mul, abs_div, abs_of_nonneg (by linarith : 0 ≤ Real.log 10), abs_of_pos (by norm_num : (0 : ℝ) < 10)]
    have := mul_le_mul_of_nonneg_right k2 (abs_nonneg (d - L))
    norm_num at this ⊢
    linarith
  have hδ2 : |δ| ≤ 0.0028 := by norm_num at h hδ1 ⊢; linarith
  have hexp : |Real.exp δ - 1| ≤ 1.0028 * |δ| := by
    have h1 := Real.abs_exp_sub_one_sub_id_le (x := δ) (hδ2.trans (by norm_num))
    have h2 : |Real.exp δ - 1| ≤ |Real.exp δ - 1 - δ| + |δ| := by
      have := abs_add_le (Real.exp δ - 1 - δ) δ
      rwa [sub_add_cancel] at this
    have h3 : δ ^ 2 ≤ 0.0028 * |δ| := by
      rw [← sq_abs, sq]
      exact mul_le_mul_of_nonneg_right hδ2 (abs_nonneg _)
    norm_num at h3 ⊢
    linarith
  rw [hE, show T * Real.exp δ - T = (Real.exp δ - 1) * T by ring, abs_mul, abs_of_pos hT0]
  refine mul_le_mul_of_nonneg_right (hexp.trans ?_) hT0.le
  norm_num at hδ1 ⊢
  linarith [abs_nonneg (d - L)]

/-- An error of a ratio as an error of the level. -/
theorem level_error {r T e : ℝ} (hT : 0 < T) (he : e ≤ 0.001) (h : |r - T| ≤ e * T) : 0 < r ∧ |10 * Real.logb 10 r - 10 * Real.logb 10 T| ≤ 4.348 * e := by
  obtain ⟨k1, k2⟩ := log_ten_size
  have h' := abs_le.mp h
  have he0 : 0 ≤ e := by
    by_contra hc
    have : e * T < 0 := mul_neg_of_neg_of_pos (not_le.mp hc) hT
    linarith [abs_nonneg (r - T)]
  have hr : 0 < r := by nlinarith [h'.1]
  refine ⟨hr, ?_⟩
  have hq : 0 < r / T := div_pos hr hT
  have hx : |r / T - 1| ≤ e := by
    rw [show r / T - 1 = (r - T) / T by field_simp, abs_div, abs_of_pos hT, div_le_iff₀ hT]
    exact h
  have hx' := abs_le.mp hx
  have hlog : |Real.log (r / T)| ≤ 1.0011 * e := by
    rw [abs_le]
    constructor
    · have h1 := Real.one_sub_inv_le_log_of_pos hq
      refine le_trans ?_ h1
      have h2 : 1 - (r / T)⁻¹ = (r / T - 1) / (r / T) := by field_simp
      rw [h2, le_div_iff₀ hq]
      nlinarith [hx'.1]
    · have h1 := Real.log_le_sub_one_of_pos hq
      linarith [hx'.2]
  have e1 : 10 * Real.logb 10 r - 10 * Real.logb 10 T = 10 / Real.log 10 * Real.log (r / T) := by
    rw [Real.log_div hr.ne' hT.ne', Real.logb, Real.logb]
    field_simp
  have h10 : 10 / Real.log 10 ≤ 4.343 := by
    rw [div_le_iff₀ (by linarith)]
    norm_num at k1 ⊢
    linarith
  have h10' : 0 ≤ 10 / Real.log 10 := by positivity
  rw [e1, abs_mul, abs_of_nonneg h10']
  calc 10 / Real.log 10 * |Real.log (r / T)| ≤ 4.343 * (1.0011 * e) := mul_le_mul h10 hlog (abs_nonneg _) (by norm_num)
    _ ≤ _ := by norm_num; linarith

end DecibelIeee
end Elementary

section
variable {F : Format} (W : Wide F) [NeZero F.p] (he : F.emax ≤ 1024) (hp' : F.p ≤ 53) (l : ℕ) (hl : F.p ≤ l)
include W he hp' hl

/-- From a ratio to its level and back: the relative error is about 2110 roundings, as the level is calculated from the 1024th root, and grows slowly with the level. -/
theorem C123_ratio (v : Ieee F) (fv : v.Finite) (vv : v.Valid) (h : 0 < v.val) (hd : |10 * Real.logb 10 (v.val : ℝ)| ≤ 400) (hr : |Real.logb 2 (v.val : ℝ)| ≤ F.emax - 0.53) :
    ∃ r, idecibelIeee (ExpConsts.ieee F) (decibelIeee (DecibelConsts.ieee l F) v) = .ok r ∧ r.Finite ∧ r.Valid ∧
      |(r.val : ℝ) - v.val| ≤ ((2115 + 2.2 * |10 * Real.logb 10 (v.val : ℝ)|) / 2 ^ F.p + 1 / 10 ^ 17) * v.val + 2 ^ F.emin / 2 := by
  obtain ⟨-, fd, vd, hacc⟩ := C122_decibel W he l hl v fv vv h
  have hacc := hacc hd
  set d := decibelIeee (DecibelConsts.ieee l F) v
  have hv : (0 : ℝ) < v.val := by exact_mod_cast h
  set L := 10 * Real.logb 10 (v.val : ℝ) with hL
  have hu := Elementary.unit_le' F.p W.p
  have hu0 : (0 : ℝ) ≤ 1 / 2 ^ F.p := by positivity
  rw [← mul_one_div] at hacc
  rw [← mul_one_div]
  set u : ℝ := 1 / 2 ^ F.p with hudef
  have hLu : |L| * u ≤ 400 * u := mul_le_mul_of_nonneg_right hd hu0
  have hu' : u ≤ 0.00000095368 := hu.trans (by norm_num)
  have hsmall : |(d.val : ℝ) - L| ≤ 0.012 := by
    refine hacc.trans ?_
    rw [add_mul, mul_assoc]
    norm_num at hu' ⊢
    linarith
  have hdL : |(d.val : ℝ)| ≤ |L| + 0.012 := by
    have := abs_sub_abs_le_abs_sub (d.val : ℝ) L
    linarith
  have hT : (10 : ℝ) ^ (L / 10) = v.val := by
    rw [hL, mul_div_cancel_left₀ _ (by norm_num : (10 : ℝ) ≠ 0), Real.rpow_logb (by norm_num) (by norm_num) hv]
  obtain ⟨l1, l2⟩ := log_two_ten
  have hrange : |(d.val : ℝ)| / 10 * Real.logb 2 10 ≤ F.emax - 0.52 := by
    have e1 : |L| / 10 * Real.logb 2 10 = |Real.logb 2 (v.val : ℝ)| := by
      have : Real.logb 2 (v.val : ℝ) = L / 10 * Real.logb 2 10 := by
        rw [hL, mul_div_cancel_left₀ _ (by norm_num : (10 : ℝ) ≠ 0), mul_comm, Real.mul_logb (by norm_num) (by norm_num) (by norm_num)]
      rw [this, abs_mul (L / 10), abs_div L, abs_of_pos (by norm_num : (0 : ℝ) < 10), abs_of_pos (by linarith : 0 < Real.logb 2 10)]
    have h1 : |(d.val : ℝ)| / 10 * Real.logb 2 10 ≤ (|L| + 0.012) / 10 * Real.logb 2 10 := by
      refine mul_le_mul_of_nonneg_right ?_ (by linarith)
      linarith
    rw [add_div, add_mul, e1] at h1
    norm_num at h1 l2 hr ⊢
    linarith
  obtain ⟨r, h1, f, vr, h2⟩ := C122_idecibel W hp' d fd vd (by norm_num at hdL ⊢; linarith) hrange
  refine ⟨r, h1, f, vr, ?_⟩
  have h3 := ratio_error hsmall
  rw [hT] at h3
  rw [← mul_one_div (7.5 + _), ← hudef] at h2
  set D := (10 : ℝ) ^ ((d.val : ℝ) / 10) with hD
  have hDv : D ≤ 1.003 * v.val := by
    have := (abs_le.mp h3).2
    have h4 : 0.231 * |(d.val : ℝ) - L| * v.val ≤ 0.231 * 0.012 * v.val := by gcongr
    norm_num at h4 ⊢
    linarith
  have hco : (7.5 + 0.2305 * |(d.val : ℝ)|) * u + 2.2 / 2 ^ 60 ≤ 7.503 * u + 0.2305 * (|L| * u) + 2.2 / 2 ^ 60 := by
    have : |(d.val : ℝ)| * u ≤ (|L| + 0.012) * u := mul_le_mul_of_nonneg_right hdL hu0
    norm_num at this ⊢
    linarith
  have hco0 : 0 ≤ (7.5 + 0.2305 * |(d.val : ℝ)|) * u + 2.2 / 2 ^ 60 := by positivity
  have hLu0 : 0 ≤ |L| * u := mul_nonneg (abs_nonneg _) hu0
  have h5 : ((7.5 + 0.2305 * |(d.val : ℝ)|) * u + 2.2 / 2 ^ 60) * D ≤ (7.503 * u + 0.2305 * (|L| * u) + 2.2 / 2 ^ 60) * (1.003 * v.val) :=
    mul_le_mul hco hDv (by positivity) (hco0.trans hco)
  have h6 : 0.231 * |(d.val : ℝ) - L| * v.val ≤ 0.231 * ((9080 + 8.1 * |L|) * u + 1 / 10 ^ 17) * v.val := by gcongr
  have htri := abs_sub_le (r.val : ℝ) D v.val
  have key : (7.503 * u + 0.2305 * (|L| * u) + 2.2 / 2 ^ 60) * 1.003 + 0.231 * ((9080 + 8.1 * |L|) * u + 1 / 10 ^ 17) ≤ (2115 + 2.2 * |L|) * u + 1 / 10 ^ 17 := by
    rw [show (9080 + 8.1 * |L|) * u = 9080 * u + 8.1 * (|L| * u) by ring, show (2115 + 2.2 * |L|) * u = 2115 * u + 2.2 * (|L| * u) by ring]
    norm_num
    linarith
  have h7 := mul_le_mul_of_nonneg_right key hv.le
  rw [add_mul, mul_assoc _ 1.003] at h7
  linarith

/-- From a level to its ratio and back, as long as the ratio is a normal number. -/
theorem C123_level (d : Ieee F) (fd : d.Finite) (vd : d.Valid) (hd : |(d.val : ℝ)| ≤ 399) (hr : |(d.val : ℝ)| / 10 * Real.logb 2 10 ≤ F.emax - 0.52) (hn : (2 : ℝ) ^ (F.emin + F.p) ≤ (10 : ℝ) ^ ((d.val : ℝ) / 10)) :
    ∃ r, idecibelIeee (ExpConsts.ieee F) d = .ok r ∧ (decibelIeee (DecibelConsts.ieee l F) r).Finite ∧
      |((decibelIeee (DecibelConsts.ieee l F) r).val : ℝ) - d.val| ≤ (9126 + 9.2 * |(d.val : ℝ)|) / 2 ^ F.p + 1 / 10 ^ 16 := by
  obtain ⟨r, h1, f, vr, h2⟩ := C122_idecibel W hp' d fd vd (by linarith) hr
  refine ⟨r, h1, ?_⟩
  set T := (10 : ℝ) ^ ((d.val : ℝ) / 10) with hT
  have hT0 : 0 < T := by positivity
  have hu := Elementary.unit_le' F.p W.p
  have hu0 : (0 : ℝ) ≤ 1 / 2 ^ F.p := by positivity
  have hmin : (2 : ℝ) ^ F.emin / 2 ≤ 1 / 2 ^ F.p / 2 * T := by
    rw [zpow_add₀ (by norm_num), zpow_natCast] at hn
    have : (2 : ℝ) ^ F.emin = 1 / 2 ^ F.p * (2 ^ F.emin * 2 ^ F.p) := by field_simp
    rw [this]
    have := mul_le_mul_of_nonneg_left hn hu0
    linarith
  rw [← mul_one_div] at h2 ⊢
  set u : ℝ := 1 / 2 ^ F.p with hudef
  have hdu0 : 0 ≤ |(d.val : ℝ)| * u := mul_nonneg (abs_nonneg _) hu0
  have hdu : |(d.val : ℝ)| * u ≤ 399 * u := mul_le_mul_of_nonneg_right hd hu0
  have hu' : u ≤ 0.00000095368 := hu.trans (by norm_num)
  set e : ℝ := 8 * u + 0.2305 * (|(d.val : ℝ)| * u) + 2.2 / 2 ^ 60 with hedef
  have he1 : e ≤ 0.001 := by rw [hedef]; norm_num at hu' ⊢; linarith
  have h3 : |(r.val : ℝ) - T| ≤ e * T := by
    refine h2.trans ?_
    rw [hedef, show (8 * u + 0.2305 * (|(d.val : ℝ)| * u) + 2.2 / 2 ^ 60) * T = ((7.5 + 0.2305 * |(d.val : ℝ)|) * u + 2.2 / 2 ^ 60) * T + u / 2 * T by ring]
    linarith
  obtain ⟨hr0, h4⟩ := level_error hT0 he1 h3
  have hlev : 10 * Real.logb 10 T = d.val := by
    rw [hT, Real.logb_rpow (by norm_num) (by norm_num)]
    ring
  rw [hlev] at h4
  have hrq : 0 < r.val := by exact_mod_cast hr0
  have he2 : 4.348 * e ≤ 0.005 := by norm_num at he1 ⊢; linarith
  have hM : |10 * Real.logb 10 (r.val : ℝ)| ≤ |(d.val : ℝ)| + 0.005 := by
    have := abs_sub_abs_le_abs_sub (10 * Real.logb 10 (r.val : ℝ)) (d.val : ℝ)
    linarith
  obtain ⟨-, fl, -, hacc⟩ := C122_decibel W he l hl r f vr hrq
  have hacc := hacc (by norm_num at hM ⊢; linarith)
  refine ⟨fl, ?_⟩
  rw [← mul_one_div, ← hudef] at hacc
  have hMu : |10 * Real.logb 10 (r.val : ℝ)| * u ≤ (|(d.val : ℝ)| + 0.005) * u := mul_le_mul_of_nonneg_right hM hu0
  have htri := abs_sub_le ((decibelIeee (DecibelConsts.ieee l F) r).val : ℝ) (10 * Real.logb 10 (r.val : ℝ)) (d.val : ℝ)
  refine htri.trans ((add_le_add hacc h4).trans ?_)
  rw [hedef, show (9080 + 8.1 * |10 * Real.logb 10 (r.val : ℝ)|) * u = 9080 * u + 8.1 * (|10 * Real.logb 10 (r.val : ℝ)| * u) by ring, show (9126 + 9.2 * |(d.val : ℝ)|) * u = 9126 * u + 9.2 * (|(d.val : ℝ)| * u) by ring]
  norm_num at hMu ⊢
  linarith

end

/-- One half in single precision. -/
example : ∃ r, idecibelIeee (ExpConsts.ieee Format.single) (decibelIeee (DecibelConsts.ieee 64 Format.single) (num false 0.5)) = .ok r ∧ |(r.val : ℝ) - 0.5| ≤ 0.00007 := by
  have v1 : (num false 0.5 : Ieee Format.single).Valid := by
    have := valid_eighth false 4 (by norm_num)
    norm_num at this ⊢
    exact this
  have e1 : (num false 0.5 : Ieee Format.single).val = 0.5 := rfl
  have em : ((Format.single.emax : ℤ) : ℝ) = 128 := by norm_num [Format.single]
  obtain ⟨k1, k2⟩ := log_ten_size
  have h2 : |10 * Real.logb 10 (0.5 : ℝ)| ≤ 4 := by
    rw [show (0.5 : ℝ) = 2⁻¹ by norm_num, Real.logb_inv, mul_neg, abs_neg]
    have h1 : Real.logb 10 2 ≤ 0.4 := by
      rw [Real.logb, div_le_iff₀ (by linarith)]
      have h2' := abs_le.mp Digits.log_two
      rw [Digits.log2] at h2'
      push_cast at h2'
      norm_num at h2' k1 ⊢
      linarith [h2'.2]
    have h0 : 0 ≤ Real.logb 10 2 := Real.logb_nonneg (by norm_num) (by norm_num)
    rw [abs_of_nonneg (by linarith)]
    norm_num at h1 ⊢
    linarith
  have h3 : Real.logb 2 (0.5 : ℝ) = -1 := by rw [show (0.5 : ℝ) = 2⁻¹ by norm_num, Real.logb_inv, Real.logb_self_eq_one (by norm_num)]
  obtain ⟨r, h, -, -, h'⟩ := C123_ratio wide_single (by decide) (by decide) 64 (by decide) (num false 0.5 : Ieee Format.single) trivial v1 (by rw [e1]; norm_num)
    (by rw [e1]; push_cast; exact h2.trans (by norm_num)) (by rw [e1, em]; push_cast; rw [h3]; norm_num)
  refine ⟨r, h, ?_⟩
  rw [e1] at h'
  push_cast at h'
  refine h'.trans ?_
  have hp : Format.single.p = 24 := rfl
  have hm : Format.single.emin = -149 := rfl
  rw [hp, hm]
  norm_num at h2 ⊢
  linarith

/-- Minus three decibels in single precision. -/
example : ∃ r, idecibelIeee (ExpConsts.ieee Format.single) (num true 3) = .ok r ∧ |((decibelIeee (DecibelConsts.ieee 64 Format.single) r).val : ℝ) + 3| ≤ 0.0006 := by
  have v1 : (num true 3 : Ieee Format.single).Valid := by
    have := valid_eighth true 24 (by norm_num)
    norm_num at this ⊢
    exact this
  have e1 : (num true 3 : Ieee Format.single).val = -3 := rfl
  have em : ((Format.single.emax : ℤ) : ℝ) = 128 := by norm_num [Format.single]
  have hp : Format.single.p = 24 := rfl
  have hm : Format.single.emin = -149 := rfl
  obtain ⟨l1, l2⟩ := log_two_ten
  obtain ⟨r, h, -, h'⟩ := C123_level wide_single (by decide) (by decide) 64 (by decide) (num true 3 : Ieee Format.single) trivial v1 (by rw [e1]; norm_num)
    (by rw [e1, em]; push_cast; norm_num at l2 ⊢; linarith) (by
      rw [e1, hp, hm]
      push_cast
      have : (10 : ℝ) ^ (-1 : ℝ) ≤ 10 ^ ((-3 : ℝ) / 10) := Real.rpow_le_rpow_of_exponent_le (by norm_num) (by norm_num)
      refine le_trans ?_ this
      rw [Real.rpow_neg_one]
      norm_num)
  refine ⟨r, h, ?_⟩
  rw [e1, hp] at h'
  push_cast at h'
  rw [sub_neg_eq_add] at h'
  refine h'.trans ?_
  norm_num

end DSP
