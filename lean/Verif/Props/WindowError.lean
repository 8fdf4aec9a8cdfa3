import Verif.Model.WindowRounded
import Verif.Props.UnitCircleRelative
import Verif.Props.Window
import Verif.Lemmas.Rel
import Verif.Props.KaiserError

/-!
# C83: the windows of window.hh in rounded arithmetic
-/

namespace DSP
namespace Win

open Spec

section numbers

variable (u : ℝ) (hu0 : 0 ≤ u) (hu : u ≤ 1 / 1000)

include hu0 hu

theorem hann_numbers (c c' d w : ℝ) (hc1 : |c| ≤ 1) (hc : |c' - c| ≤ 9 * u) (hd : |d - (1 - c')| ≤ u * |1 - c'|) (hw : |w - 1 / 2 * d| ≤ u * |1 / 2 * d|) : |w - (1 - c) / 2| ≤ 7 * u := by
  obtain ⟨a1, a2⟩ := abs_le.mp hc1
  obtain ⟨b1, b2⟩ := abs_le.mp hc
  have h1 : |1 - c'| ≤ 2.009 := abs_le.mpr ⟨by linarith, by linarith⟩
  have h2 : |d - (1 - c')| ≤ 2.009 * u := hd.trans (by nlinarith)
  obtain ⟨c1, c2⟩ := abs_le.mp h2
  have h3 : |1 / 2 * d| ≤ 1.006 := abs_le.mpr ⟨by linarith, by linarith⟩
  have h4 : |w - 1 / 2 * d| ≤ 1.006 * u := hw.trans (by nlinarith)
  obtain ⟨d1, d2⟩ := abs_le.mp h4
  rw [abs_le]
  constructor <;> linarith

theorem hamming_numbers (c c' a b e w : ℝ) (hc1 : |c| ≤ 1) (hc : |c' - c| ≤ 9 * u) (ha : |a - 0.54| ≤ 2 * u * 0.54) (hb : |b - 0.46| ≤ 2 * u * 0.46) (he : |e - b * c'| ≤ u * |b * c'|)
    (hw : |w - (a - e)| ≤ u * |a - e|) : |w - (0.54 - 0.46 * c)| ≤ 8 * u := by
  have hc2 : |c'| ≤ 1.009 := by
    have := abs_sub_abs_le_abs_sub c' c
    linarith
  have h1 : |b * c' - 0.46 * c| ≤ 5.07 * u := by
    rw [show b * c' - 0.46 * c = (b - 0.46) * c' + 0.46 * (c' - c) by ring]
    refine (abs_add_le _ _).trans ?_
    rw [abs_mul, abs_mul, abs_of_pos (by norm_num : (0 : ℝ) < 0.46)]
    have : |b - 0.46| * |c'| ≤ 2 * u * 0.46 * 1.009 := by gcongr
    linarith
  have h2 : |b * c'| ≤ 0.466 := by
    have := abs_sub_abs_le_abs_sub (b * c') (0.46 * c)
    rw [abs_mul 0.46 c, abs_of_pos (by norm_num : (0 : ℝ) < 0.46)] at this
    linarith
  have h3 : |e - b * c'| ≤ 0.466 * u := he.trans (by nlinarith)
  obtain ⟨a1, a2⟩ := abs_le.mp hc1
  obtain ⟨b1, b2⟩ := abs_le.mp h1
  obtain ⟨c1, c2⟩ := abs_le.mp h3
  obtain ⟨d1, d2⟩ := abs_le.mp ha
  have h4 : |a - e| ≤ 1.007 := abs_le.mpr ⟨by linarith, by linarith⟩
  have h5 : |w - (a - e)| ≤ 1.007 * u := hw.trans (by nlinarith)
  obtain ⟨e1, e2⟩ := abs_le.mp h5
  rw [abs_le]
  constructor <;> linarith

/-- A product of a coefficient and a cosine. -/
theorem product_numbers (a c c' e : ℝ) (hc1 : |c| ≤ 1) (hc : |c' - c| ≤ 9 * u) (he : |e - a * c'| ≤ u * |a * c'|) : |e - a * c| ≤ 10.01 * u * |a| ∧ |e| ≤ 1.0101 * |a| := by
  have ha := abs_nonneg a
  have hc2 : |c'| ≤ 1.009 := by
    have := abs_sub_abs_le_abs_sub c' c
    linarith
  have h1 : |e - a * c'| ≤ u * (1.009 * |a|) := by
    refine he.trans ?_
    rw [abs_mul, mul_comm |a|]
    gcongr
  have h2 : |a * c' - a * c| ≤ |a| * (9 * u) := by
    rw [← mul_sub, abs_mul]
    gcongr
  have h3 : |e - a * c| ≤ 10.01 * u * |a| := by
    have := abs_sub_le e (a * c') (a * c)
    nlinarith [mul_nonneg hu0 ha]
  refine ⟨h3, ?_⟩
  have h4 := abs_sub_abs_le_abs_sub e (a * c)
  rw [abs_mul a c] at h4
  have h5 : |a| * |c| ≤ |a| := mul_le_of_le_one_right ha hc1
  nlinarith

theorem blackman_numbers (a0 a1 a2 c1 c1' c2 c2' e1 e2 f w : ℝ) (hc1 : |c1| ≤ 1) (hc2 : |c2| ≤ 1) (h1 : |c1' - c1| ≤ 9 * u) (h2 : |c2' - c2| ≤ 9 * u) (he1 : |e1 - a1 * c1'| ≤ u * |a1 * c1'|)
    (he2 : |e2 - a2 * c2'| ≤ u * |a2 * c2'|) (hf : |f - (a0 - e1)| ≤ u * |a0 - e1|) (hw : |w - (f + e2)| ≤ u * |f + e2|) :
    |w - (a0 - a1 * c1 + a2 * c2)| ≤ (3 * |a0| + 13 * |a1| + 12 * |a2|) * u := by
  obtain ⟨p1, p2⟩ := product_numbers u hu0 hu a1 c1 c1' e1 hc1 h1 he1
  obtain ⟨q1, q2⟩ := product_numbers u hu0 hu a2 c2 c2' e2 hc2 h2 he2
  have g0 := abs_nonneg a0
  have g1 := abs_nonneg a1
  have g2 := abs_nonneg a2
  have k0 : 0 ≤ u * |a0| := by positivity
  have k1 : 0 ≤ u * |a1| := by positivity
  have k2 : 0 ≤ u * |a2| := by positivity
  have b1 : |a0 - e1| ≤ |a0| + 1.0101 * |a1| := (abs_sub _ _).trans (by linarith)
  have b2 : |f - (a0 - e1)| ≤ u * |a0| + 1.0101 * (u * |a1|) := hf.trans (by nlinarith)
  have b3 : |f| ≤ 1.001 * |a0| + 1.012 * |a1| := by
    have := abs_sub_abs_le_abs_sub f (a0 - e1)
    nlinarith
  have b4 : |f + e2| ≤ 1.001 * |a0| + 1.012 * |a1| + 1.0101 * |a2| := (abs_add_le _ _).trans (by linarith)
  have b5 : |w - (f + e2)| ≤ 1.001 * (u * |a0|) + 1.012 * (u * |a1|) + 1.0101 * (u * |a2|) := hw.trans (by nlinarith)
  have e : w - (a0 - a1 * c1 + a2 * c2) = (w - (f + e2)) + ((f - (a0 - e1)) + (-(e1 - a1 * c1) + (e2 - a2 * c2))) := by ring
  rw [e]
  calc _ ≤ |w - (f + e2)| + (|f - (a0 - e1)| + (|e1 - a1 * c1| + |e2 - a2 * c2|)) := by
        refine (abs_add_le _ _).trans (add_le_add le_rfl ((abs_add_le _ _).trans (add_le_add le_rfl ((abs_add_le _ _).trans ?_))))
        rw [abs_neg]
    _ ≤ _ := by nlinarith

end numbers

variable (l p : ℕ) [NeZero p] (hp : 10 ≤ p) (hp' : p ≤ 53) (hl : p ≤ l)

omit [NeZero p] in
include hp in
theorem unit_small : (1 : ℝ) / 2 ^ p ≤ 1 / 1000 := by
  calc (1 : ℝ) / 2 ^ p ≤ 1 / 2 ^ 10 := by gcongr; norm_num
    _ ≤ _ := by norm_num

include hl in
theorem literal_one : (((Binary.literal l p 1).val : ℚ) : ℝ) = 1 := by
  have := literal_exact l p hl 1 0 (by rw [abs_one]; exact one_lt_pow₀ (by norm_num) (NeZero.ne p))
  simp only [Int.cast_one, zpow_zero, mul_one] at this
  rw [this]; simp

include hl in
theorem literal_half : (((Binary.literal l p 0.5).val : ℚ) : ℝ) = 1 / 2 := by
  have := literal_exact l p hl 1 (-1) (by rw [abs_one]; exact one_lt_pow₀ (by norm_num) (NeZero.ne p))
  have e : ((1 : ℤ) : ℚ) * 2 ^ (-1 : ℤ) = 0.5 := by norm_num
  rw [e] at this
  rw [this]; norm_num

variable (n N : ℤ) (hN : 2 ≤ N) (hN2 : N ≤ 268435456) (hn : 0 ≤ n) (hnN : n < N)

include hp hp' hl hN hN2 hn hnN

/-- **C83** The Hann window is off by at most seven units. -/
theorem C83_hann : ∃ w, Rounded.hann (Kernels.of (UnitCircle.Coeffs.binary l p)) (Binary.literal 53 p 1) (Binary.literal 53 p 0.5) n N = .ok w ∧
    |(w.val : ℝ) - (1 - Real.cos (2 * Real.pi * n / (N - 1 : ℤ))) / 2| ≤ 7 / 2 ^ p := by
  obtain ⟨⟨c, ec, hc⟩, -⟩ := UnitCircle.C68_binary l p hp hp' hl n (N - 1) (by omega) (by omega) (by omega) (by omega)
  have hR := binary_roundedField p
  refine ⟨_, by simp only [Rounded.hann, bind, Except.bind, int32_fits (show -2147483648 ≤ N - 1 ∧ N - 1 ≤ 2147483647 by omega), ec, pure, Except.pure]; rfl, ?_⟩
  have s1 := hR.sub (Binary.literal 53 p 1) c
  have s2 := hR.mul (Binary.literal 53 p 0.5) (Binary.literal 53 p 1 - c)
  rw [literal_one 53 p hp'] at s1
  rw [literal_half 53 p hp'] at s2
  rw [show (7 : ℝ) / 2 ^ p = 7 * (1 / 2 ^ p) by ring]
  exact hann_numbers _ (by positivity) (unit_small p hp) _ _ _ _ (Real.abs_cos_le_one _) (by rw [show (9 : ℝ) * (1 / 2 ^ p) = 9 / 2 ^ p by ring]; exact hc) s1 s2

/-- **C83** The Hamming window is off by at most eight units. -/
theorem C83_hamming : ∃ w, Rounded.hamming (Kernels.of (UnitCircle.Coeffs.binary l p)) (Binary.literal 53 p 0.54) (Binary.literal 53 p 0.46) n N = .ok w ∧
    |(w.val : ℝ) - (0.54 - 0.46 * Real.cos (2 * Real.pi * n / (N - 1 : ℤ)))| ≤ 8 / 2 ^ p := by
  obtain ⟨⟨c, ec, hc⟩, -⟩ := UnitCircle.C68_binary l p hp hp' hl n (N - 1) (by omega) (by omega) (by omega) (by omega)
  have hR := binary_roundedField p
  refine ⟨_, by simp only [Rounded.hamming, bind, Except.bind, int32_fits (show -2147483648 ≤ N - 1 ∧ N - 1 ≤ 2147483647 by omega), ec, pure, Except.pure]; rfl, ?_⟩
  have l1 := literal_error 53 p hp' 0.54
  have l2 := literal_error 53 p hp' 0.46
  have e1 : ((0.54 : ℚ) : ℝ) = 0.54 := by norm_num
  have e2 : ((0.46 : ℚ) : ℝ) = 0.46 := by norm_num
  rw [e1, abs_of_pos (by norm_num : (0 : ℝ) < 0.54)] at l1
  rw [e2, abs_of_pos (by norm_num : (0 : ℝ) < 0.46)] at l2
  rw [show (8 : ℝ) / 2 ^ p = 8 * (1 / 2 ^ p) by ring]
  exact hamming_numbers _ (by positivity) (unit_small p hp) _ _ _ _ _ _ (Real.abs_cos_le_one _) (by rw [show (9 : ℝ) * (1 / 2 ^ p) = 9 / 2 ^ p by ring]; exact hc) l1 l2 (hR.mul _ _) (hR.sub _ _)

/-- **C83** The Blackman window, with any three coefficients. -/
theorem C83_blackman (a0 a1 a2 : Binary p) : ∃ w, Rounded.blackman (Kernels.of (UnitCircle.Coeffs.binary l p)) a0 a1 a2 n N = .ok w ∧
    |(w.val : ℝ) - (a0.val - a1.val * Real.cos (2 * Real.pi * n / (N - 1 : ℤ)) + a2.val * Real.cos (2 * Real.pi * (2 * n : ℤ) / (N - 1 : ℤ)))| ≤
      (3 * |(a0.val : ℝ)| + 13 * |(a1.val : ℝ)| + 12 * |(a2.val : ℝ)|) / 2 ^ p := by
  obtain ⟨⟨c, ec, hc⟩, -⟩ := UnitCircle.C68_binary l p hp hp' hl n (N - 1) (by omega) (by omega) (by omega) (by omega)
  obtain ⟨r1, r2⟩ := tmod_range (2 * n) (N - 1) (by omega)
  obtain ⟨⟨c', ec', hc'⟩, -⟩ := UnitCircle.C68_binary l p hp hp' hl ((2 * n).tmod (N - 1)) (N - 1) (by omega) (by omega) r1 r2
  rw [cos_tmod _ _ (by omega)] at hc'
  have hR := binary_roundedField p
  refine ⟨_, by simp only [Rounded.blackman, bind, Except.bind, int32_fits (show -2147483648 ≤ N - 1 ∧ N - 1 ≤ 2147483647 by omega),
    int32_fits (show -2147483648 ≤ 2 * n ∧ 2 * n ≤ 2147483647 by omega), irem_ok (2 * n) (N - 1) (by omega), ec, ec', pure, Except.pure]; rfl, ?_⟩
  rw [show (9 : ℝ) / 2 ^ p = 9 * (1 / 2 ^ p) by ring] at hc hc'
  have := blackman_numbers _ (by positivity) (unit_small p hp) a0.val a1.val a2.val _ _ _ _ _ _ _ _ (Real.abs_cos_le_one _) (Real.abs_cos_le_one _) hc hc' (hR.mul _ _) (hR.mul _ _) (hR.sub _ _) (hR.add _ _)
  rw [mul_one_div] at this
  exact this

omit hN2 in
/-- **C83** The Lanczos window: a relative error of at most 24 units, also where the argument of the cardinal sine is small. -/
theorem C83_lanczos (hN2 : N ≤ 134217728) : ∃ w, Rounded.lanczos (Kernels.of (UnitCircle.Coeffs.binary l p)) (Rounded.pi l p) (Binary.literal 53 p 1) n N = .ok w ∧
    (2 * n = N - 1 → w.val = 1) ∧
    (2 * n ≠ N - 1 → |(w.val : ℝ) - Real.sin (Real.pi * ((2 * n - (N - 1 : ℤ)) / (N - 1 : ℤ))) / (Real.pi * ((2 * n - (N - 1 : ℤ)) / (N - 1 : ℤ)))| ≤
      24 / 2 ^ p * |Real.sin (Real.pi * ((2 * n - (N - 1 : ℤ)) / (N - 1 : ℤ))) / (Real.pi * ((2 * n - (N - 1 : ℤ)) / (N - 1 : ℤ)))|) := by
  have i1 := int32_fits (show -2147483648 ≤ N - 1 ∧ N - 1 ≤ 2147483647 by omega)
  have i2 := int32_fits (show -2147483648 ≤ 2 * n ∧ 2 * n ≤ 2147483647 by omega)
  by_cases c : 2 * n = N - 1
  · refine ⟨Binary.literal 53 p 1, ?_, fun _ => ?_, fun h => absurd c h⟩
    · have : (2 * n == N - 1) = true := beq_iff_eq.mpr c
      simp only [Rounded.lanczos, bind, Except.bind, i1, i2, this, M.ite, pure, Except.pure, if_true]
    · have := literal_one 53 p hp'
      exact_mod_cast this
  · have i3 := int32_fits (show -2147483648 ≤ 2 * n - (N - 1) ∧ 2 * n - (N - 1) ≤ 2147483647 by omega)
    have i4 := int32_fits (show -2147483648 ≤ 2 * (N - 1) ∧ 2 * (N - 1) ≤ 2147483647 by omega)
    obtain ⟨-, s, es, hs⟩ := UnitCircle.C84_binary l p hp hp' hl (2 * n - (N - 1)) (2 * (N - 1)) (by omega) (by omega) (by omega) (by omega)
    have hR := binary_roundedField p
    have hu0 : (0 : ℝ) ≤ 1 / 2 ^ p := by positivity
    have hu := unit_small p hp
    obtain ⟨u, hu'⟩ : ∃ u : ℝ, u = 1 / 2 ^ p := ⟨_, rfl⟩
    have hpi := Rounded.pi_near l p hp' hl
    rw [show (13 : ℝ) / 2 ^ p = 13 * (1 / 2 ^ p) by ring] at hs
    rw [show (24 : ℝ) / 2 ^ p = 24 * (1 / 2 ^ p) by ring]
    rw [← hu'] at hR hu0 hu hpi hs ⊢
    have hd : ((2 * n - (N - 1) : ℤ) : ℝ) ≠ 0 := by exact_mod_cast (by omega : 2 * n - (N - 1) ≠ 0)
    have hM : ((N - 1 : ℤ) : ℝ) ≠ 0 := by exact_mod_cast (by omega : N - 1 ≠ 0)
    have rs : Rel u 13 (s.val : ℝ) _ := Rel.of_le hu0 hs (by norm_num)
    have rpi : Rel u 3 ((Rounded.pi l p).val : ℝ) Real.pi := Rel.of_le hu0 (by rw [abs_of_pos Real.pi_pos]; exact hpi) (by norm_num; linarith)
    have rd : Rel u 1 (((2 * n - (N - 1) : ℤ) : Binary p).val : ℝ) ((2 * n - (N - 1) : ℤ) : ℝ) := Rel.of_le hu0 (hR.cast _) (by norm_num)
    have rM : Rel u 1 (((N - 1 : ℤ) : Binary p).val : ℝ) ((N - 1 : ℤ) : ℝ) := Rel.of_le hu0 (hR.cast _) (by norm_num)
    have rm := rpi.mul hu0 rd (hR.mul _ _)
    obtain ⟨-, rq⟩ := rm.div hu0 (by linarith) rM hM (by norm_num; linarith) (hR.div _ _)
    have hq0 : Real.pi * ((2 * n - (N - 1) : ℤ) : ℝ) / ((N - 1 : ℤ) : ℝ) ≠ 0 := div_ne_zero (mul_ne_zero Real.pi_ne_zero hd) hM
    obtain ⟨hqne, rW⟩ := rs.div hu0 (by linarith) rq hq0 (by norm_num; linarith) (hR.div _ _)
    have b1 : (2 * n == N - 1) = false := beq_eq_false_iff_ne.mpr c
    have b2 : (N - 1 == 0) = false := beq_eq_false_iff_ne.mpr (by omega)
    have b3 : ((Rounded.pi l p * ((2 * n - (N - 1) : ℤ) : Binary p) / ((N - 1 : ℤ) : Binary p)) == 0) = false := by
      rw [beq_eq_false_iff_ne]
      intro h
      apply hqne
      rw [h]
      exact hR.zero
    refine ⟨_, by simp only [Rounded.lanczos, bind, Except.bind, i1, i2, i3, i4, es, b1, b2, b3, M.ite, pure, Except.pure, Bool.false_eq_true, if_false]; rfl, fun h => absurd h c, fun _ => ?_⟩
    have e1 : Real.pi * ((2 * (n : ℝ) - ((N - 1 : ℤ) : ℝ)) / ((N - 1 : ℤ) : ℝ)) = Real.pi * ((2 * n - (N - 1) : ℤ) : ℝ) / ((N - 1 : ℤ) : ℝ) := by push_cast; ring
    have e2 : 2 * Real.pi * ((2 * n - (N - 1) : ℤ) : ℝ) / ((2 * (N - 1) : ℤ) : ℝ) = Real.pi * ((2 * n - (N - 1) : ℤ) : ℝ) / ((N - 1 : ℤ) : ℝ) := by
      rw [show ((2 * (N - 1) : ℤ) : ℝ) = 2 * ((N - 1 : ℤ) : ℝ) by push_cast; ring]
      field_simp
    rw [e2] at rW
    rw [e1]
    exact rW.bound hu0 (by norm_num; linarith) (by norm_num; linarith)

omit [NeZero p] hp hp' hl hN hN2 hn hnN in
theorem binary_ext {q : ℕ} {a b : Binary q} (h : a.val = b.val) : a = b := by
  cases a; cases b; cases h; rfl

omit hN hN2 hn hnN in
/-- **C83** The weight in the middle of a Kaiser window of odd length is exactly one. -/
theorem C83_kaiser_middle (hp16 : 16 ≤ p) (a : Binary p) (ha : |(a.val : ℝ)| ≤ 3) (m : ℤ) (hm : 1 ≤ m) (hm2 : m < 2 ^ 29) : ∃ w, Rounded.kaiserBinary l p a m (2 * m + 1) = .ok w ∧ w.val = 1 := by
  obtain ⟨w, s, ew, es, hs, hpos, -⟩ := C83_kaiser l p hp16 hp' hl a ha m (2 * m + 1) (by omega) (by omega) (by omega) (by omega)
  have hp0 : 0 < p := by omega
  have h1v : (Binary.literal l p 1).val = 1 := by
    have := literal_one l p hl
    exact_mod_cast this
  have rep1 : Binary.Representable p 1 := ⟨1, 0, by rw [abs_one]; exact one_lt_pow₀ (by norm_num) (by omega), by simp⟩
  have r1 : Binary.round p 1 = 1 := Binary.round_of_representable p _ rep1
  have r0 : Binary.round p 0 = 0 := Binary.round_of_representable p _ ⟨0, 0, by positivity, by simp⟩
  have i1 := int32_fits (show -2147483648 ≤ 2 * m ∧ 2 * m ≤ 2147483647 by omega)
  have i2 : int32 (2 * m + 1 - 1) = .ok (2 * m) := by rw [add_sub_cancel_right]; exact i1
  have b1 : (2 * m == 0) = false := beq_eq_false_iff_ne.mpr (by omega)
  set one := Binary.literal l p 1 with hone
  set c : Binary p := ((2 * m : ℤ) : Binary p) with hc
  have hc0 : c.val ≠ 0 := by
    have : (1 : ℚ) ≤ c.val := Binary.le_round p hp0 _ _ rep1 (by exact_mod_cast (by omega : (1 : ℤ) ≤ 2 * m))
    linarith
  have e1 : Rounded.offset2 one m (2 * m + 1) = .ok ((c / c - one) * (c / c - one)) := by
    simp only [Rounded.offset2, i1, i2, bind, Except.bind, b1, M.ite, pure, Except.pure]
    rfl
  have v1 : (c / c).val = 1 := by
    show Binary.round p (c.val / c.val) = 1
    rw [div_self hc0, r1]
  have v2 : (c / c - one).val = 0 := by
    show Binary.round p ((c / c).val - one.val) = 0
    rw [v1, h1v, sub_self, r0]
  have v3 : ((c / c - one) * (c / c - one)).val = 0 := by
    show Binary.round p ((c / c - one).val * (c / c - one).val) = 0
    rw [v2, mul_zero, r0]
  have v4 : one - (c / c - one) * (c / c - one) = one := by
    apply binary_ext
    show Binary.round p (one.val - ((c / c - one) * (c / c - one)).val) = one.val
    rw [v3, sub_zero, h1v, r1]
  have v5 : Binary.sqrt one = one := by
    apply binary_ext
    show Binary.roundReal p √(one.val : ℝ) = one.val
    rw [h1v, Rat.cast_one, Real.sqrt_one]
    have := Binary.roundReal_cast p 1
    rw [Rat.cast_one] at this
    rw [this, r1]
  have v6 : Rounded.pi l p * a * one = Rounded.pi l p * a := by
    apply binary_ext
    show Binary.round p ((Rounded.pi l p * a).val * one.val) = _
    rw [h1v, mul_one, Binary.round_of_representable p _ (Rounded.pi l p * a).representable]
  refine ⟨Rounded.i0 one (Rounded.pi l p * a) / Rounded.i0 one (Rounded.pi l p * a), ?_, ?_⟩
  · simp only [Rounded.kaiserBinary, Rounded.kaiser, ← hone, e1, bind, Except.bind, pure, Except.pure, v4, v5, v6]
  · show Binary.round p ((Rounded.i0 one (Rounded.pi l p * a)).val / (Rounded.i0 one (Rounded.pi l p * a)).val) = 1
    rw [div_self hpos.ne', r1]

end Win

namespace Win

open Spec

set_option maxRecDepth 100000 in
theorem blackman_first : (match Rounded.blackmanA (Kernels.of (UnitCircle.Coeffs.binary 64 53)) (Binary.literal 53 53 1) (Binary.literal 53 53 0.5) (Binary.literal 53 53 0.16) 0 13 with
    | .ok w => decide (w.val < 0)
    | .error _ => false) = true := by
  decide +kernel

/-- **C83** Rounding can make a weight negative: the first weight of `Blackman(0.16)`, which is zero, in double precision. -/
theorem C83_blackman_negative : ∃ w, Rounded.blackmanA (Kernels.of (UnitCircle.Coeffs.binary 64 53)) (Binary.literal 53 53 1) (Binary.literal 53 53 0.5) (Binary.literal 53 53 0.16) 0 13 = .ok w ∧
    w.val < 0 := by
  have h := blackman_first
  generalize Rounded.blackmanA (Kernels.of (UnitCircle.Coeffs.binary 64 53)) (Binary.literal 53 53 1) (Binary.literal 53 53 0.5) (Binary.literal 53 53 0.16) 0 13 = r at *
  match r, h with
  | .ok w, h => exact ⟨w, rfl, of_decide_eq_true h⟩

/-- A Hann window of five samples in single precision: the weight beside the middle is a half. -/
example : ∃ w, Rounded.hann (Kernels.of (UnitCircle.Coeffs.binary 64 24)) (Binary.literal 53 24 1) (Binary.literal 53 24 0.5) 1 5 = .ok w ∧ |(w.val : ℝ) - 1 / 2| ≤ 7 / 2 ^ 24 := by
  obtain ⟨w, h1, h2⟩ := C83_hann 64 24 (by norm_num) (by norm_num) (by norm_num) 1 5 (by norm_num) (by norm_num) (by norm_num) (by norm_num)
  refine ⟨w, h1, ?_⟩
  have e : 2 * Real.pi * ((1 : ℤ) : ℝ) / ((5 - 1 : ℤ) : ℝ) = Real.pi / 2 := by push_cast; ring
  rw [e, Real.cos_pi_div_two, sub_zero] at h2
  exact h2

/-- The first weight of a Kaiser window in double precision with parameter two is `1 / I0(2 pi)`, with a relative error below `400 / 2^53`. -/
example (a : Binary 53) (ha : a.val = 2) : ∃ w, Rounded.kaiserBinary 64 53 a 0 65 = .ok w ∧ |(w.val : ℝ) - 1 / besselI0 (Real.pi * 2)| ≤ 400 / 2 ^ 53 * (1 / besselI0 (Real.pi * 2)) := by
  obtain ⟨w, s, h1, -, -, -, h2⟩ := C83_kaiser 64 53 (by norm_num) (by norm_num) (by norm_num) a (by rw [ha]; norm_num) 0 65 (by norm_num) (by norm_num) (by norm_num) (by norm_num)
  refine ⟨w, h1, ?_⟩
  have e0 : besselI0 0 = 1 := by
    rw [besselI0, tsum_eq_single 0 (fun m hm => by simp [hm])]
    simp
  have e : (1 : ℝ) - (2 * ((0 : ℤ) : ℝ) / (((65 : ℤ) : ℝ) - 1) - 1) ^ 2 = 0 := by norm_num
  rw [e, Real.sqrt_zero, mul_zero, e0, ha] at h2
  norm_num at h2 ⊢
  exact h2

end Win
end DSP
