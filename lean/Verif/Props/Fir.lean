import Verif.Props.Window
import Verif.Spec.Fir

/-!
# Filter designs (C64)
-/

namespace DSP
namespace Fir

open Spec

theorem passBand_ne (c0 c1 x : ℝ) (hx : x ≠ 0) :
    passBand c0 c1 x = (Real.sin (2 * Real.pi * x * c1) - Real.sin (2 * Real.pi * x * c0)) / (Real.pi * x) := by
  have hk : 2 * Real.pi * x ≠ 0 := mul_ne_zero (mul_ne_zero two_ne_zero Real.pi_ne_zero) hx
  rw [passBand, intervalIntegral.integral_comp_mul_left (fun t => Real.cos t) hk, integral_cos]
  simp only [smul_eq_mul]
  field_simp

theorem passBand_zero (c0 c1 : ℝ) : passBand c0 c1 0 = 2 * (c1 - c0) := by simp [passBand]

theorem passBand_neg (c0 c1 x : ℝ) : passBand c0 c1 (-x) = passBand c0 c1 x := by
  simp only [passBand, mul_neg, neg_mul, Real.cos_neg]

theorem passBand_add (c0 c1 c2 x : ℝ) : passBand c0 c1 x + passBand c1 c2 x = passBand c0 c2 x := by
  by_cases hx : x = 0
  · subst hx; simp only [passBand_zero]; ring
  · simp only [passBand_ne _ _ _ hx]; ring

theorem sinc_passBand (c x : ℝ) : 2 * c * sinc (2 * c * x) = passBand 0 c x := by
  by_cases hx : x = 0
  · subst hx; simp [passBand_zero, sinc]
  · rw [passBand_ne _ _ _ hx]
    by_cases hc : c = 0
    · subst hc; simp
    · have h : 0 ≠ 2 * c * x := (mul_ne_zero (mul_ne_zero two_ne_zero hc) hx).symm
      have hp := Real.pi_ne_zero
      simp only [sinc, h, if_false, mul_zero, Real.sin_zero, sub_zero]
      rw [show Real.pi * (2 * c * x) = 2 * Real.pi * x * c by ring]
      field_simp

theorem sinc_full (x : ℝ) : sinc x = passBand 0 (1 / 2) x := by
  rw [← sinc_passBand]; norm_num

theorem centred_ok (n N : ℤ) (h1 : -2147483647 ≤ N) (h2 : N ≤ 2147483647) : centred n N = .ok ((n : ℝ) - ((N : ℝ) - 1) / 2) := by
  simp only [centred, bind, Except.bind, int32_fits (show -2147483648 ≤ N - 1 ∧ N - 1 ≤ 2147483647 by omega), pure, Except.pure]
  congr 1; push_cast; ring

variable (n N : ℤ) (h1 : 1 ≤ N) (h2 : N ≤ 2147483647)

include h1 h2 in
/-- Low, high and band pass are the ideal filters, centred in the window, for all cutoff frequencies. -/
theorem C64_ideal (c c0 c1 : ℝ) :
    lowPass c n N = .ok (passBand 0 c (n - ((N : ℝ) - 1) / 2)) ∧ highPass c n N = .ok (passBand c (1 / 2) (n - ((N : ℝ) - 1) / 2)) ∧
      bandPass c0 c1 n N = .ok (passBand c0 c1 (n - ((N : ℝ) - 1) / 2)) := by
  simp only [lowPass, highPass, bandPass, bind, Except.bind, centred_ok n N (by omega) h2, pure, Except.pure]
  refine ⟨?_, ?_, ?_⟩
  · rw [sinc_passBand]
  · rw [sinc_passBand, sinc_full, ← passBand_add 0 c (1 / 2)]; congr 1; ring
  · rw [sinc_passBand, sinc_passBand, ← passBand_add 0 c0 c1]; congr 1; ring

/-- The mirrored index has the opposite distance from the centre. -/
theorem mirror (n N : ℤ) : ((N - 1 - n : ℤ) : ℝ) - ((N : ℝ) - 1) / 2 = -((n : ℝ) - ((N : ℝ) - 1) / 2) := by push_cast; ring

include h1 h2 in
/-- They are symmetric, so their phase is linear. -/
theorem C64_symmetric (c c0 c1 : ℝ) :
    lowPass c (N - 1 - n) N = lowPass c n N ∧ highPass c (N - 1 - n) N = highPass c n N ∧ bandPass c0 c1 (N - 1 - n) N = bandPass c0 c1 n N := by
  obtain ⟨a1, a2, a3⟩ := C64_ideal n N h1 h2 c c0 c1
  obtain ⟨b1, b2, b3⟩ := C64_ideal (N - 1 - n) N h1 h2 c c0 c1
  rw [a1, a2, a3, b1, b2, b3, mirror, passBand_neg, passBand_neg, passBand_neg]
  exact ⟨rfl, rfl, rfl⟩

include h1 h2 in
/-- Low and high pass with the same cutoff add up to the interpolation kernel: a unit impulse if there is a tap in the centre. -/
theorem C64_complement (c : ℝ) : ∃ l h, lowPass c n N = .ok l ∧ highPass c n N = .ok h ∧ l + h = sinc (n - ((N : ℝ) - 1) / 2) ∧
    ∀ m : ℤ, N = 2 * m + 1 → l + h = if n = m then 1 else 0 := by
  obtain ⟨a1, a2, -⟩ := C64_ideal n N h1 h2 c c c
  have e : passBand 0 c (n - ((N : ℝ) - 1) / 2) + passBand c (1 / 2) (n - ((N : ℝ) - 1) / 2) = sinc (n - ((N : ℝ) - 1) / 2) := by
    rw [passBand_add, sinc_full]
  refine ⟨_, _, a1, a2, e, fun m hm => ?_⟩
  rw [e, hm]
  push_cast
  rw [show (n : ℝ) - (2 * m + 1 - 1) / 2 = ((n - m : ℤ) : ℝ) by push_cast; ring]
  by_cases c : n = m
  · subst c; simp [sinc]
  · rw [if_neg c]
    have h : (0 : ℝ) ≠ ((n - m : ℤ) : ℝ) := by exact_mod_cast (by omega : (0 : ℤ) ≠ n - m)
    simp only [sinc, h, if_false]
    rw [mul_comm, Real.sin_int_mul_pi, zero_div]

theorem quarterTurn_ne (x : ℝ) (hx : x ≠ 0) : quarterTurn x = (1 - Real.cos (Real.pi * x)) / (Real.pi * x) := by
  have hk : 2 * Real.pi * x ≠ 0 := mul_ne_zero (mul_ne_zero two_ne_zero Real.pi_ne_zero) hx
  rw [quarterTurn, intervalIntegral.integral_comp_mul_left (fun t => Real.sin t) hk, integral_sin]
  simp only [smul_eq_mul, mul_zero, Real.cos_zero]
  rw [show 2 * Real.pi * x * (1 / 2) = Real.pi * x by ring]
  field_simp

theorem quarterTurn_zero : quarterTurn 0 = 0 := by simp [quarterTurn]

theorem quarterTurn_neg (x : ℝ) : quarterTurn (-x) = -quarterTurn x := by
  simp only [quarterTurn, mul_neg, neg_mul, Real.sin_neg, intervalIntegral.integral_neg]

include h1 h2 in
/-- The Hilbert transformer is the ideal one, for even and odd sizes. -/
theorem C64_hilbert (hn : -1073741824 ≤ n) (hn2 : n ≤ 1073741823) :
    hilbert n N = .ok (quarterTurn (n - ((N : ℝ) - 1) / 2)) := by
  have hp := Real.pi_ne_zero
  unfold hilbert
  by_cases c : N % 2 = 1
  · rw [if_pos c]
    obtain ⟨m, rfl⟩ : ∃ m, N = 2 * m + 1 := ⟨N / 2, by omega⟩
    have e1 : (2 * m + 1 - 1 : ℤ) = 2 * m := by ring
    have e2 : (2 * m).tdiv 2 = m := by rw [Int.tdiv_eq_ediv_of_nonneg (by omega)]; omega
    simp only [bind, Except.bind, e1, int32_fits (show -2147483648 ≤ 2 * m ∧ 2 * m ≤ 2147483647 by omega), e2,
      int32_fits (show -2147483648 ≤ n - m ∧ n - m ≤ 2147483647 by omega)]
    have ex : (n : ℝ) - (((2 * m + 1 : ℤ) : ℝ) - 1) / 2 = ((n - m : ℤ) : ℝ) := by push_cast; ring
    rw [ex]
    generalize n - m = x
    by_cases c2 : x % 2 = 1
    · rw [if_pos c2]
      have hx : (x : ℝ) ≠ 0 := by exact_mod_cast (by omega : x ≠ 0)
      rw [fdiv_ok (mul_ne_zero hp hx), quarterTurn_ne _ hx]
      obtain ⟨k, rfl⟩ : ∃ k, x = 2 * k + 1 := ⟨x / 2, by omega⟩
      rw [show Real.pi * ((2 * k + 1 : ℤ) : ℝ) = Real.pi + (k : ℤ) * (2 * Real.pi) by push_cast; ring, Real.cos_add_int_mul_two_pi, Real.cos_pi]
      norm_num
    · rw [if_neg c2]
      by_cases hx : (x : ℝ) = 0
      · rw [hx, quarterTurn_zero]; rfl
      · rw [quarterTurn_ne _ hx]
        obtain ⟨k, rfl⟩ : ∃ k, x = 2 * k := ⟨x / 2, by omega⟩
        rw [show Real.pi * ((2 * k : ℤ) : ℝ) = 0 + (k : ℤ) * (2 * Real.pi) by push_cast; ring, Real.cos_add_int_mul_two_pi, Real.cos_zero]
        simp [pure, Except.pure]
  · rw [if_neg c]
    simp only [bind, Except.bind, centred_ok n N (by omega) h2]
    obtain ⟨m, rfl⟩ : ∃ m, N = 2 * m := ⟨N / 2, by omega⟩
    have ex : (n : ℝ) - (((2 * m : ℤ) : ℝ) - 1) / 2 = ((2 * (n - m) + 1 : ℤ) : ℝ) / 2 := by push_cast; ring
    rw [ex]
    have hx : ((2 * (n - m) + 1 : ℤ) : ℝ) / 2 ≠ 0 := div_ne_zero (by exact_mod_cast (by omega : 2 * (n - m) + 1 ≠ 0)) two_ne_zero
    rw [fdiv_ok (mul_ne_zero hp hx), quarterTurn_ne _ hx]
    have : Real.cos (Real.pi * (((2 * (n - m) + 1 : ℤ) : ℝ) / 2)) = 0 := by
      rw [Real.cos_eq_zero_iff]
      exact ⟨n - m, by push_cast; ring⟩
    rw [this, sub_zero]

include h1 h2 in
/-- Antisymmetry of the Hilbert transformer. -/
theorem C64_antisymmetric (hn : 0 ≤ n) (hn2 : n < N) (hN : N ≤ 1073741824) : ∃ v, hilbert n N = .ok v ∧ hilbert (N - 1 - n) N = .ok (-v) := by
  refine ⟨_, C64_hilbert n N h1 h2 (by omega) (by omega), ?_⟩
  rw [C64_hilbert (N - 1 - n) N h1 h2 (by omega) (by omega), mirror, quarterTurn_neg]

/-! ### Rational cutoff frequencies -/

section rational
variable (num den : ℤ) (hd : 1 ≤ den) (hd2 : den ≤ 134217727) (hnum : num ≠ 0) (hnum2 : -1073741824 ≤ num) (hnum3 : num ≤ 1073741823)
  (hn : -1073741824 ≤ n) (hn2 : n ≤ 1073741823) (hx : -2147483648 ≤ 2 * n - (N - 1) ∧ 2 * n - (N - 1) ≤ 2147483647)
  (hp : -2147483648 ≤ (2 * n - (N - 1)) * num ∧ (2 * n - (N - 1)) * num ≤ 2147483647)

include hd hnum2 hnum3 in
theorem factor_ok : factor num den = .ok (2 * ((num : ℝ) / den)) := by
  have hd' : (den : ℝ) ≠ 0 := by exact_mod_cast (by omega : den ≠ 0)
  simp only [factor, bind, Except.bind, int32_fits (show -2147483648 ≤ 2 * num ∧ 2 * num ≤ 2147483647 by omega), fdiv_ok hd']
  congr 1; push_cast; ring

include h1 h2 hn hn2 hx in
theorem twoX_ok : twoX n N = .ok (2 * n - (N - 1)) := by
  simp only [twoX, bind, Except.bind, int32_fits (show -2147483648 ≤ 2 * n ∧ 2 * n ≤ 2147483647 by omega),
    int32_fits (show -2147483648 ≤ N - 1 ∧ N - 1 ≤ 2147483647 by omega), int32_fits hx]

theorem sin_ok (k M : ℤ) (hM : 1 ≤ M) (hM2 : M ≤ 268435455) : UnitCircle.sin Kernels.exact (k.tmod M) M = .ok (Real.sin (2 * Real.pi * k / M)) := by
  have h := Win.tmod_range k M hM
  rw [UnitCircle.sin_exact _ M hM hM2 h.1 h.2, exactSin, Win.sin_tmod k M hM]

include hd hd2 hnum in
theorem ratio_ok (twox : ℤ) (hx : twox ≠ 0) (hp : -2147483648 ≤ twox * num ∧ twox * num ≤ 2147483647) :
    ratio Kernels.exact num den (2 * ((num : ℝ) / den)) twox = .ok (passBand 0 ((num : ℝ) / den) ((twox : ℝ) / 2)) := by
  have hd' : (den : ℝ) ≠ 0 := by exact_mod_cast (by omega : den ≠ 0)
  have hnum' : (num : ℝ) ≠ 0 := by exact_mod_cast hnum
  have hx' : (twox : ℝ) ≠ 0 := by exact_mod_cast hx
  have hpi := Real.pi_ne_zero
  have hf : Real.pi / 2 * (2 * ((num : ℝ) / den)) * twox ≠ 0 := by positivity
  simp only [ratio, bind, Except.bind, int32_fits hp, int32_fits (show -2147483648 ≤ 2 * den ∧ 2 * den ≤ 2147483647 by omega),
    Win.irem_ok _ (2 * den) (by omega), sin_ok (twox * num) (2 * den) (by omega) (by omega), fdiv_ok hf]
  rw [passBand_ne _ _ _ (div_ne_zero hx' two_ne_zero), mul_zero, Real.sin_zero, sub_zero]
  congr 1
  rw [show 2 * Real.pi * ((twox : ℝ) / 2) * ((num : ℝ) / den) = 2 * Real.pi * ((twox * num : ℤ) : ℝ) / ((2 * den : ℤ) : ℝ) by push_cast; field_simp]
  field_simp

include h1 h2 hd hd2 hnum hnum2 hnum3 hn hn2 hx hp in
/-- The versions with a rational cutoff frequency `num / den` give the same filters: the argument reduction modulo the period is right for negative
indices as well. -/
theorem C64_rational : lowPass2 Kernels.exact num den n N = lowPass ((num : ℝ) / den) n N ∧
    highPass2 Kernels.exact num den n N = highPass ((num : ℝ) / den) n N := by
  obtain ⟨a1, a2, -⟩ := C64_ideal n N h1 h2 ((num : ℝ) / den) 0 0
  have ex : (n : ℝ) - ((N : ℝ) - 1) / 2 = ((2 * n - (N - 1) : ℤ) : ℝ) / 2 := by push_cast; ring
  rw [a1, a2, ex]
  simp only [lowPass2, highPass2, bind, Except.bind, factor_ok num den hd hnum2 hnum3, twoX_ok n N h1 h2 hn hn2 hx]
  generalize 2 * n - (N - 1) = twox at *
  by_cases c : twox = 0
  · subst c
    rw [if_pos rfl, if_pos rfl, Int.cast_zero, zero_div, passBand_zero, passBand_zero]
    simp only [pure, Except.pure]
    exact ⟨by congr 1; ring, by congr 1; ring⟩
  · rw [if_neg c, if_neg c]
    have hx' : (twox : ℝ) ≠ 0 := by exact_mod_cast c
    have hpi := Real.pi_ne_zero
    have r := ratio_ok num den hd hd2 hnum twox c hp
    refine ⟨r, ?_⟩
    simp only [r, Win.irem_ok twox 4 (by norm_num), sin_ok twox 4 (by norm_num) (by norm_num),
      fdiv_ok (show Real.pi / 2 * (twox : ℝ) ≠ 0 by positivity), pure, Except.pure]
    congr 1
    rw [eq_sub_of_add_eq' (passBand_add 0 ((num : ℝ) / den) (1 / 2) ((twox : ℝ) / 2)), passBand_ne 0 (1 / 2) _ (div_ne_zero hx' two_ne_zero)]
    congr 1
    rw [mul_zero, Real.sin_zero, sub_zero]
    congr 1
    · congr 1; push_cast; ring
    · ring

end rational

/-- A cutoff frequency of zero (which should give zero weights) divides zero by zero beside the centre. -/
theorem C64_zero_cutoff : lowPass2 Kernels.exact 0 1 0 2 = .error .divZero ∧ ∃ v, lowPass 0 0 2 = .ok v ∧ v = 0 := by
  constructor
  · have hs := sin_ok 0 2 (by norm_num) (by norm_num)
    simp only [lowPass2, factor, twoX, ratio, bind, Except.bind]
    simp [int32, fdiv, irem]
    simp at hs
    simp [hs]
  · exact ⟨_, (C64_ideal 0 2 (by norm_num) (by norm_num) 0 0 0).1, by simp [passBand]⟩

/-- A half band filter: every other weight beside the centre vanishes. -/
example : lowPass2 Kernels.exact 1 4 0 5 = .ok 0 := by
  rw [(C64_rational 0 5 (by norm_num) (by norm_num) 1 4 (by norm_num) (by norm_num) (by norm_num) (by norm_num) (by norm_num) (by norm_num) (by norm_num)
    (by norm_num) (by norm_num)).1, (C64_ideal 0 5 (by norm_num) (by norm_num) _ 0 0).1, passBand_ne _ _ _ (by norm_num)]
  congr 1
  rw [show 2 * Real.pi * (((0 : ℤ) : ℝ) - (((5 : ℤ) : ℝ) - 1) / 2) * (((1 : ℤ) : ℝ) / ((4 : ℤ) : ℝ)) = -Real.pi by push_cast; ring]
  simp

end Fir
end DSP
