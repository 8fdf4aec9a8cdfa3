import Verif.Lemmas.UnitCircle
import Verif.Lemmas.PolyBound
import Mathlib.Analysis.Real.Pi.Bounds
import Mathlib.Analysis.Complex.Exponential

/-!
# Accuracy of the trigonometric functions (C36)
-/

namespace DSP
namespace UnitCircle

open PolyBound

def cosPoly : List ℚ := [1, -0.5, 4.16666666666665929218E-2, -1.38888888888730564116E-3, 2.48015872888517045348E-5, -2.75573141792967388112E-7,
  2.08757008419747316778E-9, -1.13585365213876817300E-11]

def sinPoly : List ℚ := [1, -1.66666666666666307295E-1, 8.33333333332211858878E-3, -1.98412698295895385996E-4, 2.75573136213857245213E-6,
  -2.50507477628578072866E-8, 1.58962301576546568060E-10]

/-- The series of both functions up to the eighteenth and nineteenth power. -/
def cosTaylor : List ℚ := [1, -1 / 2, 1 / 24, -1 / 720, 1 / 40320, -1 / 3628800, 1 / 479001600, -1 / 87178291200, 1 / 20922789888000, -1 / 6402373705728000]

def sinTaylor : List ℚ := [1, -1 / 6, 1 / 120, -1 / 5040, 1 / 362880, -1 / 39916800, 1 / 6227020800, -1 / 1307674368000, 1 / 355687428096000,
  -1 / 121645100408832000]

theorem cosineApprox_eq (x : ℝ) : cosineApprox Coeffs.real x = eval cosPoly (x * x) := by
  simp only [cosineApprox, Coeffs.real, Coeffs.map, Coeffs.decimal, cosPoly, eval_cons, eval_nil]
  push_cast
  ring

theorem sineApprox_eq (x : ℝ) : sineApprox Coeffs.real x = x * eval sinPoly (x * x) := by
  simp only [sineApprox, Coeffs.real, Coeffs.map, Coeffs.decimal, sinPoly, eval_cons, eval_nil]
  push_cast
  ring

theorem cosCheck : check (add [1 / 10 ^ 19] (add cosTaylor (neg cosPoly))) 0 0.61687 32 = true ∧
    check (add [1 / 10 ^ 19] (neg (add cosTaylor (neg cosPoly)))) 0 0.61687 32 = true := by
  constructor <;> decide +kernel

theorem sinCheck : check (add [6 / 10 ^ 18] (add sinTaylor (neg sinPoly))) 0 0.61687 32 = true ∧
    check (add [6 / 10 ^ 18] (neg (add sinTaylor (neg sinPoly)))) 0 0.61687 32 = true := by
  constructor <;> decide +kernel

/-- Both series at once, from the exponential. -/
theorem series (x : ℝ) : ∑ m ∈ Finset.range 20, ((x : ℂ) * Complex.I) ^ m / (m.factorial : ℂ) =
    ((eval cosTaylor (x * x) : ℝ) : ℂ) + ((x * eval sinTaylor (x * x) : ℝ) : ℂ) * Complex.I := by
  have h : ∀ k : ℕ, Complex.I ^ (2 * k) = (-1) ^ k := fun k => by rw [pow_mul, Complex.I_sq]
  have h' : ∀ k : ℕ, Complex.I ^ (2 * k + 1) = (-1) ^ k * Complex.I := fun k => by rw [pow_succ, h]
  simp only [Finset.sum_range_succ, Finset.sum_range_zero, mul_pow]
  rw [h 1, h 2, h 3, h 4, h 5, h 6, h 7, h 8, h 9, h' 1, h' 2, h' 3, h' 4, h' 5, h' 6, h' 7, h' 8, h' 9]
  simp only [cosTaylor, sinTaylor, eval_cons, eval_nil, Nat.factorial]
  push_cast
  ring

theorem taylor (x : ℝ) (hx : |x| ≤ 0.7854) :
    |Real.cos x - eval cosTaylor (x * x)| ≤ 1 / 10 ^ 20 ∧ |Real.sin x - x * eval sinTaylor (x * x)| ≤ 1 / 10 ^ 20 := by
  have hn : ‖(x : ℂ) * Complex.I‖ = |x| := by simp
  have h := Complex.exp_bound (x := (x : ℂ) * Complex.I) (by rw [hn]; linarith) (n := 20) (by norm_num)
  rw [series, hn] at h
  have hb : |x| ^ 20 * (((20 : ℕ).succ : ℝ) * ((((20 : ℕ).factorial : ℕ) : ℝ) * ((20 : ℕ) : ℝ))⁻¹) ≤ 1 / 10 ^ 20 := by
    have : |x| ^ 20 ≤ 0.7854 ^ 20 := pow_le_pow_left₀ (abs_nonneg x) hx 20
    calc _ ≤ (0.7854 : ℝ) ^ 20 * (((20 : ℕ).succ : ℝ) * ((((20 : ℕ).factorial : ℕ) : ℝ) * ((20 : ℕ) : ℝ))⁻¹) := by gcongr
      _ ≤ _ := by simp only [Nat.factorial]; norm_num
  have h := h.trans hb
  rw [Complex.exp_mul_I, ← Complex.ofReal_cos, ← Complex.ofReal_sin] at h
  constructor
  · have := (Complex.abs_re_le_norm _).trans h
    simp only [Complex.sub_re, Complex.add_re, Complex.mul_re, Complex.ofReal_re, Complex.ofReal_im, Complex.I_re, Complex.I_im] at this
    refine le_trans (le_of_eq ?_) this
    congr 1; ring
  · have := (Complex.abs_im_le_norm _).trans h
    simp only [Complex.sub_im, Complex.add_im, Complex.mul_im, Complex.ofReal_re, Complex.ofReal_im, Complex.I_re, Complex.I_im] at this
    refine le_trans (le_of_eq ?_) this
    congr 1; ring

theorem square_bound (x : ℝ) (hx : |x| ≤ 0.7854) : x * x ≤ 0.61687 := by
  have := abs_mul_abs_self x
  nlinarith [abs_nonneg x]

theorem cosine_error (x : ℝ) (hx : |x| ≤ 0.7854) : |cosineApprox Coeffs.real x - Real.cos x| ≤ 2 / 10 ^ 19 := by
  have h1 := (taylor x hx).1
  have h2 := abs_le_of_check (add cosTaylor (neg cosPoly)) (1 / 10 ^ 19) 0 0.61687 32 cosCheck.1 cosCheck.2 (x * x) (by push_cast; nlinarith)
    (by push_cast; exact square_bound x hx) (by norm_num) (by norm_num)
  rw [eval_add, eval_neg] at h2
  rw [cosineApprox_eq]
  push_cast at h2
  rw [abs_le] at *
  constructor <;> linarith [h1.1, h1.2, h2.1, h2.2]

theorem sine_error (x : ℝ) (hx : |x| ≤ 0.7854) : |sineApprox Coeffs.real x - Real.sin x| ≤ 5 / 10 ^ 18 := by
  have h1 := (taylor x hx).2
  have h2 := abs_le_of_check (add sinTaylor (neg sinPoly)) (6 / 10 ^ 18) 0 0.61687 32 sinCheck.1 sinCheck.2 (x * x) (by push_cast; nlinarith)
    (by push_cast; exact square_bound x hx) (by norm_num) (by norm_num)
  rw [eval_add, eval_neg] at h2
  push_cast at h2
  have h3 : |x * (eval sinTaylor (x * x) + -eval sinPoly (x * x))| ≤ 0.7854 * (6 / 10 ^ 18) := by
    rw [abs_mul]
    exact mul_le_mul hx h2 (abs_nonneg _) (by norm_num)
  rw [sineApprox_eq]
  rw [abs_le] at *
  constructor <;> linarith [h1.1, h1.2, h3.1, h3.2]

theorem twoPi_error : |Kernels.code.twoPi - 2 * Real.pi| ≤ 2 / 10 ^ 20 := by
  have h1 := Real.pi_gt_d20
  have h2 := Real.pi_lt_d20
  simp only [Kernels.code, Kernels.of, Coeffs.real, Coeffs.map, Coeffs.decimal]
  rw [abs_le]
  constructor <;> linarith

theorem reduced_error (r : M ℝ) (v : ℝ) (h : Reduced Kernels.code r v) : ∃ a, r = .ok a ∧ |a - v| < 1 / 2 ^ 57 := by
  obtain ⟨σ, q, hσ, hq, h⟩ := h.real
  have ht := twoPi_error
  have hT : |Kernels.code.twoPi * q| ≤ 0.7854 := by
    rw [abs_mul]
    have : |Kernels.code.twoPi| ≤ 6.2832 := by simp only [Kernels.code, Kernels.of, Coeffs.real, Coeffs.map, Coeffs.decimal]; rw [abs_of_nonneg] <;> norm_num
    calc _ ≤ (6.2832 : ℝ) * (1 / 8) := mul_le_mul this hq (abs_nonneg _) (by norm_num)
      _ = _ := by norm_num
  have hd : |Kernels.code.twoPi * q - 2 * Real.pi * q| ≤ 1 / 10 ^ 20 := by
    rw [← sub_mul, abs_mul]
    calc _ ≤ (2 / 10 ^ 20 : ℝ) * (1 / 8) := mul_le_mul ht hq (abs_nonneg _) (by norm_num)
      _ ≤ _ := by norm_num
  have hs : |σ| = 1 := by rcases hσ with h | h <;> simp [h]
  rcases h with ⟨h1, h2⟩ | ⟨h1, h2⟩
  · refine ⟨_, h1, ?_⟩
    have e1 := cosine_error _ hT
    have e2 := (Real.abs_cos_sub_cos_le (Kernels.code.twoPi * q) (2 * Real.pi * q)).trans hd
    rw [h2, ← mul_sub, abs_mul, hs, one_mul]
    calc _ = |(cosineApprox Coeffs.real (Kernels.code.twoPi * q) - Real.cos (Kernels.code.twoPi * q)) +
          (Real.cos (Kernels.code.twoPi * q) - Real.cos (2 * Real.pi * q))| := (congrArg abs (sub_add_sub_cancel _ _ _)).symm
      _ ≤ _ := abs_add_le _ _
      _ < _ := by norm_num at e1 e2 ⊢; linarith
  · refine ⟨_, h1, ?_⟩
    have e1 := sine_error _ hT
    have e2 := (Real.abs_sin_sub_sin_le (Kernels.code.twoPi * q) (2 * Real.pi * q)).trans hd
    rw [h2, ← mul_sub, abs_mul, hs, one_mul]
    calc _ = |(sineApprox Coeffs.real (Kernels.code.twoPi * q) - Real.sin (Kernels.code.twoPi * q)) +
          (Real.sin (Kernels.code.twoPi * q) - Real.sin (2 * Real.pi * q))| := (congrArg abs (sub_add_sub_cancel _ _ _)).symm
      _ ≤ _ := abs_add_le _ _
      _ < _ := by norm_num at e1 e2 ⊢; linarith

/-- Over the full range of both arguments there is no overflow, and in exact arithmetic the approximations are off by less than `2^-57`. -/
theorem C36_accuracy (n N : ℤ) (h1 : 1 ≤ N) (h2 : N ≤ 268435455) (h3 : -N ≤ n) (h4 : n ≤ N) :
    (∃ c, cos Kernels.code n N = .ok c ∧ |c - Real.cos (2 * Real.pi * n / N)| < 1 / 2 ^ 57) ∧
      ∃ s, sin Kernels.code n N = .ok s ∧ |s - Real.sin (2 * Real.pi * n / N)| < 1 / 2 ^ 57 :=
  ⟨reduced_error _ _ (cos_reduced _ n N h1 h2 h3 h4), reduced_error _ _ (sin_reduced _ n N h1 h2 h3 h4)⟩

example : ∃ c, cos Kernels.code 1 3 = .ok c ∧ |c - -(1 / 2)| < 1 / 2 ^ 57 := by
  obtain ⟨⟨c, h, h'⟩, -⟩ := C36_accuracy 1 3 (by norm_num) (by norm_num) (by norm_num) (by norm_num)
  refine ⟨c, h, ?_⟩
  have : Real.cos (2 * Real.pi * ((1 : ℤ) : ℝ) / ((3 : ℤ) : ℝ)) = -(1 / 2) := by
    push_cast
    rw [show 2 * Real.pi * 1 / 3 = Real.pi - Real.pi / 3 by ring, Real.cos_pi_sub, Real.cos_pi_div_three]
  rwa [this] at h'

/-- The argument is reduced correctly: with exact functions in place of the polynomials the results are exact. -/
theorem C36_reduction (n N : ℤ) (h1 : 1 ≤ N) (h2 : N ≤ 268435455) (h3 : -N ≤ n) (h4 : n ≤ N) :
    cos Kernels.exact n N = .ok (Real.cos (2 * Real.pi * n / N)) ∧ sin Kernels.exact n N = .ok (Real.sin (2 * Real.pi * n / N)) :=
  ⟨cos_exact n N h1 h2 h3 h4, sin_exact n N h1 h2 h3 h4⟩

/-- The bound on `N` is the best possible: one more and `8 * n` overflows. -/
theorem C36_overflow (K : Kernels) : cos K 268435456 268435456 = .error .overflow ∧ sin K 268435456 268435456 = .error .overflow := by
  constructor <;> simp [cos, sin, chain, int32, bind, Except.bind]

/-- A circle without steps divides by zero. -/
theorem C36_no_steps (K : Kernels) : cos K 0 0 = .error .divZero ∧ sin K 0 0 = .error .divZero := by
  constructor <;> simp [cos, sin, chain, ev, rad, int32, bind, Except.bind]

end UnitCircle
end DSP
