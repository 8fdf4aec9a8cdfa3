import Verif.Model.Complex
import Mathlib.Data.Complex.Basic
import Mathlib.Analysis.SpecialFunctions.Complex.Arg
import Mathlib.Tactic.FieldSimp

/-!
# C30: complex.hh is the field of complex numbers
-/

namespace DSP

open Cplx

/-- The complex number an object stands for. -/
noncomputable def Cplx.val (a : Cplx ℝ) : ℂ := ⟨a.re, a.im⟩

theorem Cplx.val_injective : Function.Injective Cplx.val := by
  rintro ⟨a, b⟩ ⟨c, d⟩ h
  simp only [Cplx.val, Complex.mk.injEq] at h
  rw [h.1, h.2]

/-- **C30** Construction and ring operations. -/
theorem C30_ring (a b : Cplx ℝ) (r : ℝ) :
    (default : Cplx ℝ).val = 0 ∧ (ofReal r).val = (r : ℂ) ∧ (assign a r).val = (r : ℂ) ∧
    (setReal a r).val = (r : ℂ) + a.val.im * Complex.I ∧ (setImag a r).val = (a.val.re : ℂ) + r * Complex.I ∧
    (add a b).val = a.val + b.val ∧ (plus a).val = a.val ∧ (sub a b).val = a.val - b.val ∧ (neg a).val = -a.val ∧
    (smul r a).val = r * a.val ∧ (mul a b).val = a.val * b.val := by
  refine ⟨rfl, rfl, rfl, ?_, ?_, ?_, rfl, ?_, ?_, ?_, ?_⟩ <;>
    apply Complex.ext <;> simp [Cplx.val, setReal, setImag, add, sub, neg, smul, mul]

/-- **C30** Division by anything other than zero. -/
theorem C30_div (a b : Cplx ℝ) (r s : ℝ) (hs : s ≠ 0) (hb : b.val ≠ 0) :
    (sdiv a s).val = a.val / s ∧ (rdiv r b).val = r / b.val ∧ (div a b).val = a.val / b.val := by
  have hn : b.re * b.re + b.im * b.im ≠ 0 := by
    intro h
    apply hb
    have h1 : b.re = 0 := by nlinarith [mul_self_nonneg b.re, mul_self_nonneg b.im]
    have h2 : b.im = 0 := by nlinarith [mul_self_nonneg b.re, mul_self_nonneg b.im]
    simp only [Cplx.val, h1, h2]
    rfl
  refine ⟨?_, ?_, ?_⟩
  · rw [eq_div_iff (by exact_mod_cast hs)]
    apply Complex.ext <;> simp [Cplx.val, sdiv, hs]
  · rw [eq_div_iff hb]
    apply Complex.ext
    · simp only [Cplx.val, rdiv, Complex.mul_re, Complex.ofReal_re]
      rw [div_mul_eq_mul_div, div_mul_eq_mul_div, ← sub_div, div_eq_iff hn]
      ring
    · simp only [Cplx.val, rdiv, Complex.mul_im, Complex.ofReal_im]
      rw [div_mul_eq_mul_div, div_mul_eq_mul_div, ← add_div, div_eq_iff hn]
      ring
  · rw [eq_div_iff hb]
    apply Complex.ext
    · simp only [Cplx.val, div, Complex.mul_re]
      rw [div_mul_eq_mul_div, div_mul_eq_mul_div, ← sub_div, div_eq_iff hn]
      ring
    · simp only [Cplx.val, div, Complex.mul_im]
      rw [div_mul_eq_mul_div, div_mul_eq_mul_div, ← add_div, div_eq_iff hn]
      ring

example : ((⟨3, -4⟩ : Cplx ℝ)).val ≠ 0 := by
  intro h
  have := congrArg Complex.re h
  simp [Cplx.val] at this

/-- **C30** Compound assignment does what the operator does. -/
theorem C30_assign (a b : Cplx ℝ) (r : ℝ) (hr : r ≠ 0) (hb : b.val ≠ 0) :
    (addAssign a b).val = a.val + b.val ∧ (subAssign a b).val = a.val - b.val ∧ (mulAssign a b).val = a.val * b.val ∧
    (smulAssign a r).val = a.val * r ∧ (sdivAssign a r).val = a.val / r ∧ (divAssign a b).val = a.val / b.val := by
  have h1 := C30_ring a b r
  have h2 := C30_ring b a r
  have h3 := C30_div a b r r hr hb
  refine ⟨?_, h1.2.2.2.2.2.2.2.1, ?_, ?_, h3.1, h3.2.2⟩
  · rw [add_comm]; exact h2.2.2.2.2.2.1
  · rw [mul_comm]; exact h2.2.2.2.2.2.2.2.2.2.2
  · rw [mul_comm]; exact h1.2.2.2.2.2.2.2.2.2.1

/-- **C30** Comparison is equality, and the two comparisons exclude each other. -/
theorem C30_compare [DecidableEq ℝ] (a b : Cplx ℝ) : (eq a b = true ↔ a.val = b.val) ∧ (ne a b = true ↔ a.val ≠ b.val) := by
  constructor
  · simp [eq, Cplx.val]
  · simp only [ne, Cplx.val, Bool.or_eq_true, bne_iff_ne, _root_.ne_eq, Complex.mk.injEq, not_and_or]

/-- **C30** conj, norm, abs, arg and polar with the real functions of the same names. -/
theorem C30_functions (a : Cplx ℝ) (r t : ℝ) :
    (conj a).val = (starRingEnd ℂ) a.val ∧ norm a = Complex.normSq a.val ∧ abs Real.sqrt a = ‖a.val‖ ∧
    (polar Real.cos Real.sin r t).val = r * Complex.exp (t * Complex.I) ∧
    arg (fun y x => Complex.arg ⟨x, y⟩) a = Complex.arg a.val := by
  refine ⟨rfl, ?_, ?_, ?_, rfl⟩
  · simp [Cplx.norm, Cplx.val, Complex.normSq_apply]
  · simp [Cplx.abs, Cplx.norm, Cplx.val, Complex.norm_def, Complex.normSq_apply]
  · rw [Complex.exp_mul_I]
    apply Complex.ext <;>
      simp [polar, Cplx.val, Complex.cos_ofReal_re, Complex.sin_ofReal_re, Complex.cos_ofReal_im, Complex.sin_ofReal_im]

example : (mul ⟨1, 2⟩ ⟨3, -4⟩ : Cplx ℚ) = ⟨11, 2⟩ ∧ (div ⟨11, 2⟩ ⟨3, -4⟩ : Cplx ℚ) = ⟨1, 2⟩ ∧ norm (⟨3, -4⟩ : Cplx ℚ) = 25 := by
  refine ⟨?_, ?_, ?_⟩ <;> norm_num [mul, div, Cplx.norm]

end DSP
