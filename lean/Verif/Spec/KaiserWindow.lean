import Verif.Spec.Bessel
import Mathlib.Analysis.SpecialFunctions.Trigonometric.Basic

/-!
# The Kaiser window
-/

namespace DSP.Spec

/-- The weight of place `n` out of `N`. -/
noncomputable def kaiserWindow (a : ℝ) (N : ℕ) (n : ℤ) : ℝ := besselI0 (Real.pi * a * √(1 - (2 * (n : ℝ) / ((N : ℝ) - 1) - 1) ^ 2)) / besselI0 (Real.pi * a)

end DSP.Spec
