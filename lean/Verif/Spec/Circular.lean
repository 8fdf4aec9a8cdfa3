import Mathlib.Algebra.BigOperators.Intervals
import Mathlib.Data.Complex.Basic

/-!
# Specification: convolution
-/

namespace DSP.Spec

/-- Circular convolution of two periods of `N` values. -/
noncomputable def circular (N : ℕ) (x y : ℕ → ℂ) (n : ℕ) : ℂ := ∑ k ∈ Finset.range N, x k * y ((n + (N - k)) % N)

/-- Element `n` of the product of two polynomials. -/
noncomputable def linear (x y : ℕ → ℂ) (n : ℕ) : ℂ := ∑ k ∈ Finset.range (n + 1), x k * y (n - k)

end DSP.Spec
