import Mathlib.Analysis.SpecialFunctions.Trigonometric.Basic

/-!
# Specification: a sinusoid and the gain of a moving average
-/

namespace DSP.Spec

/-- A sinusoid at time `t`. -/
noncomputable def sinusoid (A w φ t : ℝ) : ℝ := A * Real.cos (w * t + φ)

/-- The mean of `N` cosines around zero. -/
noncomputable def meanCosine (N : ℕ) (w : ℝ) : ℝ := (∑ k ∈ Finset.range N, Real.cos (((k : ℝ) - ((N : ℝ) - 1) / 2) * w)) / N

end DSP.Spec
