import Mathlib.Analysis.SpecialFunctions.Complex.Arg

/-!
# Distance between angles
-/

namespace DSP.Spec

/-- Two angles differ by no more than `τ`, whole turns aside. -/
def AnglesWithin (τ θ φ : ℝ) : Prop := ∃ k : ℤ, |φ - θ + 2 * Real.pi * k| ≤ τ

end DSP.Spec
