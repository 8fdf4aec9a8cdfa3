import Mathlib.Analysis.SpecialFunctions.Trigonometric.Basic

/-!
# Cosine and sine of fractions of a full turn

What `UnitCircle<TYPE>::cos(n, N)` and `sin(n, N)` stand for.
-/

namespace DSP

/-- The cosine of `n / N` of a full turn. -/
noncomputable def exactCos (n N : ℤ) : ℝ := Real.cos (2 * Real.pi * n / N)

/-- The sine of `n / N` of a full turn. -/
noncomputable def exactSin (n N : ℤ) : ℝ := Real.sin (2 * Real.pi * n / N)

end DSP
