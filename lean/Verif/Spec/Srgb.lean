import Mathlib.Analysis.SpecialFunctions.Pow.Real

/-!
# The sRGB transfer function
-/

namespace DSP.Spec

/-- From intensities to values of pixels. -/
noncomputable def srgbCurve (x : ℝ) : ℝ := if x ≤ 0.04045 / 12.92 then 12.92 * x else 1.055 * x ^ (1 / (2.4 : ℝ)) - 0.055

end DSP.Spec
