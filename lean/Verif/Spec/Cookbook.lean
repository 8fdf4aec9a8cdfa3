import Mathlib.Analysis.SpecialFunctions.Trigonometric.Basic

/-!
# Second order filters as in the "Audio EQ Cookbook"
-/

namespace DSP.Spec

/-- The filters with a design of their own. -/
inductive Kind
  | lowpass
  | highpass
  | notch
  | bandpass
  | allpass

/-- `(b0 + b1 z⁻¹ + b2 z⁻²) / (1 + a1 z⁻¹ + a2 z⁻²)` -/
structure Normalised where
  (b0 b1 b2 a1 a2 : ℝ)

/-- The filter for the angular frequency `w` and the quality `Q`. -/
noncomputable def cookbook (k : Kind) (w Q : ℝ) : Normalised :=
  let α := Real.sin w / (2 * Q)
  let n : ℝ × ℝ × ℝ := match k with
    | .lowpass => ((1 - Real.cos w) / 2, 1 - Real.cos w, (1 - Real.cos w) / 2)
    | .highpass => ((1 + Real.cos w) / 2, -(1 + Real.cos w), (1 + Real.cos w) / 2)
    | .notch => (1, -2 * Real.cos w, 1)
    | .bandpass => (α, 0, -α)
    | .allpass => (1 - α, -2 * Real.cos w, 1 + α)
  ⟨n.1 / (1 + α), n.2.1 / (1 + α), n.2.2 / (1 + α), -2 * Real.cos w / (1 + α), (1 - α) / (1 + α)⟩

end DSP.Spec
