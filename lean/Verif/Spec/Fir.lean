import Mathlib.Analysis.SpecialFunctions.Integrals.Basic

/-!
# Ideal filters

Frequencies are in cycles per sample; a real signal has those from `-1/2` to `1/2`.
-/

namespace DSP.Spec

/-- The impulse response, at distance `x` from the centre, of the filter that lets pass exactly the frequencies with magnitude between `c0` and `c1`: the inverse Fourier
transform of its characteristic. -/
noncomputable def passBand (c0 c1 x : ℝ) : ℝ := 2 * ∫ t in c0..c1, Real.cos (2 * Real.pi * x * t)

/-- The impulse response of the ideal Hilbert transformer, which turns the phase of every frequency by a quarter turn. -/
noncomputable def quarterTurn (x : ℝ) : ℝ := 2 * ∫ t in (0 : ℝ)..1 / 2, Real.sin (2 * Real.pi * x * t)

end DSP.Spec
