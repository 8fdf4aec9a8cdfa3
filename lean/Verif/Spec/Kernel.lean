import Verif.Spec.Fir
import Verif.Spec.Bessel

/-!
# The windowed ideal low-pass filter
-/

namespace DSP.Spec

/-- The ideal low-pass filter with the cutoff frequency `γ` (in units of the sampling rate), weighted by the Kaiser window, at any place between the first point and the last one, which is at `TAPS - 1 / OVER`. -/
noncomputable def kernel (TAPS OVER : ℕ) (γ α x : ℝ) : ℝ :=
  passBand 0 γ (x - ((TAPS : ℝ) - 1) / 2) * (besselI0 (Real.pi * α * Real.sqrt (1 - (2 * x / (TAPS - 1 / OVER) - 1) ^ 2)) / besselI0 (Real.pi * α))

/-- A bound that is of second order in the distance `1 / OVER` of the points. -/
noncomputable def kernelError (TAPS OVER : ℕ) (γ α : ℝ) : ℝ :=
  2 * |γ| * (((2 * Real.pi * γ) ^ 2 / 3 + 2 * Real.pi * |γ| * (Real.pi * α) ^ 2 / (TAPS - 1 / OVER) + (2 * (Real.pi * α) ^ 2 + (Real.pi * α) ^ 4 / 2) / (TAPS - 1 / OVER) ^ 2) / (2 * OVER ^ 2) + 1 / 10 ^ 32)

end DSP.Spec
