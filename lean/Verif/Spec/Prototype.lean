import Verif.Spec.Fir
import Verif.Spec.KaiserWindow

/-!
# The prototype of a resampling filter
-/

namespace DSP.Spec

/-- The coefficient `n` of a low pass filter of `TAPS` taps, `OVER` coefficients per tap, with the cut-off frequency `c` in cycles per tap: the ideal response times the window of Kaiser with the parameter `a`. -/
noncomputable def prototype (TAPS OVER : ℕ) (c a : ℝ) (n : ℕ) : ℝ := passBand 0 c ((n : ℝ) / OVER - ((TAPS : ℝ) - 1) / 2) * kaiserWindow a (TAPS * OVER) n

end DSP.Spec
