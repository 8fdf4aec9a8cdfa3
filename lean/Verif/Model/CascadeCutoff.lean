import Verif.Model.Filters
import Verif.Model.Elementary
import Verif.Model.BinarySqrt
import Verif.Spec.Circle

/-!
# The cutoff of EMACascade

With exact arithmetic, i.e. real numbers and the exact cosine.
-/

namespace DSP
namespace EMACascade

/-- `nearbyint(n / cascade_factor(ORDER))`; the default rounding mode is to nearest with ties to even. ema.hh:81 -/
noncomputable def cutoffBin (ORDER n : ℤ) : ℤ := Binary.nearestReal (n / cascadeFactor ORDER)

/-- `cutoff(n, N)`; this `cutoff_alpha` is a copy of the one of `EMA`. ema.hh:68-72, 79-82 -/
noncomputable def setCutoff {E : Type} (ORDER : ℤ) (e : EMACascade ℝ E) (n N : ℤ) : EMACascade ℝ E := e.cutoff exactCos Real.sqrt (cutoffBin ORDER) n N

end EMACascade
end DSP
