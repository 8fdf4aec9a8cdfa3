import Verif.Model.FFT
import Verif.Model.UnitCircle

/-!
# fft.hh with the values of unit_circle.hh and const.hh
-/

namespace DSP.FFT

/-- What a function of unit_circle.hh returns. Outside of the range of sizes its `int` arithmetic overflows; the zero stands for that. -/
def defined {V : Type} [Zero V] : M V → V
  | .ok v => v
  | .error _ => 0

/-- The values in binary floating point with `p` bits, where `long double` has `l`. fft.hh:15-31, const.hh:56-60 -/
def Trig.binary (l p : Nat) [NeZero p] : Trig (Binary p) where
  cos n N := defined (UnitCircle.cos (Kernels.of (UnitCircle.Coeffs.binary l p)) n N)
  sin n N := defined (UnitCircle.sin (Kernels.of (UnitCircle.Coeffs.binary l p)) n N)
  invSqrtTwo := Binary.literal l p 0.7071067811865475244008443621048490392848359376884740365883398689953

end DSP.FFT
