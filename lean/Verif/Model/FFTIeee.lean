import Verif.Model.FFTBinary
import Verif.Model.Ieee

/-!
# fft.hh with overflow and underflow
-/

namespace DSP.FFT

/-- The values of `Trig.binary` as numbers of the format. The code computes them in the format; `UnitCircle.C134_factors` shows that it gets these numbers.
fft.hh:15-31, unit_circle.hh:36-80 -/
def Trig.ieee (l : Nat) (F : Format) [NeZero F.p] : Trig (Ieee F) where
  cos n N := Ieee.literal ((Trig.binary l F.p).cos n N).val
  sin n N := Ieee.literal ((Trig.binary l F.p).sin n N).val
  invSqrtTwo := Ieee.literal (Trig.binary l F.p).invSqrtTwo.val

end DSP.FFT
