import Verif.Model.UnitCircle
import Verif.Model.FFTIeee

/-!
# unit_circle.hh with the limits of the exponent
-/

namespace DSP.UnitCircle

/-- The constants in a format: those of the polynomials are of type `double`, of 53 bits, the other one is a `long double`, of `l` bits. All are converted to `TYPE`. unit_circle.hh:19-33, const.hh:36-40 -/
def Coeffs.ieee (l : ℕ) (F : Format) [NeZero F.p] : Coeffs (Ieee F) :=
  { Coeffs.decimal.map (fun q => Ieee.literal (Binary.literal 53 F.p q).val) with twoPi := Ieee.literal (Binary.literal l F.p Coeffs.decimal.twoPi).val }

end DSP.UnitCircle

namespace DSP.FFT

/-- The factors of the transform, made in the format throughout. fft.hh:15-31, unit_circle.hh:36-80, const.hh:36-40 -/
def Trig.code (l : ℕ) (F : Format) [NeZero F.p] : Trig (Ieee F) where
  cos n N := defined (UnitCircle.cos (Kernels.of (UnitCircle.Coeffs.ieee l F)) n N)
  sin n N := defined (UnitCircle.sin (Kernels.of (UnitCircle.Coeffs.ieee l F)) n N)
  invSqrtTwo := Ieee.literal (Trig.binary l F.p).invSqrtTwo.val

end DSP.FFT
