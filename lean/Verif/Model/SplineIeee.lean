import Verif.Model.SplineRounded
import Verif.Model.Ieee

/-!
# The conversion to `int` in spline.hh with all special values

The splines are those of `Verif.Model.SplineRounded`.
-/

namespace DSP

/-- Dropping the fraction. An infinity or NaN has no value that fits `int`; the conversion is undefined, as for any other value that does not fit. spline.hh:41,129 -/
def Ieee.trunc {F : Format} : Ieee F → ℤ
  | num s m => if signed s m < 0 then ⌈signed s m⌉ else ⌊signed s m⌋
  | _ => 2147483648

end DSP
