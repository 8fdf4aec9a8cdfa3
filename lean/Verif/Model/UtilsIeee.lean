import Verif.Model.Ieee
import Verif.Model.Filters

/-!
# Models of utils.hh with all special values

`lerp` is in `Verif.Model.Filters`, for every type. The function `sin` of the C library is a parameter.
-/

namespace DSP.Ieee

variable {F : Format}

/-- utils.hh:13-17 -/
def signum (v : Ieee F) : ℤ := (if 0 < v then 1 else 0) - (if v < 0 then 1 else 0)

/-- utils.hh:25-29 -/
def clamp (x a b : Ieee F) : Ieee F := if x < a then a else if b < x then b else x

/-- `pi` is the constant. utils.hh:37-41 -/
def sinc (sin : Ieee F → Ieee F) (pi x : Ieee F) : Ieee F := if (0 : Ieee F) == x then 1 else sin (pi * x) / (pi * x)

/-- utils.hh:43-47 -/
def delta (x : Ieee F) : Ieee F := if (0 : Ieee F) == x then 1 else 0

end DSP.Ieee
