import Verif.Model.AtanRounded
import Verif.Model.Ieee

/-!
# atan2.hh with all special values

The kernel is that of `Verif.Model.AtanRounded`; the comparisons are those of IEEE 754.
-/

namespace DSP
namespace Ieee

variable {F : Format}

/-- `<=`: false for NaN. -/
def leq (a b : Ieee F) : Bool := less a b || a == b

/-- The sign of a number; a NaN has one too, here it is given. -/
def signbit (sign : Bool) : Ieee F → Bool
  | nan => sign
  | inf s => s
  | num s _ => s

/-- `copysign` with the sign `s`. -/
def withSign (s : Bool) : Ieee F → Ieee F
  | nan => nan
  | inf _ => inf s
  | num _ m => num s m

end Ieee

namespace Elementary

variable {F : Format}

/-- The constants: `double` has 53 bits, `long double` has `l`. atan2.hh:19-29, atan2.hh:39-47, const.hh:16-40 -/
def AtanConsts.ieee (l : ℕ) (F : Format) [NeZero F.p] : AtanConsts (Ieee F) :=
  decimal.map (fun q => Ieee.literal (Binary.literal 53 F.p q).val) fun q => Ieee.literal (Binary.literal l F.p q).val

/-- `atan_approx`. atan2.hh:37-48 -/
def atanApproxIeee (c : AtanConsts (Ieee F)) (x : Ieee F) : Ieee F :=
  if Ieee.leq x c.low then atanKernel c x
  else if Ieee.less c.high x then c.halfPi + c.morebits - atanKernel c (((1 : ℤ) : Ieee F) / x)
  else c.fourthPi + c.half * c.morebits + atanKernel c ((x - ((1 : ℤ) : Ieee F)) / (x + ((1 : ℤ) : Ieee F)))

/-- atan2.hh:51-54 -/
def atanIeee (c : AtanConsts (Ieee F)) (x : Ieee F) : Ieee F := if Ieee.leq 0 x then atanApproxIeee c x else -atanApproxIeee c (-x)

/-- `sign` is the sign of a NaN. atan2.hh:57-71 -/
def atan2Ieee (c : AtanConsts (Ieee F)) (sign : Bool) (y x : Ieee F) : Ieee F :=
  if y == 0 then (if Ieee.leq 0 x then Ieee.withSign (y.signbit sign) 0 else Ieee.withSign (y.signbit sign) c.pi)
  else if x == 0 then Ieee.withSign (y.signbit sign) c.halfPi
  else
    let phase := atanIeee c (y / x)
    if Ieee.less x 0 then (if Ieee.less 0 phase then phase - c.pi else phase + c.pi) else phase

end Elementary
end DSP
