import Verif.Model.ElementaryRounded
import Verif.Model.DemodIeee

/-!
# exp.hh and decibel.hh with all special values

`ldexp`, `decibel` and its parts are those of `Verif.Model.ElementaryRounded`.
-/

namespace DSP
namespace Ieee

variable {F : Format}

/-- The nearest integer, ties to even, with the sign of the argument. -/
def nearbyint : Ieee F → Ieee F
  | nan => nan
  | inf s => inf s
  | num s m => num s |(Binary.nearest (signed s m) : ℚ)|

/-- The conversion to `int`, which cuts off the fraction. It is undefined if the result does not fit. -/
def toInt : Ieee F → M ℤ
  | nan => .error .overflow
  | inf _ => .error .overflow
  | num s m => int32 (if signed s m < 0 then ⌈signed s m⌉ else ⌊signed s m⌋)

end Ieee

namespace Elementary

variable {F : Format}

/-- The literals are of type `double`. exp.hh:31-41 -/
def ExpConsts.ieee (F : Format) [NeZero F.p] : ExpConsts (Ieee F) := decimal.map fun q => Ieee.literal (Binary.literal 53 F.p q).val

/-- exp.hh:28-50 -/
def exp10Ieee (c : ExpConsts (Ieee F)) (x : Ieee F) : M (Ieee F) := do
  let i := Ieee.nearbyint (x * c.LOG210)
  let x := x - i * c.LG102A
  let x := x - i * c.LG102B
  let xx := x * x
  let py := x * (xx * (xx * (xx * c.P0 + c.P1) + c.P2) + c.P3)
  let qy := xx * (xx * (xx + c.Q0) + c.Q1) + c.Q2
  let pq := ((1 : ℤ) : Ieee F) + ((2 : ℤ) : Ieee F) * py / (qy - py)
  let n ← Ieee.toInt i
  ldexp pq n

/-- The scale is a `long double` of `l` bits, converted to `TYPE`. decibel.hh:18-27 -/
def DecibelConsts.ieee (l : ℕ) (F : Format) [NeZero F.p] : DecibelConsts (Ieee F) :=
  ⟨Ieee.literal (Binary.literal l F.p scaleDecimal).val, ((1 : ℤ) : Ieee F) / ((1 : ℤ) : Ieee F), ((1 : ℤ) : Ieee F) / ((3 : ℤ) : Ieee F), ((1 : ℤ) : Ieee F) / ((5 : ℤ) : Ieee F),
    ((1 : ℤ) : Ieee F) / ((7 : ℤ) : Ieee F), ((1 : ℤ) : Ieee F) / ((9 : ℤ) : Ieee F), ((1 : ℤ) : Ieee F) / ((11 : ℤ) : Ieee F), ((1 : ℤ) : Ieee F) / ((13 : ℤ) : Ieee F)⟩

/-- decibel.hh:13-37 -/
noncomputable def decibelIeee (c : DecibelConsts (Ieee F)) (v : Ieee F) : Ieee F := decibel Ieee.sqrt c v

/-- decibel.hh:39-43 -/
def idecibelIeee (c : ExpConsts (Ieee F)) (dB : Ieee F) : M (Ieee F) := exp10Ieee c (dB / ((10 : ℤ) : Ieee F))

end Elementary
end DSP
