import Verif.Model.Estimators
import Mathlib.Data.Int.Cast.Defs

/-! Model of `/repo/regression.hh` for any type with the arithmetic operations, exact or rounded. Division by zero is the total division of that type: a theorem that
relies on a quotient has to assume that the divisor is not zero. -/

namespace DSP.Regression
variable {α : Type} [Zero α] [Add α] [Sub α] [Mul α] [Div α] [IntCast α] [OfNat α 2]

/-- The loop regression.hh:20-23, from index `i`, `n` iterations left. -/
def avgLoop (x y : List α) : Nat → Int → α → α → M (α × α)
  | 0, _, avgX, avgY => return (avgX, avgY)
  | n + 1, i, avgX, avgY => do
    let xi ← rd x i
    let yi ← rd y i
    avgLoop x y n (i + 1) (avgX + xi) (avgY + yi)

/-- The loop regression.hh:27-30. -/
def varLoop (x y : List α) (avgX avgY : α) : Nat → Int → α → α → M (α × α)
  | 0, _, varX, covXY => return (varX, covXY)
  | n + 1, i, varX, covXY => do
    let xi ← rd x i
    let yi ← rd y i
    varLoop x y avgX avgY n (i + 1) (varX + (xi - avgX) * (xi - avgX)) (covXY + (xi - avgX) * (yi - avgY))

/-- regression.hh:31-33 and 48-50. -/
def finish (avgX avgY varX covXY : α) : Line α :=
  let xint := avgX - avgY * varX / covXY
  let slope := covXY / varX
  let yint := avgY - slope * avgX
  { xint := xint, yint := yint, slope := slope }

/-- `SimpleLinearRegression(x, y, LEN)`, regression.hh:17-34. -/
def general (x y : List α) (LEN : Int) : M (Line α) := do
  let (avgX, avgY) ← avgLoop x y LEN.toNat 0 0 0
  let avgX := avgX / (LEN : α)
  let avgY := avgY / (LEN : α)
  let (varX, covXY) ← varLoop x y avgX avgY LEN.toNat 0 0 0
  return finish avgX avgY varX covXY

/-- The loop regression.hh:40-41. -/
def avgLoop' (y : List α) : Nat → Int → α → M α
  | 0, _, avgY => return avgY
  | n + 1, i, avgY => do
    let yi ← rd y i
    avgLoop' y n (i + 1) (avgY + yi)

/-- The loop regression.hh:44-47. -/
def varLoop' (y : List α) (dx midL avgY : α) : Nat → Int → α → α → M (α × α)
  | 0, _, varX, covXY => return (varX, covXY)
  | n + 1, i, varX, covXY => do
    let yi ← rd y i
    varLoop' y dx midL avgY n (i + 1) (varX + (dx * ((i : α) - midL)) * (dx * ((i : α) - midL)))
      (covXY + (dx * ((i : α) - midL)) * (yi - avgY))

/-- `SimpleLinearRegression(y, l, x0, dx)`, regression.hh:35-51. -/
def uniform (y : List α) (l : Int) (x0 dx : α) : M (Line α) := do
  let midL := ((l - 1 : Int) : α) / 2
  let avgX := x0 + dx * midL
  let avgY ← avgLoop' y l.toNat 0 0
  let avgY := avgY / (l : α)
  let (varX, covXY) ← varLoop' y dx midL avgY l.toNat 0 0 0
  return finish avgX avgY varX covXY

end DSP.Regression
