import Verif.Model.FirRounded

/-!
# Model of coeffs.hh in rounded arithmetic

`TYPE` is any type with the arithmetic operations. A division by zero is an error.
-/

namespace DSP.Coeffs.Rounded

section
variable {V : Type} [Zero V] [Add V] [Sub V] [Mul V] [Neg V] [Div V] [IntCast V] [BEq V]

/-- `w` is the array, `TAPS` its length; the function `abs` is a parameter. coeffs.hh:32-39 -/
def normalize (abs : V → V) (TAPS : ℕ) (w : List V) (divisor : V) : M (List V) := do
  let sum ← (List.range TAPS).foldlM (fun sum (n : ℕ) => do
    let v ← rd w n
    return sum + v) ((0 : ℤ) : V)
  (List.range TAPS).foldlM (fun w (n : ℕ) => do
    let v ← rd w n
    let v ← Fir.Rounded.fdiv v (divisor * abs sum)
    wr w n v) w

/-- The array before the constructor ran holds anything. coeffs.hh:16-23 -/
def make (abs : V → V) (TAPS : ℕ) (NORMALIZE : Bool) (func : ℤ → ℤ → M V) (w : List V) : M (List V) := do
  let w ← (List.range TAPS).foldlM (fun w (n : ℕ) => do
    let v ← func n TAPS
    wr w n v) w
  if NORMALIZE then normalize abs TAPS w ((1 : ℤ) : V) else return w

/-- coeffs.hh:24-31 -/
def make2 (abs : V → V) (TAPS : ℕ) (NORMALIZE : Bool) (func0 func1 : ℤ → ℤ → M V) (w : List V) : M (List V) := do
  let w ← (List.range TAPS).foldlM (fun w (n : ℕ) => do
    let a ← func0 n TAPS
    let b ← func1 n TAPS
    wr w n (a * b)) w
  if NORMALIZE then normalize abs TAPS w ((1 : ℤ) : V) else return w

end

/-- The magnitude of a number. -/
def abs {p : ℕ} [NeZero p] (a : Binary p) : Binary p := if a < 0 then -a else a

end DSP.Coeffs.Rounded
