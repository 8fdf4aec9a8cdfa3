import Verif.Model.UnitCircle
import Verif.Model.Kahan
import Verif.Model.Window
import Verif.Model.BinarySqrt
import Verif.Model.BinaryOrder

/-!
# Models of window.hh in rounded arithmetic
-/

namespace DSP.Win.Rounded

section
variable {V : Type} [Zero V] [Add V] [Sub V] [Mul V] [Neg V] [Div V] [IntCast V] [BEq V]

/-- The loop in `i0`. window.hh:100-105 -/
def i0Loop (x : V) : List ℕ → Kahan V → V → V
  | [], sum, _ => sum.get
  | n :: l, sum, val =>
    let val := val * (x / ((2 * n : ℕ) : ℤ))
    let r := sum.same (val * val)
    if r.2 then r.1.get else i0Loop x l r.1 val

/-- `one` is the constant `1.0`. window.hh:93-106 -/
def i0 (one x : V) : V := i0Loop x ((List.range 34).map (· + 1)) (Kahan.init one) one

/-- `sqr(TYPE(2 * n) / TYPE(N - 1) - TYPE(1))`. The products and differences of the `int` arguments are checked for overflow, and a division by zero is an error. window.hh:107-110,115 -/
def offset2 (one : V) (n N : ℤ) : M V := do
  let n2 ← int32 (2 * n)
  let N1 ← int32 (N - 1)
  M.ite (N1 == 0) (.error .divZero) do
    let r := (n2 : V) / (N1 : V) - one
    return r * r

/-- `sqrt` and `Const::Pi()` are parameters. window.hh:82-84,107-117 -/
def kaiser (sqrt : V → V) (pi one a : V) (n N : ℤ) : M V := do
  let s ← offset2 one n N
  return i0 one (pi * a * sqrt (one - s)) / i0 one (pi * a)

/-- window.hh:23-29 -/
def hann (K : Kernels V) (one half : V) (n N : ℤ) : M V := do
  let N1 ← int32 (N - 1)
  let c ← UnitCircle.cos K n N1
  return half * (one - c)

/-- `a` and `b` are the constants `0.54` and `0.46`. window.hh:32-38 -/
def hamming (K : Kernels V) (a b : V) (n N : ℤ) : M V := do
  let N1 ← int32 (N - 1)
  let c ← UnitCircle.cos K n N1
  return a - b * c

/-- A division by zero is an error. window.hh:41-52 -/
def lanczos (K : Kernels V) (pi one : V) (n N : ℤ) : M V := do
  let n2 ← int32 (2 * n)
  let N1 ← int32 (N - 1)
  M.ite (n2 == N1) (return one) do
    let d ← int32 (n2 - N1)
    let e ← int32 (2 * N1)
    let s ← UnitCircle.sin K d e
    M.ite (N1 == 0) (.error .divZero) do
      let q := pi * (d : V) / (N1 : V)
      M.ite (q == 0) (.error .divZero) (return s / q)

/-- window.hh:55-59,63-67 -/
def blackman (K : Kernels V) (a0 a1 a2 : V) (n N : ℤ) : M V := do
  let N1 ← int32 (N - 1)
  let c1 ← UnitCircle.cos K n N1
  let n2 ← int32 (2 * n)
  let m ← irem n2 N1
  let c2 ← UnitCircle.cos K m N1
  return a0 - a1 * c1 + a2 * c2

/-- The functions `exp` and `pow` of the C library are parameters; `half` is the constant `0.5`. A division by zero is an error. window.hh:70-79 -/
def gauss (exp : V → V) (pow : V → V → V) (half o : V) (n N : ℤ) : M V := do
  let N1 ← int32 (N - 1)
  let d := o * (N1 : V) / ((2 : ℤ) : V)
  M.ite (d == 0) (.error .divZero) (return exp (-half * pow (((n : V) - (N1 : V) / ((2 : ℤ) : V)) / d) ((2 : ℤ) : V)))

/-- The constructor `Blackman(a)`. window.hh:60 -/
def blackmanA (K : Kernels V) (one half a : V) : ℤ → ℤ → M V := blackman K ((one - a) / ((2 : ℤ) : V)) half (a / ((2 : ℤ) : V))

end

/-- `Const::Pi()` as a number of `p` bits, where `long double` has `l`. const.hh:31-35 -/
def pi (l p : ℕ) [NeZero p] : Binary p := Binary.literal l p 3.141592653589793238462643383279502884197169399375105820974944592307

/-- The Kaiser window in floating point. window.hh:82-117 -/
noncomputable def kaiserBinary (l p : ℕ) [NeZero p] (a : Binary p) (n N : ℤ) : M (Binary p) := kaiser Binary.sqrt (pi l p) (Binary.literal l p 1) a n N

end DSP.Win.Rounded
