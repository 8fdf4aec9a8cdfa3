import Verif.Model.Window
import Verif.Model.BinaryOrder

/-!
# Models of filter.hh in rounded arithmetic

The `int` arithmetic is checked for overflow. A division by zero is an error.
-/

namespace DSP.Fir.Rounded

section
variable {V : Type} [Zero V] [Add V] [Sub V] [Mul V] [Neg V] [Div V] [IntCast V] [BEq V]

def fdiv (a b : V) : M V := M.ite (b == 0) (.error .divZero) (return a / b)

/-- `2 * n - (N - 1)`. filter.hh:37,68 -/
def twoX (n N : ℤ) : M ℤ := do
  let n2 ← int32 (2 * n)
  let N1 ← int32 (N - 1)
  int32 (n2 - N1)

/-- `TYPE(2*num)/TYPE(den)`. filter.hh:34,65 -/
def factor (num den : ℤ) : M V := do
  let num2 ← int32 (2 * num)
  fdiv (num2 : V) (den : V)

/-- `fac * UnitCircle<TYPE>::sin((twox * num) % (2 * den), 2 * den) / (Const<TYPE>::HalfPi() * fac * TYPE(twox))`. filter.hh:38-40,71-72 -/
def ratio (K : Kernels V) (halfPi : V) (num den : ℤ) (fac : V) (twox : ℤ) : M V := do
  let p ← int32 (twox * num)
  let d ← int32 (2 * den)
  let m ← irem p d
  let s ← UnitCircle.sin K m d
  fdiv (fac * s) (halfPi * fac * (twox : V))

/-- filter.hh:29-42 -/
def lowPass2 (K : Kernels V) (halfPi : V) (num den : ℤ) (n N : ℤ) : M V := do
  let fac ← factor num den
  let twox ← twoX n N
  M.ite (twox == 0) (return fac) (ratio K halfPi num den fac twox)

/-- filter.hh:60-74 -/
def highPass2 (K : Kernels V) (halfPi : V) (num den : ℤ) (n N : ℤ) : M V := do
  let fac ← factor num den
  let twox ← twoX n N
  M.ite (twox == 0) (return ((1 : ℤ) : V) - fac) do
    let m ← irem twox 4
    let s ← UnitCircle.sin K m 4
    let a ← fdiv s (halfPi * (twox : V))
    let b ← ratio K halfPi num den fac twox
    return a - b

/-- `TYPE(n) - TYPE(0.5) * TYPE(N - 1)`; `half` is the constant. filter.hh:23,52,85,99 -/
def centred (half : V) (n N : ℤ) : M V := do
  let N1 ← int32 (N - 1)
  return (n : V) - half * (N1 : V)

/-- The function `sin` of the C library is a parameter. utils.hh:37-41 -/
def sinc (sin : V → V) (pi x : V) : M V := M.ite (x == 0) (return ((1 : ℤ) : V)) (fdiv (sin (pi * x)) (pi * x))

/-- filter.hh:16-26 -/
def lowPass (sin : V → V) (pi half cutoff : V) (n N : ℤ) : M V := do
  let f := ((2 : ℤ) : V) * cutoff
  let x ← centred half n N
  let s ← sinc sin pi (f * x)
  return f * s

/-- filter.hh:45-57 -/
def highPass (sin : V → V) (pi half cutoff : V) (n N : ℤ) : M V := do
  let f := ((2 : ℤ) : V) * cutoff
  let x ← centred half n N
  let a ← sinc sin pi x
  let s ← sinc sin pi (f * x)
  return a - f * s

/-- filter.hh:77-88 -/
def bandPass (sin : V → V) (pi half cutoff0 cutoff1 : V) (n N : ℤ) : M V := do
  let f0 := ((2 : ℤ) : V) * cutoff0
  let f1 := ((2 : ℤ) : V) * cutoff1
  let x ← centred half n N
  let a ← sinc sin pi (f1 * x)
  let b ← sinc sin pi (f0 * x)
  return f1 * a - f0 * b

/-- `N&1` and `x&1` are the lowest bits in two's complement. filter.hh:91-103 -/
def hilbert (pi half : V) (n N : ℤ) : M V :=
  M.ite (N % 2 == 1)
    (do
      let N1 ← int32 (N - 1)
      let x ← int32 (n - N1.tdiv 2)
      M.ite (x % 2 == 1) (fdiv ((2 : ℤ) : V) (pi * (x : V))) (return 0))
    (do
      let x ← centred half n N
      fdiv ((1 : ℤ) : V) (pi * x))

end

/-- `Const::HalfPi()` as a number of `p` bits, where `long double` has `l`. const.hh:26-30 -/
def halfPi (l p : ℕ) [NeZero p] : Binary p := Binary.literal l p 1.570796326794896619231321691639751442098584699687552910487472296153

end DSP.Fir.Rounded
