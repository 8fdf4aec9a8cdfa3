import Verif.Model.UnitCircle
import Verif.Model.Kahan
import Mathlib.Analysis.SpecialFunctions.Sqrt

/-!
# Models of window.hh and filter.hh

`int` arithmetic is checked for overflow, values of `TYPE` are exact real numbers and `exp`, `pow`, `sqrt` and `Const` are exact. The
trigonometric functions are those of `Verif.Model.UnitCircle` with the kernels as a parameter.
-/

namespace DSP

/-- `a % b` in `int` (rounded towards zero). -/
def irem (a b : ℤ) : M ℤ := if b = 0 then .error .divZero else .ok (a.tmod b)

namespace Win

/-- window.hh:17-20 -/
noncomputable def rect (n N : ℤ) : ℝ := if n ≥ 0 ∧ n < N then 1 else 0

/-- window.hh:23-29 -/
noncomputable def hann (K : Kernels) (n N : ℤ) : M ℝ := do
  let N1 ← int32 (N - 1)
  let c ← UnitCircle.cos K n N1
  return 0.5 * (1 - c)

/-- window.hh:32-38 -/
noncomputable def hamming (K : Kernels) (n N : ℤ) : M ℝ := do
  let N1 ← int32 (N - 1)
  let c ← UnitCircle.cos K n N1
  return 0.54 - 0.46 * c

/-- window.hh:41-52 -/
noncomputable def lanczos (K : Kernels) (n N : ℤ) : M ℝ := do
  let n2 ← int32 (2 * n)
  let N1 ← int32 (N - 1)
  if n2 = N1 then return 1
  else do
    let d ← int32 (n2 - N1)
    let e ← int32 (2 * N1)
    let s ← UnitCircle.sin K d e
    let q ← fdiv (Real.pi * d) N1
    fdiv s q

/-- window.hh:55-59,63-67 -/
noncomputable def blackman (K : Kernels) (a0 a1 a2 : ℝ) (n N : ℤ) : M ℝ := do
  let N1 ← int32 (N - 1)
  let c1 ← UnitCircle.cos K n N1
  let n2 ← int32 (2 * n)
  let m ← irem n2 N1
  let c2 ← UnitCircle.cos K m N1
  return a0 - a1 * c1 + a2 * c2

/-- The constructor `Blackman(a)`. window.hh:60 -/
noncomputable def blackmanA (K : Kernels) (a : ℝ) : ℤ → ℤ → M ℝ := blackman K ((1 - a) / 2) 0.5 (a / 2)

/-- The constructor `Blackman()`. window.hh:62 -/
noncomputable def blackmanExact (K : Kernels) : ℤ → ℤ → M ℝ := blackman K (7938 / 18608) (9240 / 18608) (1430 / 18608)

/-- window.hh:70-79 -/
noncomputable def gauss (o : ℝ) (n N : ℤ) : M ℝ := do
  let N1 ← int32 (N - 1)
  let q ← fdiv (n - N1 / 2) (o * N1 / 2)
  return Real.exp (-0.5 * q ^ (2 : ℝ))

/-- The loop in `i0`. window.hh:100-105 -/
noncomputable def i0Loop (x : ℝ) : List ℕ → Kahan ℝ → ℝ → M ℝ
  | [], sum, _ => .ok sum.get
  | n :: l, sum, val => do
    let q ← fdiv x ((2 * n : ℕ) : ℝ)
    let val := val * q
    let r := sum.same (val * val)
    if r.2 then .ok r.1.get else i0Loop x l r.1 val

/-- window.hh:93-106 -/
noncomputable def i0 (x : ℝ) : M ℝ := i0Loop x ((List.range 34).map (· + 1)) (Kahan.init 1) 1

/-- `sqrt` of a negative number, which would be NaN, is zero here; that happens only for `n` outside of `0..N-1`. window.hh:82-84,107-117 -/
noncomputable def kaiser (a : ℝ) (n N : ℤ) : M ℝ := do
  let n2 ← int32 (2 * n)
  let N1 ← int32 (N - 1)
  let q ← fdiv n2 N1
  let num ← i0 (Real.pi * a * Real.sqrt (1 - (q - 1) * (q - 1)))
  let den ← i0 (Real.pi * a)
  fdiv num den

end Win

namespace Fir

/-- `TYPE(n) - TYPE(0.5) * TYPE(N - 1)`. filter.hh:23,52,85,99 -/
noncomputable def centred (n N : ℤ) : M ℝ := do
  let N1 ← int32 (N - 1)
  return (n : ℝ) - 0.5 * N1

/-- filter.hh:16-26 -/
noncomputable def lowPass (cutoff : ℝ) (n N : ℤ) : M ℝ := do
  let f := 2 * cutoff
  let x ← centred n N
  return f * sinc (f * x)

/-- `2 * n - (N - 1)`. filter.hh:37,68 -/
def twoX (n N : ℤ) : M ℤ := do
  let n2 ← int32 (2 * n)
  let N1 ← int32 (N - 1)
  int32 (n2 - N1)

/-- `TYPE(2*num)/TYPE(den)`. filter.hh:34,65 -/
noncomputable def factor (num den : ℤ) : M ℝ := do
  let num2 ← int32 (2 * num)
  fdiv num2 den

/-- `fac * UnitCircle<TYPE>::sin((twox * num) % (2 * den), 2 * den) / (Const<TYPE>::HalfPi() * fac * TYPE(twox))`. filter.hh:38-40,71-72 -/
noncomputable def ratio (K : Kernels) (num den : ℤ) (fac : ℝ) (twox : ℤ) : M ℝ := do
  let p ← int32 (twox * num)
  let d ← int32 (2 * den)
  let m ← irem p d
  let s ← UnitCircle.sin K m d
  fdiv (fac * s) (Real.pi / 2 * fac * twox)

/-- filter.hh:29-42 -/
noncomputable def lowPass2 (K : Kernels) (num den : ℤ) (n N : ℤ) : M ℝ := do
  let fac ← factor num den
  let twox ← twoX n N
  if twox = 0 then return fac else ratio K num den fac twox

/-- filter.hh:45-57 -/
noncomputable def highPass (cutoff : ℝ) (n N : ℤ) : M ℝ := do
  let f := 2 * cutoff
  let x ← centred n N
  return sinc x - f * sinc (f * x)

/-- filter.hh:60-74 -/
noncomputable def highPass2 (K : Kernels) (num den : ℤ) (n N : ℤ) : M ℝ := do
  let fac ← factor num den
  let twox ← twoX n N
  if twox = 0 then return 1 - fac
  else do
    let m ← irem twox 4
    let s ← UnitCircle.sin K m 4
    let a ← fdiv s (Real.pi / 2 * twox)
    let b ← ratio K num den fac twox
    return a - b

/-- filter.hh:77-88 -/
noncomputable def bandPass (cutoff0 cutoff1 : ℝ) (n N : ℤ) : M ℝ := do
  let f0 := 2 * cutoff0
  let f1 := 2 * cutoff1
  let x ← centred n N
  return f1 * sinc (f1 * x) - f0 * sinc (f0 * x)

/-- `N&1` and `x&1` are the lowest bits in two's complement. filter.hh:91-103 -/
noncomputable def hilbert (n N : ℤ) : M ℝ :=
  if N % 2 = 1 then do
    let N1 ← int32 (N - 1)
    let x ← int32 (n - N1.tdiv 2)
    if x % 2 = 1 then fdiv 2 (Real.pi * x) else return 0
  else do
    let x ← centred n N
    fdiv 1 (Real.pi * x)

end Fir
end DSP
