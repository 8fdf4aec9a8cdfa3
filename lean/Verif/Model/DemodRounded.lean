import Verif.Model.Complex
import Verif.Model.Filters
import Verif.Model.FirRounded
import Verif.Model.Binary

/-!
# Models of fmd.hh, amd.hh and normalize.hh in rounded arithmetic

`value_type` is any type with the arithmetic operations, complex numbers are those of complex.hh. The functions `sqrt` and `atan2` and the constants are parameters. A division by zero is an error.
-/

namespace DSP

/-! ### amd.hh -/

/-- amd.hh:16 -/
structure AMDRounded (V : Type) where
  avg : V
  att : V
  dec : V
  lo : V
  hi : V
  idx : V

namespace AMDRounded

variable {V : Type} [Zero V] [One V] [Add V] [Sub V] [Mul V] [Div V] [BEq V] [LinearOrder V]

/-- `milli` stands for the literal 0.001. amd.hh:18-20 -/
def init (milli : V) : AMDRounded V := ⟨0, 0, 0, milli, 1, 1⟩

/-- amd.hh:21-24 -/
def index (f : AMDRounded V) (modidx : V) : AMDRounded V := { f with idx := modidx }

/-- amd.hh:25-31 -/
def agc (f : AMDRounded V) (attack decay low high : V) : AMDRounded V := { f with att := attack, dec := decay, lo := low, hi := high }

/-- amd.hh:32-39 -/
def call (sqrt : V → V) (f : AMDRounded V) (input : Cplx V) : M (AMDRounded V × V) := do
  let amp := input.abs sqrt
  let avg := lerp f.avg amp (if amp < f.avg then f.dec else f.att)
  let avg := min (max avg f.lo) f.hi
  let amp ← Fir.Rounded.fdiv amp avg
  let out ← Fir.Rounded.fdiv (amp * (1 + f.idx) - 1) f.idx
  return ({ f with avg }, out)

end AMDRounded

/-! ### normalize.hh -/

/-- normalize.hh:17-18 -/
structure NormalizeRounded (V : Type) where
  hpf : BlockDC V V
  lpf : EMA V V

namespace NormalizeRounded

variable {V : Type} [Zero V] [One V] [OfNat V 2] [Add V] [Sub V] [Mul V] [Div V] [BEq V] [IntCast V]

/-- `half` stands for the literal 0.5. normalize.hh:20-22, blockdc.hh:17-19, ema.hh:25-27 -/
def init (half : V) : NormalizeRounded V := ⟨⟨0, 0, 0, half⟩, EMA.init half 1⟩

/-- normalize.hh:23-27 -/
def samples (f : NormalizeRounded V) (s : ℤ) : NormalizeRounded V := ⟨f.hpf.samples s, f.lpf.samples s⟩

/-- normalize.hh:28-33 -/
def call (sqrt : V → V) (f : NormalizeRounded V) (input : V) : M (NormalizeRounded V × V) := do
  let (hpf, tmp) := f.hpf.call input
  let (lpf, y) := f.lpf.call (tmp * tmp)
  let amp := sqrt (2 * y)
  let out ← Fir.Rounded.fdiv tmp amp
  return (⟨hpf, lpf⟩, out)

end NormalizeRounded

/-- normalize.hh:39 -/
structure NormalizeIQRounded (V : Type) where
  ni : NormalizeRounded V
  nq : NormalizeRounded V

namespace NormalizeIQRounded

variable {V : Type} [Zero V] [One V] [OfNat V 2] [Add V] [Sub V] [Mul V] [Div V] [BEq V] [IntCast V]

/-- normalize.hh:39 -/
def init (half : V) : NormalizeIQRounded V := ⟨NormalizeRounded.init half, NormalizeRounded.init half⟩

/-- normalize.hh:41-45 -/
def samples (f : NormalizeIQRounded V) (s : ℤ) : NormalizeIQRounded V := ⟨f.ni.samples s, f.nq.samples s⟩

/-- normalize.hh:46-49 (the language leaves open which of the two arguments is evaluated first; they share no state) -/
def call (sqrt : V → V) (f : NormalizeIQRounded V) (iq : Cplx V) : M (NormalizeIQRounded V × Cplx V) := do
  let (ni, re) ← f.ni.call sqrt iq.re
  let (nq, im) ← f.nq.call sqrt iq.im
  return (⟨ni, nq⟩, ⟨re, im⟩)

end NormalizeIQRounded

/-! ### fmd.hh -/

namespace FMDRounded

variable {V : Type} [Zero V] [One V] [Add V] [Sub V] [Mul V] [Neg V] [Div V] [BEq V]

/-- The scale of FMD1 to FMD4 (`pi` stands for `Const::Pi()`) and of FMD5 (`pi` stands for `Const::TwoPi()`). fmd.hh:30-33,55-58,78-81,101-104,127-130 -/
def scale (pi bw : V) : M V := Fir.Rounded.fdiv 1 (bw * pi)

/-- fmd.hh:18-25 -/
def wrapAround [LT V] [DecidableLT V] (pi twoPi angle : V) : V :=
  if angle < -pi then angle + twoPi
  else if angle > pi then angle - twoPi
  else angle

/-- `FMD1::operator()`: the new phase and the output. fmd.hh:34-41 -/
def call1 [LT V] [DecidableLT V] (atan2 : V → V → V) (pi twoPi scale prev : V) (input : Cplx V) : V × V :=
  let phase := input.arg atan2
  let delta := phase - prev
  let delta := wrapAround pi twoPi delta
  (phase, scale * delta)

/-- `a / b` of complex.hh with its divisors checked. complex.hh:117-122 -/
def cdiv (a b : Cplx V) : M (Cplx V) := do
  let re ← Fir.Rounded.fdiv (a.re * b.re + a.im * b.im) (b.re * b.re + b.im * b.im)
  let im ← Fir.Rounded.fdiv (a.im * b.re - a.re * b.im) (b.re * b.re + b.im * b.im)
  return ⟨re, im⟩

/-- `FMD2::operator()`; the input is the next `prev`. fmd.hh:59-64 -/
def call2 (atan2 : V → V → V) (scale : V) (prev input : Cplx V) : M (Cplx V × V) := do
  let q ← cdiv input prev
  let phase := q.arg atan2
  return (input, scale * phase)

/-- `FMD3::operator()`. fmd.hh:82-87 -/
def call3 (atan2 : V → V → V) (scale : V) (prev input : Cplx V) : M (Cplx V × V) := do
  let phase := (input * prev.conj).arg atan2
  return (input, scale * phase)

/-- `FMD4::operator()`. fmd.hh:105-113 -/
def call4 (scale : V) (prev input : Cplx V) : M (Cplx V × V) := do
  let phase := prev.re * input.im - prev.im * input.re
  let phase ← Fir.Rounded.fdiv phase input.norm
  return (input, scale * phase)

/-- `FMD5::operator()`: the new `prev1` and `prev2` and the output. fmd.hh:131-140 -/
def call5 (scale : V) (prev : Cplx V × Cplx V) (input : Cplx V) : M ((Cplx V × Cplx V) × V) := do
  let diff := input - prev.2
  let phase := prev.1.re * diff.im - prev.1.im * diff.re
  let phase ← Fir.Rounded.fdiv phase prev.1.norm
  return ((input, prev.1), scale * phase)

/-- `Const::Pi()` as a number of `p` bits, where `long double` has `l`. const.hh:31-35 -/
def constPi (l p : ℕ) [NeZero p] : Binary p := Binary.literal l p 3.141592653589793238462643383279502884197169399375105820974944592307

/-- `Const::TwoPi()` as a number of `p` bits, where `long double` has `l`. const.hh:36-40 -/
def constTwoPi (l p : ℕ) [NeZero p] : Binary p := Binary.literal l p 6.283185307179586476925286766559005768394338798750211641949889184615

end FMDRounded
end DSP
