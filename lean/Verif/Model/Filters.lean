import Verif.Model.Endless
import Mathlib.Algebra.Field.Basic
import Mathlib.Algebra.Module.Defs
import Mathlib.Data.List.Defs

/-!
# Models of ema.hh, blockdc.hh, biquad.hh and parts of utils.hh

Samples (`TYPE`) are vectors `E` over values `K` (`VALUE`), e.g. complex samples and real coefficients; `v * x` is `v • x`. The filters only need the operations themselves, so
they can be used both in exact (a module over a field) and in rounded arithmetic. The functions `UnitCircle::cos`, `UnitCircle::sin` and `sqrt` are
parameters.
-/

namespace DSP

variable {K E : Type} [Field K] [AddCommGroup E] [Module K E]

/-- utils.hh:19-23 -/
def lerp {K E : Type} [One K] [Sub K] [Add E] [SMul K E] (a b : E) (x : K) : E := (1 - x) • a + x • b

/-! ### ema.hh -/

/-- ema.hh:14-18 -/
structure EMA (K E : Type) where
  prev : E
  alpha : K

namespace EMA

/-- The constructor; the defaults are `prev = 0` and `alpha = 1`. ema.hh:25-27 -/
def init {K E : Type} (prev : E) (alpha : K) : EMA K E := ⟨prev, alpha⟩

/-- ema.hh:19-23 -/
def cutoffAlpha {K : Type} [One K] [OfNat K 3] [OfNat K 4] [Add K] [Sub K] [Mul K] (cos : Int → Int → K) (sqrt : K → K) (n N : Int) : K :=
  let x := cos n N
  x - 1 + sqrt (x * (x - 4) + 3)

/-- ema.hh:28-31 -/
def cutoff {K E : Type} [One K] [OfNat K 3] [OfNat K 4] [Add K] [Sub K] [Mul K] (cos : Int → Int → K) (sqrt : K → K) (e : EMA K E) (n N : Int) : EMA K E := { e with alpha := cutoffAlpha cos sqrt n N }

/-- ema.hh:32-35 -/
def samples {K E : Type} [One K] [Div K] [IntCast K] (e : EMA K E) (s : Int) : EMA K E := { e with alpha := 1 / (s : K) }

/-- `operator()`. ema.hh:36-39 -/
def call {K E : Type} [One K] [Sub K] [Add E] [SMul K E] (e : EMA K E) (input : E) : EMA K E × E :=
  let y := lerp e.prev input e.alpha
  ({ e with prev := y }, y)

end EMA

/-- ema.hh:42-46 -/
structure EMACascade (K E : Type) where
  prev : List E
  alpha : K

namespace EMACascade

/-- The constructor. ema.hh:74-78 -/
def init (ORDER : Nat) : EMACascade K E := ⟨List.replicate ORDER 0, 1⟩

/-- `nearest` stands for `nearbyint(n / cascade_factor(ORDER))`. ema.hh:79-82 -/
def cutoff {K E : Type} [One K] [OfNat K 3] [OfNat K 4] [Add K] [Sub K] [Mul K] (cos : Int → Int → K) (sqrt : K → K) (nearest : Int → Int) (e : EMACascade K E) (n N : Int) : EMACascade K E :=
  { e with alpha := EMA.cutoffAlpha cos sqrt (nearest n) N }

/-- The loop of `operator()`: new stages and the value behind the last one. ema.hh:85-86 -/
def stages {K E : Type} [One K] [Sub K] [Add E] [SMul K E] (alpha : K) : List E → E → List E × E
  | [], input => ([], input)
  | p :: ps, input =>
    let y := lerp p input alpha
    let (ps, out) := stages alpha ps y
    (y :: ps, out)

/-- `operator()`. ema.hh:83-88 -/
def call {K E : Type} [One K] [Sub K] [Add E] [SMul K E] (e : EMACascade K E) (input : E) : EMACascade K E × E :=
  let (prev, out) := stages e.alpha e.prev input
  ({ e with prev }, out)

end EMACascade

/-! ### blockdc.hh -/

/-- blockdc.hh:11-15 -/
structure BlockDC (K E : Type) where
  x1 : E
  y1 : E
  a : K
  b : K

namespace BlockDC

/-- The constructor. blockdc.hh:17-19 -/
def init : BlockDC K E := ⟨0, 0, 0, 1 / 2⟩

/-- blockdc.hh:20-24 -/
def samples {K E : Type} [One K] [OfNat K 2] [Add K] [Div K] [IntCast K] (f : BlockDC K E) (s : Int) : BlockDC K E :=
  let a : K := ((s - 1 : Int) : K) / (s : K)
  { f with a, b := (1 + a) / 2 }

/-- `operator()`. blockdc.hh:25-30 -/
def call {K E : Type} [Add E] [Sub E] [SMul K E] (f : BlockDC K E) (x0 : E) : BlockDC K E × E :=
  let y0 := f.b • (x0 - f.x1) + f.a • f.y1
  ({ f with x1 := x0, y1 := y0 }, y0)

end BlockDC

/-! ### biquad.hh -/

/-- biquad.hh:15-19 -/
structure Biquad (K E : Type) where
  x1 : E
  x2 : E
  y1 : E
  y2 : E
  b0a0 : K
  b1a0 : K
  b2a0 : K
  a1a0 : K
  a2a0 : K

namespace Biquad

/-- The constructor. biquad.hh:21-24 -/
def init : Biquad K E := ⟨0, 0, 0, 0, 1, 0, 0, 0, 0⟩

/-- The last five lines of all designs, e.g. biquad.hh:35-39. -/
def set {K E : Type} [Div K] (f : Biquad K E) (b0 b1 b2 a0 a1 a2 : K) : Biquad K E :=
  { f with b0a0 := b0 / a0, b1a0 := b1 / a0, b2a0 := b2 / a0, a1a0 := a1 / a0, a2a0 := a2 / a0 }

/-- biquad.hh:25-40 -/
def lowpass {K E : Type} [One K] [OfNat K 2] [Neg K] [Add K] [Sub K] [Mul K] [Div K] (sin cos : Int → Int → K) (f : Biquad K E) (n N : Int) (Q : K) : Biquad K E :=
  let alpha := sin n N / (2 * Q)
  let cn := cos n N
  f.set ((1 - cn) / 2) (1 - cn) ((1 - cn) / 2) (1 + alpha) (-2 * cn) (1 - alpha)

/-- biquad.hh:41-56 -/
def highpass {K E : Type} [One K] [OfNat K 2] [Neg K] [Add K] [Sub K] [Mul K] [Div K] (sin cos : Int → Int → K) (f : Biquad K E) (n N : Int) (Q : K) : Biquad K E :=
  let alpha := sin n N / (2 * Q)
  let cn := cos n N
  f.set ((1 + cn) / 2) (-(1 + cn)) ((1 + cn) / 2) (1 + alpha) (-2 * cn) (1 - alpha)

/-- `idecibel` is a parameter. biquad.hh:57-72 -/
def notch {K E : Type} [One K] [OfNat K 2] [Neg K] [Add K] [Sub K] [Mul K] [Div K] (sin cos : Int → Int → K) (idecibel : K → K) (f : Biquad K E) (n N : Int) (QdB : K) : Biquad K E :=
  let alpha := sin n N / (2 * idecibel QdB)
  let cn := cos n N
  f.set 1 (-2 * cn) 1 (1 + alpha) (-2 * cn) (1 - alpha)

/-- biquad.hh:73-88 -/
def bandpass {K E : Type} [Zero K] [One K] [OfNat K 2] [Neg K] [Add K] [Sub K] [Mul K] [Div K] (sin cos : Int → Int → K) (idecibel : K → K) (f : Biquad K E) (n N : Int) (QdB : K) : Biquad K E :=
  let alpha := sin n N / (2 * idecibel QdB)
  let cn := cos n N
  f.set alpha 0 (-alpha) (1 + alpha) (-2 * cn) (1 - alpha)

/-- biquad.hh:89-104 -/
def allpass {K E : Type} [One K] [OfNat K 2] [Neg K] [Add K] [Sub K] [Mul K] [Div K] (sin cos : Int → Int → K) (idecibel : K → K) (f : Biquad K E) (n N : Int) (QdB : K) : Biquad K E :=
  let alpha := sin n N / (2 * idecibel QdB)
  let cn := cos n N
  f.set (1 - alpha) (-2 * cn) (1 + alpha) (1 + alpha) (-2 * cn) (1 - alpha)

/-- `operator()`. biquad.hh:105-112 -/
def call {K E : Type} [Add E] [Sub E] [SMul K E] (f : Biquad K E) (x0 : E) : Biquad K E × E :=
  let y0 := f.b0a0 • x0 + f.b1a0 • f.x1 + f.b2a0 • f.x2 - f.a1a0 • f.y1 - f.a2a0 • f.y2
  ({ f with x1 := x0, x2 := f.x1, y1 := y0, y2 := f.y1 }, y0)

end Biquad

/-- `BiquadCascade`: its array of filters. biquad.hh:115-119 -/
abbrev BiquadCascade (K E : Type) := List (Biquad K E)

namespace BiquadCascade

/-- biquad.hh:118-119 -/
def init (NUM : Nat) : BiquadCascade K E := List.replicate NUM Biquad.init

/-- biquad.hh:121-126 -/
def lowpass {K E : Type} [One K] [OfNat K 2] [Neg K] [Add K] [Sub K] [Mul K] [Div K] (sin cos : Int → Int → K) (c : BiquadCascade K E) (n N : Int) : BiquadCascade K E :=
  c.mapIdx fun i f => f.lowpass sin cos n N (1 / (2 * cos (2 * i + 1) (4 * (2 * c.length))))

/-- biquad.hh:127-132 -/
def highpass {K E : Type} [One K] [OfNat K 2] [Neg K] [Add K] [Sub K] [Mul K] [Div K] (sin cos : Int → Int → K) (c : BiquadCascade K E) (n N : Int) : BiquadCascade K E :=
  c.mapIdx fun i f => f.highpass sin cos n N (1 / (2 * cos (2 * i + 1) (4 * (2 * c.length))))

/-- `operator()`. biquad.hh:133-138 -/
def call {K E : Type} [Add E] [Sub E] [SMul K E] : BiquadCascade K E → E → BiquadCascade K E × E
  | [], input => ([], input)
  | f :: fs, input =>
    let (f, y) := f.call input
    let (fs, out) := call fs y
    (f :: fs, out)

end BiquadCascade
end DSP
