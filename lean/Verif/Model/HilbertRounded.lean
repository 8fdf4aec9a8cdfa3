import Verif.Model.Hilbert
import Verif.Model.WindowRounded
import Verif.Model.FirRounded

/-!
# Models of hilbert.hh and cdc.hh in rounded arithmetic

`value_type` is any type with the arithmetic operations. Arrays hold anything before the constructors set them. `TAPS` is at least one.
-/

namespace DSP

namespace Hilbert.Rounded

/-- hilbert.hh:19-21 -/
structure State (V : Type) where
  real : List V
  imco : List V
  reco : V

section
variable {V : Type} [Zero V] [Add V] [Sub V] [Mul V] [Neg V] [Div V] [IntCast V] [BEq V]

/-- The constructor; `win` is the Kaiser window with its parameter, `real` and `imco` are the arrays before it. hilbert.hh:23-31 -/
def make (win : ℤ → ℤ → M V) (pi : V) (TAPS : ℕ) (real imco : List V) : M (State V) := do
  let reco ← win ((TAPS - 1) / 2 : ℕ) TAPS
  let imco ← (List.range ((TAPS - 1) / 4)).foldlM (fun imco (i : ℕ) => do
    let w ← win ((2 * i + 1) + (TAPS - 1) / 2 : ℕ) TAPS
    let v ← Fir.Rounded.fdiv (w * ((2 : ℤ) : V)) (((2 * i + 1 : ℤ) : V) * pi)
    wr imco i v) imco
  let real ← clear real TAPS
  return ⟨real, imco, reco⟩

/-- One term of the imaginary part. hilbert.hh:35,37 -/
def term (h : State V) (TAPS i : ℕ) : M V := do
  let c ← rd h.imco i
  let u ← rd h.real (((TAPS - 1) / 2 : ℕ) - (2 * i + 1 : ℕ))
  let v ← rd h.real (((TAPS - 1) / 2 : ℕ) + (2 * i + 1 : ℕ))
  return c * (u - v)

/-- The loop starts with one, the first term is outside of it. The result is the pair of real and imaginary part. hilbert.hh:32-42 -/
def call (TAPS : ℕ) (h : State V) (input : V) : M (State V × (V × V)) := do
  let r ← rd h.real ((TAPS - 1) / 2 : ℕ)
  let re := h.reco * r
  let im ← term h TAPS 0
  let im ← (List.range ((TAPS - 1) / 4 - 1)).foldlM (fun im (i : ℕ) => do
    let t ← term h TAPS (i + 1)
    return im + t) im
  let real ← shiftIn h.real TAPS input
  return ({ h with real }, (re, im))

end

/-- The constructor in floating point. hilbert.hh:23-31 -/
noncomputable def makeBinary (l p : ℕ) [NeZero p] (TAPS : ℕ) (a : Binary p) (real imco : List (Binary p)) : M (State (Binary p)) :=
  make (Win.Rounded.kaiserBinary l p a) (Win.Rounded.pi l p) TAPS real imco

end Hilbert.Rounded

namespace CDC.Rounded

/-- cdc.hh:20-24 -/
structure State (V : Type) where
  real : List V
  imag : List V
  imco : List V
  reco : V
  sign : Bool

section
variable {V : Type} [Zero V] [Add V] [Sub V] [Mul V] [Neg V] [Div V] [IntCast V] [BEq V]

/-- The constructor; `win` is the Kaiser window with its parameter, `hbf` the half band filter, `real`, `imag` and `imco` are the arrays before it. cdc.hh:26-37 -/
def make (win hbf : ℤ → ℤ → M V) (TAPS : ℕ) (real imag imco : List V) : M (State V) := do
  let w ← win ((TAPS - 1) / 2 : ℕ) TAPS
  let h ← hbf ((TAPS - 1) / 2 : ℕ) TAPS
  let imco ← (List.range ((TAPS - 1) / 4)).foldlM (fun imco (i : ℕ) => do
    let w ← win (2 * i + (TAPS - 1) / 2 + 1 : ℕ) TAPS
    let h ← hbf (2 * i + (TAPS - 1) / 2 + 1 : ℕ) TAPS
    wr imco i (w * h)) imco
  let real ← clear real ((TAPS - 1) / 4)
  let imag ← clear imag ((TAPS - 1) / 2)
  return ⟨real, imag, imco, w * h, false⟩

/-- One term of the imaginary part. cdc.hh:48,50 -/
def term (c : State V) (TAPS i : ℕ) : M V := do
  let k ← rd c.imco i
  let u ← rd c.imag (((TAPS - 1) / 4 : ℕ) - 1 - i)
  let v ← rd c.imag (((TAPS - 1) / 4 : ℕ) + i)
  return k * (u + v)

/-- The loop starts with one, the first term is outside of it. The result is the pair of real and imaginary part. cdc.hh:38-52 -/
def call (TAPS : ℕ) (c : State V) (input : V × V) : M (State V × (V × V)) := do
  let sign := !c.sign
  let r ← rd c.real 0
  let re := c.reco * r
  let real ← shiftIn c.real ((TAPS - 1) / 4) (if sign then input.2 else -input.2)
  let imag ← shiftIn c.imag ((TAPS - 1) / 2) (if sign then input.1 else -input.1)
  let c := { c with real, imag, sign }
  let im ← term c TAPS 0
  let im ← (List.range ((TAPS - 1) / 4 - 1)).foldlM (fun im (i : ℕ) => do
    let t ← term c TAPS (i + 1)
    return im + t) im
  return (c, (re, im))

end

/-- The constructor in floating point. cdc.hh:26-37 -/
noncomputable def makeBinary (l p : ℕ) [NeZero p] (TAPS : ℕ) (a : Binary p) (real imag imco : List (Binary p)) : M (State (Binary p)) :=
  make (Win.Rounded.kaiserBinary l p a) (Fir.Rounded.lowPass2 (Kernels.of (UnitCircle.Coeffs.binary l p)) (Fir.Rounded.halfPi l p) 1 4) TAPS real imag imco

end CDC.Rounded

end DSP
