import Verif.Model.Complex
import Verif.Model.UnitCircle

/-!
# Model of phasor.hh on machine numbers

`TYPE` is the class of complex.hh over any type of values. A division by zero is a fault.
-/

namespace DSP

/-- phasor.hh:18 -/
structure NCO (V : Type) where
  prev : Cplx V
  delta : Cplx V

namespace NCO

variable {V : Type} [Zero V] [Add V] [Sub V] [Mul V] [IntCast V] [Neg V] [Div V] [DecidableEq V]

/-- phasor.hh:20-22 -/
def init : NCO V := ⟨⟨((1 : ℤ) : V), 0⟩, ⟨((1 : ℤ) : V), 0⟩⟩

/-- phasor.hh:23-28 -/
def omegaInt (K : Kernels V) (q : NCO V) (n N : ℤ) : M (NCO V) := do
  let c ← UnitCircle.cos K n N
  let s ← UnitCircle.sin K n N
  return { q with delta := ⟨c, s⟩ }

/-- `operator()`. phasor.hh:41-47, complex.hh:38-41,46-49,136-140 -/
def call (sqrt : V → V) (q : NCO V) : M (NCO V × Cplx V) :=
  let tmp := q.prev
  let prev := q.prev.mulAssign q.delta
  let a := prev.abs sqrt
  if a = 0 then .error .divZero else .ok ({ q with prev := prev.sdivAssign a }, tmp)

/-- A number of calls in a row, with all outputs. -/
def calls (sqrt : V → V) : ℕ → NCO V → M (List (Cplx V))
  | 0, _ => .ok []
  | n + 1, q => do
    let (q, y) ← call sqrt q
    let ys ← calls sqrt n q
    return y :: ys

end NCO
end DSP
