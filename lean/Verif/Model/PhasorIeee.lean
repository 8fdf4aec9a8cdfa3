import Verif.Model.DemodIeee
import Verif.Model.PhasorRounded

/-!
# Model of phasor.hh with all special values

Dividing by zero gives an infinity or NaN. The functions `cos` and `sin` of the standard library are not modelled: what `omega(v)` and `freq(v)` store is a parameter.
-/

namespace DSP
namespace NCO

variable {F : Format}

/-- `operator()`. phasor.hh:41-47, complex.hh:38-41,46-49,136-140 -/
noncomputable def callIeee (q : NCO (Ieee F)) : NCO (Ieee F) × Cplx (Ieee F) :=
  let tmp := q.prev
  let prev := q.prev.mulAssign q.delta
  let prev := prev.sdivAssign (prev.abs Ieee.sqrt)
  ({ q with prev }, tmp)

/-- What can be done with the oscillator. phasor.hh:23-47 -/
inductive Op (F : Format) where
  /-- `omega` and `freq`: the cosine and the sine that are stored. phasor.hh:23-36 -/
  | tune (cos sin : Ieee F)
  /-- phasor.hh:37-40 -/
  | reset
  /-- phasor.hh:41-47 -/
  | call

/-- One operation, with what it returns. -/
noncomputable def step (q : NCO (Ieee F)) : Op F → NCO (Ieee F) × Option (Cplx (Ieee F))
  | .tune c s => ({ q with delta := ⟨c, s⟩ }, none)
  | .reset => ({ q with prev := ⟨1, 0⟩ }, none)
  | .call => (q.callIeee.1, some q.callIeee.2)

/-- The outputs of a sequence of operations. -/
noncomputable def play (q : NCO (Ieee F)) : List (Op F) → List (Cplx (Ieee F))
  | [] => []
  | o :: os => (q.step o).2.toList ++ play (q.step o).1 os

/-- The output of the `k`-th call of a row. -/
noncomputable def outputIeee (q : NCO (Ieee F)) : ℕ → Cplx (Ieee F)
  | 0 => q.callIeee.2
  | k + 1 => outputIeee q.callIeee.1 k

end NCO
end DSP
