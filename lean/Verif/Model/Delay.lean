import Verif.Model.Base

/-! Model of `/repo/delay.hh`. `NUM` is the template parameter, `TYPE` is `α`. -/

namespace DSP

/-- `class Delay`, delay.hh:12-15. -/
structure Delay (α : Type _) where
  num : Nat
  buf : List α
  pos : Int

namespace Delay
variable {α : Type _}

/-- `Delay(TYPE init)`, delay.hh:17-21. The loop sets every cell of `buf`. -/
def init (NUM : Nat) (x : α) : Delay α := { num := NUM, buf := List.replicate NUM x, pos := 0 }

/-- `operator () (TYPE input)`, delay.hh:22-29. -/
def call (d : Delay α) (input : α) : M (Delay α × α) := do
  let tmp ← rd d.buf d.pos
  let buf ← wr d.buf d.pos input
  let pos := d.pos + 1
  let pos := if pos ≥ (d.num : Int) then 0 else pos
  return ({ d with buf := buf, pos := pos }, tmp)

end Delay
end DSP
