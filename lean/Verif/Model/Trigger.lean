import Verif.Model.Base

/-! Model of `/repo/trigger.hh`. -/

namespace DSP

/-- `class SchmittTrigger`, trigger.hh:11-15. -/
structure SchmittTrigger (α : Type) where
  low : α
  high : α
  previous : Bool
  deriving DecidableEq, Repr

namespace SchmittTrigger
variable {α : Type}

/-- `SchmittTrigger(threshold, previous)`, trigger.hh:17-19. -/
def init1 [Neg α] (threshold : α) (previous : Bool) : SchmittTrigger α :=
  { low := -threshold, high := threshold, previous := previous }

/-- `SchmittTrigger(low, high, previous)`, trigger.hh:20-22. -/
def init2 (low high : α) (previous : Bool) : SchmittTrigger α := { low := low, high := high, previous := previous }

/-- `operator() (TYPE input)`, trigger.hh:23-33. -/
def call [LT α] [DecidableRel (α := α) (· < ·)] (t : SchmittTrigger α) (input : α) : SchmittTrigger α × Bool :=
  let previous :=
    if t.previous then
      if input < t.low then false else t.previous
    else
      if t.high < input then true else t.previous
  ({ t with previous := previous }, previous)

end SchmittTrigger

/-- `FallingEdgeTrigger::operator()`, trigger.hh:43-48; the state is `previous`. -/
def fallingEdge (previous input : Bool) : Bool × Bool := (input, previous && !input)

/-- `RisingEdgeTrigger::operator()`, trigger.hh:58-63; the state is `previous`. -/
def risingEdge (previous input : Bool) : Bool × Bool := (input, !previous && input)

end DSP
