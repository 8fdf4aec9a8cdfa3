import Verif.Model.Base
import Verif.Spec.Containers

/-! Model of `/repo/deque.hh`. `SIZE` is the template parameter, `TYPE` is `α`. -/

namespace DSP

/-- `class Deque`, deque.hh:12-15. -/
structure Deque (α : Type _) where
  size : Nat
  buf : List α
  head : Int
  tail : Int
  count : Int

namespace Deque
variable {α : Type _}

/-- `Deque()`, deque.hh:17-19. `buf` is not initialised: `junk` is whatever it holds. -/
def init (SIZE : Nat) (junk : List α) : Deque α :=
  { size := SIZE, buf := junk, head := (SIZE : Int) - 1, tail := 0, count := 0 }

/-- `clear()`, deque.hh:20-25. -/
def clear (d : Deque α) : Deque α :=
  { d with head := (d.size : Int) - 1, tail := 0, count := 0 }

/-- `push_back(TYPE input)`, deque.hh:26-33. -/
def pushBack (d : Deque α) (input : α) : M (Deque α) := do
  assert (d.count < (d.size : Int))
  let count := d.count + 1
  let tail := d.tail - 1
  let tail := if tail < 0 then (d.size : Int) - 1 else tail
  let buf ← wr d.buf tail input
  return { d with buf := buf, tail := tail, count := count }

/-- `push_front(TYPE input)`, deque.hh:34-41. -/
def pushFront (d : Deque α) (input : α) : M (Deque α) := do
  assert (d.count < (d.size : Int))
  let count := d.count + 1
  let head := d.head + 1
  let head := if head ≥ (d.size : Int) then 0 else head
  let buf ← wr d.buf head input
  return { d with buf := buf, head := head, count := count }

/-- `pop_back()`, deque.hh:42-48. -/
def popBack (d : Deque α) : M (Deque α) := do
  assert (d.count > 0)
  let count := d.count - 1
  let tail := d.tail + 1
  let tail := if tail ≥ (d.size : Int) then 0 else tail
  return { d with tail := tail, count := count }

/-- `pop_front()`, deque.hh:49-55. -/
def popFront (d : Deque α) : M (Deque α) := do
  assert (d.count > 0)
  let count := d.count - 1
  let head := d.head - 1
  let head := if head < 0 then (d.size : Int) - 1 else head
  return { d with head := head, count := count }

/-- `back()`, deque.hh:56-60. -/
def back (d : Deque α) : M α := do
  assert (d.count > 0)
  rd d.buf d.tail

/-- `front()`, deque.hh:61-65. -/
def front (d : Deque α) : M α := do
  assert (d.count > 0)
  rd d.buf d.head

/-- `empty()`, deque.hh:66-69. -/
def empty (d : Deque α) : Bool := d.count == 0

/-- `full()`, deque.hh:70-73. -/
def full (d : Deque α) : Bool := d.count == (d.size : Int)

/-- `size()`, deque.hh:74-77. -/
def length (d : Deque α) : Int := d.count

/-- `max_size()`, deque.hh:78-81. -/
def maxSize (d : Deque α) : Int := d.size

/-- One public call, dispatched by name. -/
def call (d : Deque α) : Spec.DequeOp α → M (Deque α × Spec.Out α)
  | .pushFront x => do let d ← d.pushFront x; return (d, .unit)
  | .pushBack x => do let d ← d.pushBack x; return (d, .unit)
  | .popFront => do let d ← d.popFront; return (d, .unit)
  | .popBack => do let d ← d.popBack; return (d, .unit)
  | .front => do let x ← d.front; return (d, .val x)
  | .back => do let x ← d.back; return (d, .val x)
  | .clear => return (d.clear, .unit)
  | .empty => return (d, .bool d.empty)
  | .full => return (d, .bool d.full)
  | .size => return (d, .int d.length)
  | .maxSize => return (d, .int d.maxSize)

end Deque
end DSP
