import Verif.Model.Base
import Verif.Spec.Containers

/-! Model of `/repo/stack.hh`. `SIZE` is the template parameter, `TYPE` is `α`. -/

namespace DSP

/-- `class Stack`, stack.hh:12-15. `buf` has `SIZE` cells; `pos` is the index of the top, `-1` if empty. -/
structure Stack (α : Type _) where
  size : Nat
  buf : List α
  pos : Int

namespace Stack
variable {α : Type _}

/-- `Stack()`, stack.hh:17-19. The array `buf` is not initialised: `junk` is whatever it holds. -/
def init (SIZE : Nat) (junk : List α) : Stack α := { size := SIZE, buf := junk, pos := -1 }

/-- `clear()`, stack.hh:20-23. -/
def clear (s : Stack α) : Stack α := { s with pos := -1 }

/-- `push(TYPE input)`, stack.hh:24-28. -/
def push (s : Stack α) (input : α) : M (Stack α) := do
  assert (s.pos < (s.size : Int) - 1)
  let pos := s.pos + 1
  let buf ← wr s.buf pos input
  return { s with buf := buf, pos := pos }

/-- `pop()`, stack.hh:29-33. -/
def pop (s : Stack α) : M (Stack α) := do
  assert (s.pos ≥ 0)
  return { s with pos := s.pos - 1 }

/-- `top()`, stack.hh:34-38. -/
def top (s : Stack α) : M α := do
  assert (s.pos ≥ 0)
  rd s.buf s.pos

/-- `first()`, stack.hh:39-43. -/
def first (s : Stack α) : M α := do
  assert (s.pos ≥ 0)
  rd s.buf 0

/-- `empty()`, stack.hh:44-47. -/
def empty (s : Stack α) : Bool := s.pos == -1

/-- `full()`, stack.hh:48-51. -/
def full (s : Stack α) : Bool := s.pos == (s.size : Int) - 1

/-- `size()`, stack.hh:52-55 (the field `size` is the template parameter). -/
def count (s : Stack α) : Int := s.pos + 1

/-- `max_size()`, stack.hh:56-59. -/
def maxSize (s : Stack α) : Int := s.size

/-- One public call, dispatched by name. -/
def call (s : Stack α) : Spec.StackOp α → M (Stack α × Spec.Out α)
  | .push x => do let s ← s.push x; return (s, .unit)
  | .pop => do let s ← s.pop; return (s, .unit)
  | .top => do let x ← s.top; return (s, .val x)
  | .first => do let x ← s.first; return (s, .val x)
  | .clear => return (s.clear, .unit)
  | .empty => return (s, .bool s.empty)
  | .full => return (s, .bool s.full)
  | .size => return (s, .int s.count)
  | .maxSize => return (s, .int s.maxSize)

end Stack
end DSP
