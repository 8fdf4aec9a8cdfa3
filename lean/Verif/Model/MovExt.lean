import Verif.Model.Stack
import Verif.Model.Delay

/-! Model of `/repo/movext.hh`. -/

namespace DSP

/-- `class MovExt`, movext.hh:14-20. `eq` is the `==` of `TYPE` (the code never uses the `EQUAL` argument),
`comp` is `COMP`. `pushes` is not part of the code: it counts the calls of `Stack::push` so far. -/
structure MovExt (α : Type _) where
  num : Nat
  eq : α → α → Bool
  comp : α → α → Bool
  window : Delay α
  dispenser : Stack α
  refill : Stack α
  pushes : Nat

namespace MovExt
variable {α : Type _}

/-- `MovExt(TYPE init)`, movext.hh:22-25. `junk1`, `junk2` are the uninitialised buffers of the two stacks. -/
def init (NUM : Nat) (eq comp : α → α → Bool) (junk1 junk2 : List α) (x : α) : M (MovExt α) := do
  let dispenser ← (Stack.init NUM junk1).push x
  return { num := NUM, eq := eq, comp := comp, window := Delay.init NUM x,
           dispenser := dispenser, refill := Stack.init NUM junk2, pushes := 1 }

/-- The loop movext.hh:31-32: `while (!refill.empty() && comp(input, refill.top())) refill.pop();`.
The first argument bounds the number of iterations, exceeding it is the fault `diverge`. -/
def popLoop (comp : α → α → Bool) (input : α) : Nat → Stack α → M (Stack α)
  | fuel, refill => do
    if refill.empty then return refill
    let t ← refill.top
    if comp input t then
      match fuel with
      | 0 => throw .diverge
      | fuel + 1 => popLoop comp input fuel (← refill.pop)
    else return refill

/-- The loop movext.hh:36-39 moving `refill` to `dispenser`, counting the pushes. Bounded like `popLoop`. -/
def moveLoop : Nat → Stack α → Stack α → Nat → M (Stack α × Stack α × Nat)
  | fuel, dispenser, refill, n => do
    if refill.empty then return (dispenser, refill, n)
    match fuel with
    | 0 => throw .diverge
    | fuel + 1 =>
      let dispenser ← dispenser.push (← refill.top)
      let refill ← refill.pop
      moveLoop fuel dispenser refill (n + 1)

/-- `operator () (TYPE input)`, movext.hh:26-43. -/
def call (m : MovExt α) (input : α) : M (MovExt α × α) := do
  let (window, o) ← m.window.call input
  let t ← m.dispenser.top
  let dispenser ← M.ite (m.eq o t) m.dispenser.pop (pure m.dispenser)
  let refill ← popLoop m.comp input m.num m.refill
  let refill ← refill.push input
  let pushes := m.pushes + 1
  if dispenser.empty then
    let (dispenser, refill, pushes) ← moveLoop m.num dispenser refill pushes
    let y ← dispenser.top
    return ({ m with window := window, dispenser := dispenser, refill := refill, pushes := pushes }, y)
  else
    let a ← dispenser.top
    let b ← refill.first
    let y := if m.comp a b then a else b
    return ({ m with window := window, dispenser := dispenser, refill := refill, pushes := pushes }, y)

end MovExt

/-- `class MovMin`, movext.hh:46-58: `MovExt` with `std::less`, started with `numeric_limits::max()`. -/
def MovMin.init {α : Type _} (NUM : Nat) (eq less : α → α → Bool) (max : α) (junk1 junk2 : List α) : M (MovExt α) :=
  MovExt.init NUM eq less junk1 junk2 max

/-- `class MovMax`, movext.hh:60-72: `MovExt` with `std::greater`, started with `numeric_limits::min()`. -/
def MovMax.init {α : Type _} (NUM : Nat) (eq less : α → α → Bool) (min : α) (junk1 junk2 : List α) : M (MovExt α) :=
  MovExt.init NUM eq (fun a b => less b a) junk1 junk2 min

end DSP
