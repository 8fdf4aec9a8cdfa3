import Verif.Model.Base

/-!
Abstract containers the concrete ones are compared with: plain lists with a capacity.
Nothing here mentions the C++ code. `Fault.assertion` is the only way a call can fail.
-/

namespace DSP.Spec

/-- What a container call returns. -/
inductive Out (α : Type _)
  | unit
  | val (x : α)
  | bool (b : Bool)
  | int (n : Int)
  deriving DecidableEq, Repr

/-- The calls of a stack. -/
inductive StackOp (α : Type _)
  | push (x : α) | pop | top | first | clear | empty | full | size | maxSize
  deriving DecidableEq, Repr

/-- A stack of capacity `cap` is a list, newest element first. -/
def stackStep {α : Type _} (cap : Nat) (l : List α) : StackOp α → M (List α × Out α)
  | .push x => if l.length < cap then .ok (x :: l, .unit) else .error .assertion
  | .pop => match l with | [] => .error .assertion | _ :: t => .ok (t, .unit)
  | .top => match l with | [] => .error .assertion | x :: _ => .ok (l, .val x)
  | .first => match l.getLast? with | none => .error .assertion | some x => .ok (l, .val x)
  | .clear => .ok ([], .unit)
  | .empty => .ok (l, .bool l.isEmpty)
  | .full => .ok (l, .bool (l.length == cap))
  | .size => .ok (l, .int l.length)
  | .maxSize => .ok (l, .int cap)

/-- The calls of a double-ended queue. -/
inductive DequeOp (α : Type _)
  | pushFront (x : α) | pushBack (x : α) | popFront | popBack | front | back | clear | empty | full | size | maxSize
  deriving DecidableEq, Repr

/-- A deque of capacity `cap` is a list, front element first. -/
def dequeStep {α : Type _} (cap : Nat) (l : List α) : DequeOp α → M (List α × Out α)
  | .pushFront x => if l.length < cap then .ok (x :: l, .unit) else .error .assertion
  | .pushBack x => if l.length < cap then .ok (l ++ [x], .unit) else .error .assertion
  | .popFront => match l with | [] => .error .assertion | _ :: t => .ok (t, .unit)
  | .popBack => match l with | [] => .error .assertion | _ :: _ => .ok (l.dropLast, .unit)
  | .front => match l.head? with | none => .error .assertion | some x => .ok (l, .val x)
  | .back => match l.getLast? with | none => .error .assertion | some x => .ok (l, .val x)
  | .clear => .ok ([], .unit)
  | .empty => .ok (l, .bool l.isEmpty)
  | .full => .ok (l, .bool (l.length == cap))
  | .size => .ok (l, .int l.length)
  | .maxSize => .ok (l, .int cap)

end DSP.Spec
