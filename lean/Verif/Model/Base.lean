/-!
# Common ground of the model: faults and checked memory

Every C++ construct that may go wrong at run time (failing `assert`, access outside an array, signed overflow, a shift
the language forbids, reading an uninitialised variable, a floating point division by zero that the surrounding code relies on
not happening) is an explicit outcome of the model.
-/

namespace DSP

/-- Everything that can go wrong when running the modelled code. -/
inductive Fault
  /-- a failing `assert(...)` -/
  | assertion
  /-- read or write outside of an array -/
  | bounds
  /-- signed integer overflow -/
  | overflow
  /-- a shift by a negative or too large amount, or one that does not fit -/
  | shift
  /-- read of a variable that was never set -/
  | uninit
  /-- division by zero -/
  | divZero
  /-- a loop that never ends -/
  | diverge
  deriving DecidableEq, Repr

/-- The result of running a piece of the modelled code. -/
abbrev M (α : Type _) := Except Fault α

/-- `assert(c)` with assertions enabled (no `NDEBUG`). -/
def assert (c : Bool) : M Unit := if c then .ok () else .error .assertion

/-- `if (c) t; else e;` as one statement. -/
def M.ite {α : Type _} (c : Bool) (t e : M α) : M α := if c then t else e

/-- `a[i]` as an rvalue. -/
def rd {α : Type _} (a : List α) (i : Int) : M α :=
  if 0 ≤ i then
    match a[i.toNat]? with
    | some v => .ok v
    | none => .error .bounds
  else .error .bounds

/-- `a[i] = v`. -/
def wr {α : Type _} (a : List α) (i : Int) (v : α) : M (List α) :=
  if 0 ≤ i ∧ i < (a.length : Int) then .ok (a.set i.toNat v) else .error .bounds

/-- Runs a state machine over a list of calls and collects the answers; stops at the first fault. -/
def trace {σ ι ω : Type _} (step : σ → ι → M (σ × ω)) : σ → List ι → List ω × Option Fault
  | _, [] => ([], none)
  | s, x :: xs =>
    match step s x with
    | .error e => ([], some e)
    | .ok (s', o) => let r := trace step s' xs; (o :: r.1, r.2)

/-- Like `trace`, but a fault discards everything; also returns the final state. -/
def run {σ ι ω : Type _} (step : σ → ι → M (σ × ω)) : σ → List ι → M (σ × List ω)
  | s, [] => .ok (s, [])
  | s, x :: xs =>
    match step s x with
    | .error e => .error e
    | .ok (s', o) =>
      match run step s' xs with
      | .error e => .error e
      | .ok (s'', os) => .ok (s'', o :: os)

/-- The list of all outputs of a state machine that cannot fail. -/
def outputs {σ ι ω : Type _} (step : σ → ι → σ × ω) : σ → List ι → List ω
  | _, [] => []
  | s, x :: xs => (step s x).2 :: outputs step (step s x).1 xs

/-- The state a machine that cannot fail is in after a list of inputs. -/
def final {σ ι ω : Type _} (step : σ → ι → σ × ω) : σ → List ι → σ
  | s, [] => s
  | s, x :: xs => final step (step s x).1 xs

end DSP
