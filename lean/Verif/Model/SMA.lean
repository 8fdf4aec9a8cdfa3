import Verif.Model.Delay
import Verif.Model.SWA
import Verif.Model.Kahan

/-!
Model of `/repo/sma.hh`.
`TYPE` is `α`; the division by `VALUE(NUM)` is a parameter `divN : α → α` (so that `TYPE` may be complex and `VALUE` real).
-/

namespace DSP
variable {α : Type}

/-- `class SMA1`, sma.hh:15-20. -/
structure SMA1 (α : Type) where
  num : Nat
  histInp : List α
  histAvg : α
  histPos : Int

namespace SMA1

/-- `SMA1()`, sma.hh:22-26. -/
def init [Zero α] (NUM : Nat) : SMA1 α :=
  { num := NUM, histInp := List.replicate NUM 0, histAvg := 0, histPos := 0 }

/-- The loops sma.hh:30-31 and 40-41: `for (i = 1; i < NUM; ++i) sum += f(hist_inp[i])`, `n` iterations left. -/
def sumLoop {β : Type} [Add β] (f : α → β) (a : List α) : Nat → Int → β → M β
  | 0, _, sum => return sum
  | n + 1, i, sum => do
    let x ← rd a i
    sumLoop f a n (i + 1) (sum + f x)

/-- `abs_dev()`, sma.hh:27-33. `abs` and the division by `VALUE(NUM)` are parameters. -/
def absDev {β : Type} [Sub α] [Add β] (abs : α → β) (divN : β → β) (s : SMA1 α) : M β := do
  let x ← rd s.histInp 0
  let sum ← sumLoop (fun x => abs (x - s.histAvg)) s.histInp (s.num - 1) 1 (abs (x - s.histAvg))
  return divN sum

/-- `operator () (TYPE input)`, sma.hh:34-43. -/
def call [Add α] (divN : α → α) (s : SMA1 α) (input : α) : M (SMA1 α × α) := do
  let histInp ← wr s.histInp s.histPos input
  let histPos := s.histPos + 1
  let histPos := if histPos ≥ (s.num : Int) then 0 else histPos
  let x ← rd histInp 0
  let histSum ← sumLoop id histInp (s.num - 1) 1 x
  let histAvg := divN histSum
  return ({ s with histInp := histInp, histAvg := histAvg, histPos := histPos }, histAvg)

end SMA1

/-- `class SMA2`, sma.hh:46-50. -/
structure SMA2 (α : Type) where
  delay : Delay α
  sum : α

namespace SMA2

/-- `SMA2()`, sma.hh:52-54. -/
def init [Zero α] (NUM : Nat) : SMA2 α := { delay := Delay.init NUM 0, sum := 0 }

/-- `operator () (TYPE input)`, sma.hh:55-61. The arithmetic is a parameter that may fail (overflow);
`norm` is the template argument `NORM`. -/
def call (add sub : α → α → M α) (norm : Bool) (divN : α → α) (s : SMA2 α) (input : α) : M (SMA2 α × α) := do
  let (delay, old) ← s.delay.call input
  let d ← sub input old
  let sum ← add s.sum d
  return ({ delay := delay, sum := sum }, if norm then divN sum else sum)

end SMA2

/-- `class SMA3`, sma.hh:64-68. -/
structure SMA3 (α : Type) where
  delay : Delay α
  sum : Kahan α

namespace SMA3

/-- `SMA3()`, sma.hh:70-72. -/
def init [Zero α] (NUM : Nat) : SMA3 α := { delay := Delay.init NUM 0, sum := Kahan.init 0 }

/-- `operator () (TYPE input)`, sma.hh:73-79. -/
def call [Add α] [Sub α] [Neg α] (norm : Bool) (divN : α → α) (s : SMA3 α) (input : α) : M (SMA3 α × α) := do
  let (delay, old) ← s.delay.call input
  let k := (s.sum.call (-old)).1
  let (k, sum) := k.call input
  return ({ delay := delay, sum := k }, if norm then divN sum else sum)

end SMA3

namespace SMA4

/-- `class SMA4` and `SMA4()`, sma.hh:82-89: just a `SWA` over `std::plus` started with `0`. -/
def init [Zero α] (NUM : Nat) : SWA α := SWA.init NUM 0

/-- `operator () (TYPE input)`, sma.hh:90-95. -/
def call [Add α] (norm : Bool) (divN : α → α) (s : SWA α) (input : α) : M (SWA α × α) := do
  let (s, sum) ← s.call (· + ·) input
  return (s, if norm then divN sum else sum)

end SMA4
end DSP
