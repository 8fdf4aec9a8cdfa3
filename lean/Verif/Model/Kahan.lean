import Verif.Model.Base

/-! Model of `/repo/kahan.hh`. Arithmetic is whatever `+` and `-` of the type are, exact or rounded. -/

namespace DSP

/-- `class Kahan`, kahan.hh:11-14. -/
structure Kahan (α : Type) where
  high : α
  low : α
  deriving DecidableEq, Repr

namespace Kahan
variable {α : Type}

/-- `Kahan(T init)`, kahan.hh:17 (and kahan.hh:16 with `init = 0`). -/
def init [Zero α] (x : α) : Kahan α := { high := x, low := 0 }

/-- `operator ()(T input)`, kahan.hh:26-32. -/
def call [Add α] [Sub α] (k : Kahan α) (input : α) : Kahan α × α :=
  let tmp := input - k.low
  let sum := k.high + tmp
  ({ high := sum, low := (sum - k.high) - tmp }, sum)

/-- `operator ()()`, kahan.hh:43. -/
def get (k : Kahan α) : α := k.high

/-- `operator ==`, kahan.hh:33-36. -/
def eq [BEq α] (k a : Kahan α) : Bool := k.low == a.low && k.high == a.high

/-- `same(T input)`, kahan.hh:37-42. -/
def same [Add α] [Sub α] [BEq α] (k : Kahan α) (input : α) : Kahan α × Bool :=
  let tmp := k
  let k := (k.call input).1
  (k, tmp.eq k)

/-- The loop of `kahan_sum`, kahan.hh:50-51. -/
def feed [Add α] [Sub α] (k : Kahan α) : List α → Kahan α
  | [] => k
  | x :: xs => feed (k.call x).1 xs

/-- `kahan_sum(begin, end, init)`, kahan.hh:46-53; the iterator range is a list. -/
def sum [Zero α] [Add α] [Sub α] (xs : List α) (x0 : α) : α := ((init x0).feed xs).get

end Kahan
end DSP
