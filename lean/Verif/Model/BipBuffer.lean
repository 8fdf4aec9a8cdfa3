import Verif.Model.Base

/-! Model of `/repo/bip_buffer.hh`. `NUM` is the template parameter, `TYPE` is `α`. -/

namespace DSP

/-- `class BipBuffer`, bip_buffer.hh:12-15. -/
structure BipBuffer (α : Type _) where
  num : Nat
  buf : List α
  pos0 : Int
  pos1 : Int

namespace BipBuffer
variable {α : Type _}

/-- `BipBuffer()`, bip_buffer.hh:17-21. The loop sets all `2*NUM` cells to `0`. -/
def init (NUM : Nat) (zero : α) : BipBuffer α :=
  { num := NUM, buf := List.replicate (2 * NUM) zero, pos0 := 0, pos1 := NUM }

/-- `operator () ()`, bip_buffer.hh:22-25: the offset of the returned pointer from the start of `buf`. -/
def ptr (b : BipBuffer α) : Int := min b.pos0 b.pos1

/-- `operator () (TYPE input)`, bip_buffer.hh:26-34, without the final `return operator () ()`. -/
def put (b : BipBuffer α) (input : α) : M (BipBuffer α) := do
  let buf ← wr b.buf b.pos1 input
  let buf ← wr buf b.pos0 input
  let pos0 := b.pos0 + 1
  let pos0 := if pos0 ≥ 2 * (b.num : Int) then 0 else pos0
  let pos1 := b.pos1 + 1
  let pos1 := if pos1 ≥ 2 * (b.num : Int) then 0 else pos1
  return { b with buf := buf, pos0 := pos0, pos1 := pos1 }

/-- What a caller sees who reads `n` cells through a pointer into `buf`. -/
def readN (buf : List α) : Nat → Int → M (List α)
  | 0, _ => return []
  | n + 1, p => do
    let x ← rd buf p
    let r ← readN buf n (p + 1)
    return x :: r

/-- One call of either `operator ()`, answering with the `NUM` cells behind the returned pointer. -/
def call (b : BipBuffer α) (input : Option α) : M (BipBuffer α × List α) := do
  let b ← match input with
    | none => pure b
    | some x => b.put x
  let v ← readN b.buf b.num b.ptr
  return (b, v)

end BipBuffer
end DSP
