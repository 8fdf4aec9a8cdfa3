import Verif.Model.Base

/-! Model of `/repo/swa.hh`. -/

namespace DSP

/-- `class SWA`, swa.hh:11-16. -/
structure SWA (α : Type) where
  num : Nat
  tree : List α
  leaf : Nat

namespace SWA
variable {α : Type}

/-- `SWA(TYPE ident)`, swa.hh:18-22. -/
def init (NUM : Nat) (ident : α) : SWA α := { num := NUM, tree := List.replicate (2 * NUM) ident, leaf := NUM }

/-- The loop swa.hh:26-27, from `child = c`, `parent = p`. Indices are never negative here, so they are `Nat`;
the first argument bounds the number of iterations. -/
def climb (op : α → α → α) : Nat → Nat → Nat → List α → M (List α)
  | fuel, child, parent, tree => do
    if parent == 0 then return tree
    match fuel with
    | 0 => throw .diverge
    | fuel + 1 =>
      let a ← rd tree child
      let b ← rd tree ((child ^^^ 1 : Nat) : Int)
      let tree ← wr tree parent (op a b)
      climb op fuel parent (parent / 2) tree

/-- `operator () (TYPE input)`, swa.hh:23-31. -/
def call (op : α → α → α) (s : SWA α) (input : α) : M (SWA α × α) := do
  let tree ← wr s.tree s.leaf input
  let tree ← climb op s.leaf s.leaf (s.leaf / 2) tree
  let leaf := s.leaf + 1
  let leaf := if leaf ≥ 2 * s.num then s.num else leaf
  let y ← rd tree 1
  return ({ s with tree := tree, leaf := leaf }, y)

end SWA
end DSP
