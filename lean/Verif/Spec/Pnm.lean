import Mathlib.Data.List.Basic

/-! Specification of Netpbm headers, on bytes. -/

namespace DSP.Spec.Pnm

/-- Blank, newline or tab. -/
def IsSpace (b : BitVec 8) : Prop := b = 32 ∨ b = 10 ∨ b = 9

/-- `0` to `9`. -/
def IsDigit (b : BitVec 8) : Prop := 48 ≤ b.toNat ∧ b.toNat ≤ 57

/-- The number a string of digits denotes. -/
def decVal (ds : List (BitVec 8)) : Nat := ds.foldl (fun n d => 10 * n + (d.toNat - 48)) 0

/-- A comment: `#`, any text without newline, newline. -/
def comment (text : List (BitVec 8)) : List (BitVec 8) := 35 :: (text ++ [10])

/-- What may stand in front of a number: white space that does not begin with a newline, or a newline followed by any number of
comment lines and then any white space. -/
inductive Separator : List (BitVec 8) → Prop
  | blanks (c : BitVec 8) (l : List (BitVec 8)) : IsSpace c → c ≠ 10 → (∀ b ∈ l, IsSpace b) → Separator (c :: l)
  | lines (texts : List (List (BitVec 8))) (l : List (BitVec 8)) : (∀ t ∈ texts, 10 ∉ t) → (∀ b ∈ l, IsSpace b) →
      Separator (10 :: ((texts.map comment).flatten ++ l))

/-- A number of the header. -/
structure Number (ds : List (BitVec 8)) : Prop where
  pos : ds ≠ []
  digits : ∀ d ∈ ds, IsDigit d
  small : decVal ds ≤ 2147483647

end DSP.Spec.Pnm
