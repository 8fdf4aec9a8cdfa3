import Verif.Model.Binary
import Mathlib.Algebra.Group.Action.Defs
import Mathlib.Data.Rat.Defs

/-!
# IEEE 754 arithmetic with all special values

Unlike `Binary`, this type of numbers has a bounded range: results that are too large become infinite, small ones are rounded to multiples of the smallest number (gradual underflow), zeros
and infinities have signs, and there is a NaN (one, without payload). Rounding is to nearest, ties to even, the default. It stands for the `float` and `double` of /repo on usual machines
without fast-math options.
-/

namespace DSP

/-- A format of numbers: `p` bits, the smallest positive number is `2^emin`, all finite numbers are below `2^emax`. -/
structure Format where
  p : ℕ
  emin : ℤ
  emax : ℤ

/-- `float` -/
def Format.single : Format := ⟨24, -149, 128⟩

/-- `double` -/
def Format.double : Format := ⟨53, -1074, 1024⟩

/-- The values: sign bit and size. -/
inductive Ieee (F : Format) where
  | nan
  | inf (neg : Bool)
  | num (neg : Bool) (size : ℚ)
  deriving DecidableEq

namespace Ieee

variable {F : Format}

/-- To the nearest number of the format, as if there were no largest one. -/
def roundTo (F : Format) (x : ℚ) : ℚ :=
  let e := max F.emin (Int.log 2 |x| + 1 - F.p)
  Binary.nearest (x / 2 ^ e) * 2 ^ e

/-- The result of an operation whose exact value is `x`, with the given sign bit. -/
def pack (neg : Bool) (x : ℚ) : Ieee F :=
  let r := |roundTo F x|
  if 2 ^ F.emax ≤ r then inf neg else num neg r

/-- The value of a finite number. -/
def signed (neg : Bool) (size : ℚ) : ℚ := if neg then -size else size

instance : Neg (Ieee F) where
  neg
    | nan => nan
    | inf s => inf !s
    | num s m => num (!s) m

instance : Add (Ieee F) where
  add
    | nan, _ => nan
    | inf _, nan => nan
    | inf s, inf t => if s = t then inf s else nan
    | inf s, num _ _ => inf s
    | num _ _, nan => nan
    | num _ _, inf t => inf t
    | num s a, num t b =>
      let x := signed s a + signed t b
      if x = 0 then num (s && t) 0 else pack (decide (x < 0)) x

instance : Sub (Ieee F) where
  sub a b := a + -b

instance : Mul (Ieee F) where
  mul
    | nan, _ => nan
    | inf _, nan => nan
    | inf s, inf t => inf (s ^^ t)
    | inf s, num t b => if b = 0 then nan else inf (s ^^ t)
    | num _ _, nan => nan
    | num s a, inf t => if a = 0 then nan else inf (s ^^ t)
    | num s a, num t b => pack (s ^^ t) (a * b)

instance : Div (Ieee F) where
  div
    | nan, _ => nan
    | inf _, nan => nan
    | inf _, inf _ => nan
    | inf s, num t _ => inf (s ^^ t)
    | num _ _, nan => nan
    | num s _, inf t => num (s ^^ t) 0
    | num s a, num t b => if b = 0 then (if a = 0 then nan else inf (s ^^ t)) else pack (s ^^ t) (a / b)

/-- The product of a value and a sample of the same type. -/
instance : SMul (Ieee F) (Ieee F) where
  smul a b := a * b

instance : Zero (Ieee F) where
  zero := num false 0

instance : IntCast (Ieee F) where
  intCast n := pack (decide (n < 0)) n

instance : One (Ieee F) where
  one := ((1 : ℤ) : Ieee F)

instance (n : ℕ) [n.AtLeastTwo] : OfNat (Ieee F) n where
  ofNat := ((n : ℤ) : Ieee F)

/-- `==`: a NaN differs from everything, zeros are equal. -/
instance : BEq (Ieee F) where
  beq
    | inf s, inf t => s == t
    | num s a, num t b => decide (signed s a = signed t b)
    | _, _ => false

/-- `<`: false for NaN. -/
def less : Ieee F → Ieee F → Bool
  | nan, _ => false
  | inf _, nan => false
  | inf s, inf t => s && !t
  | inf s, num _ _ => s
  | num _ _, nan => false
  | num _ _, inf t => !t
  | num s a, num t b => decide (signed s a < signed t b)

instance : LT (Ieee F) where
  lt a b := less a b = true

instance : DecidableLT (Ieee F) := fun a b => inferInstanceAs (Decidable (less a b = true))

/-- Neither infinite nor NaN. -/
def Finite : Ieee F → Prop
  | num _ _ => True
  | _ => False

instance (a : Ieee F) : Decidable a.Finite := by
  cases a <;> unfold Finite <;> infer_instance

/-- The number that a finite value stands for. -/
def val : Ieee F → ℚ
  | num s m => signed s m
  | _ => 0

/-- The values that the type really has. -/
def Valid : Ieee F → Prop
  | num _ m => 0 ≤ m ∧ m < 2 ^ F.emax ∧ ∃ (n : ℕ) (e : ℤ), n < 2 ^ F.p ∧ F.emin ≤ e ∧ m = n * 2 ^ e
  | _ => True

/-- A constant, rounded to the format. -/
def literal (x : ℚ) : Ieee F := pack (decide (x < 0)) x

end Ieee
end DSP
