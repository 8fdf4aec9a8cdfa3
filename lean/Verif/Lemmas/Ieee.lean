import Verif.Model.Ieee
import Verif.Model.Complex

/-!
# Values that are not finite stay so
-/

namespace DSP
namespace Ieee

variable {F : Format}

theorem add_bad_left (a b : Ieee F) (h : ¬a.Finite) : ¬(a + b).Finite := by
  cases a with
  | nan => exact id
  | inf s =>
    cases b with
    | nan => exact id
    | inf t =>
      show ¬(if s = t then inf s else nan : Ieee F).Finite
      split_ifs <;> exact id
    | num t b => exact id
  | num s a => exact absurd trivial h

theorem add_bad_right (a b : Ieee F) (h : ¬b.Finite) : ¬(a + b).Finite := by
  cases b with
  | nan => cases a <;> exact id
  | inf t =>
    cases a with
    | nan => exact id
    | inf s =>
      show ¬(if s = t then inf s else nan : Ieee F).Finite
      split_ifs <;> exact id
    | num s a => exact id
  | num t b => exact absurd trivial h

theorem neg_bad (a : Ieee F) (h : ¬a.Finite) : ¬(-a).Finite := by
  cases a with
  | nan => exact id
  | inf s => exact id
  | num s a => exact absurd trivial h

theorem sub_bad_left (a b : Ieee F) (h : ¬a.Finite) : ¬(a - b).Finite := add_bad_left a (-b) h

theorem sub_bad_right (a b : Ieee F) (h : ¬b.Finite) : ¬(a - b).Finite := add_bad_right a (-b) (neg_bad b h)

theorem mul_bad_left (a b : Ieee F) (h : ¬a.Finite) : ¬(a * b).Finite := by
  cases a with
  | nan => exact id
  | inf s =>
    cases b with
    | nan => exact id
    | inf t => exact id
    | num t b =>
      show ¬(if b = 0 then nan else inf (s ^^ t) : Ieee F).Finite
      split_ifs <;> exact id
  | num s a => exact absurd trivial h

theorem mul_bad_right (a b : Ieee F) (h : ¬b.Finite) : ¬(a * b).Finite := by
  cases b with
  | nan => cases a <;> exact id
  | inf t =>
    cases a with
    | nan => exact id
    | inf s => exact id
    | num s a =>
      show ¬(if a = 0 then nan else inf (s ^^ t) : Ieee F).Finite
      split_ifs <;> exact id
  | num t b => exact absurd trivial h

theorem div_bad (a b : Ieee F) (h : ¬a.Finite) : ¬(a / b).Finite := by
  cases a with
  | nan => exact id
  | inf s => cases b <;> exact id
  | num s a => exact absurd trivial h

end Ieee

/-- Types of samples over floating point values, with what it means that a sample is finite. -/
class Sample (F : Format) (E : Type) [Add E] [Sub E] [SMul (Ieee F) E] where
  Finite : E → Prop
  add_left : ∀ a b : E, ¬Finite a → ¬Finite (a + b)
  add_right : ∀ a b : E, ¬Finite b → ¬Finite (a + b)
  sub_left : ∀ a b : E, ¬Finite a → ¬Finite (a - b)
  sub_right : ∀ a b : E, ¬Finite b → ¬Finite (a - b)
  smul : ∀ (k : Ieee F) (a : E), ¬Finite a → ¬Finite (k • a)

/-- Real samples. -/
instance (F : Format) : Sample F (Ieee F) where
  Finite := Ieee.Finite
  add_left := Ieee.add_bad_left
  add_right := Ieee.add_bad_right
  sub_left := Ieee.sub_bad_left
  sub_right := Ieee.sub_bad_right
  smul := Ieee.mul_bad_right

/-- Complex samples are finite if both parts are. -/
instance (F : Format) : Sample F (Cplx (Ieee F)) where
  Finite z := z.re.Finite ∧ z.im.Finite
  add_left a b h := fun ⟨h1, h2⟩ => by
    by_cases h0 : a.re.Finite
    · exact Ieee.add_bad_left a.im b.im (fun h3 => h ⟨h0, h3⟩) h2
    · exact Ieee.add_bad_left a.re b.re h0 h1
  add_right a b h := fun ⟨h1, h2⟩ => by
    by_cases h0 : b.re.Finite
    · exact Ieee.add_bad_right a.im b.im (fun h3 => h ⟨h0, h3⟩) h2
    · exact Ieee.add_bad_right a.re b.re h0 h1
  sub_left a b h := fun ⟨h1, h2⟩ => by
    by_cases h0 : a.re.Finite
    · exact Ieee.sub_bad_left a.im b.im (fun h3 => h ⟨h0, h3⟩) h2
    · exact Ieee.sub_bad_left a.re b.re h0 h1
  sub_right a b h := fun ⟨h1, h2⟩ => by
    by_cases h0 : b.re.Finite
    · exact Ieee.sub_bad_right a.im b.im (fun h3 => h ⟨h0, h3⟩) h2
    · exact Ieee.sub_bad_right a.re b.re h0 h1
  smul k a h := fun ⟨h1, h2⟩ => by
    by_cases h0 : a.re.Finite
    · exact Ieee.mul_bad_right k a.im (fun h3 => h ⟨h0, h3⟩) h2
    · exact Ieee.mul_bad_right k a.re h0 h1

end DSP
