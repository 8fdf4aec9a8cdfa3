import Mathlib.Data.Int.Log
import Mathlib.Data.Rat.Floor
import Mathlib.Algebra.Order.Field.Power
import Mathlib.Tactic.Positivity
import Mathlib.Tactic.Linarith
import Mathlib.Tactic.FieldSimp
import Mathlib.Tactic.Ring

/-!
# Binary floating point

Addition, subtraction, multiplication and division of the types `float` (`p = 24`) and `double` (`p = 53`) as IEEE 754 prescribes them: the exact result rounded to the nearest number of `p` bits, ties to
even. The exponent is not bounded: overflow is left out and so is the underflow of products; the results of additions that underflow are exact anyway. There are no signed zeros and no
NaN, and products and sums are not contracted.
-/

namespace DSP

namespace Binary

/-- To the nearest integer, ties to even. -/
def nearest (x : ℚ) : ℤ :=
  let f := ⌊x⌋
  let r := x - f
  if r < 1 / 2 then f else if 1 / 2 < r then f + 1 else if f % 2 = 0 then f else f + 1

/-- To the nearest number of `p` bits. -/
def round (p : ℕ) (x : ℚ) : ℚ :=
  let e := Int.log 2 |x| + 1 - p
  nearest (x / 2 ^ e) * 2 ^ e

/-- The numbers of `p` bits. -/
def Representable (p : ℕ) (x : ℚ) : Prop := ∃ m e : ℤ, |m| < 2 ^ p ∧ x = m * 2 ^ e

end Binary

/-- The numbers of a floating point type. -/
structure Binary (p : ℕ) where
  val : ℚ
  representable : Binary.Representable p val

namespace Binary

theorem nearest_near (x : ℚ) : |(nearest x : ℚ) - x| ≤ 1 / 2 := by
  have h0 := Int.floor_le x
  have h1 := Int.lt_floor_add_one x
  unfold nearest
  simp only []
  split_ifs <;> (try push_cast) <;> rw [abs_le] <;> constructor <;> linarith

theorem round_error (p : ℕ) (x : ℚ) : |round p x - x| ≤ |x| / 2 ^ p := by
  by_cases hx : x = 0
  · subst hx; simp [round, nearest]
  have h0 : 0 < |x| := abs_pos.mpr hx
  have hl := Int.zpow_log_le_self (b := 2) (by norm_num) h0
  unfold round
  simp only []
  generalize Int.log 2 |x| = l at *
  push_cast at hl
  have hp : (0 : ℚ) < 2 ^ (l + 1 - (p : ℤ)) := by positivity
  have h := nearest_near (x / 2 ^ (l + 1 - (p : ℤ)))
  have e : (nearest (x / 2 ^ (l + 1 - (p : ℤ))) : ℚ) * 2 ^ (l + 1 - (p : ℤ)) - x = (nearest (x / 2 ^ (l + 1 - (p : ℤ))) - x / 2 ^ (l + 1 - (p : ℤ))) * 2 ^ (l + 1 - (p : ℤ)) := by
    field_simp
  rw [e, abs_mul, abs_of_pos hp]
  have e2 : (2 : ℚ) ^ (l + 1 - (p : ℤ)) = 2 * 2 ^ l / 2 ^ p := by
    rw [zpow_sub₀ (by norm_num), zpow_add₀ (by norm_num), zpow_one, zpow_natCast]
    ring
  rw [e2] at h ⊢
  calc _ ≤ 1 / 2 * (2 * 2 ^ l / 2 ^ p) := by gcongr
    _ = (2 : ℚ) ^ l / 2 ^ p := by ring
    _ ≤ _ := by gcongr

theorem nearest_le (x : ℚ) (n : ℤ) (h : |x| ≤ n) : |nearest x| ≤ n := by
  have h1 := nearest_near x
  rw [abs_le] at h h1 ⊢
  constructor
  · have : (-n : ℚ) - 1 < nearest x := by linarith [h1.1]
    have : -n - 1 < nearest x := by exact_mod_cast this
    omega
  · have : (nearest x : ℚ) < n + 1 := by linarith [h1.2]
    have : nearest x < n + 1 := by exact_mod_cast this
    omega

theorem round_representable (p : ℕ) (hp : 0 < p) (x : ℚ) : Representable p (round p x) := by
  by_cases hx : x = 0
  · exact ⟨0, 0, by simp, by subst hx; simp [round, nearest]⟩
  have h0 : 0 < |x| := abs_pos.mpr hx
  have hl := Int.lt_zpow_succ_log_self (b := 2) (by norm_num) |x|
  have e : round p x = nearest (x / 2 ^ (Int.log 2 |x| + 1 - (p : ℤ))) * 2 ^ (Int.log 2 |x| + 1 - (p : ℤ)) := rfl
  generalize Int.log 2 |x| = l at *
  push_cast at hl
  have hb : |x / 2 ^ (l + 1 - (p : ℤ))| ≤ ((2 ^ p : ℤ) : ℚ) := by
    rw [abs_div, abs_of_pos (by positivity : (0 : ℚ) < 2 ^ (l + 1 - (p : ℤ))), div_le_iff₀ (by positivity)]
    push_cast
    rw [← zpow_natCast, ← zpow_add₀ (by norm_num)]
    rw [show (p : ℤ) + (l + 1 - p) = l + 1 by ring]
    exact hl.le
  have hn := nearest_le _ _ hb
  rcases hn.lt_or_eq with h | h
  · exact ⟨_, _, h, e⟩
  · have h2 : (1 : ℤ) < 2 ^ p := one_lt_pow₀ (by norm_num) hp.ne'
    rcases abs_eq (by positivity) |>.mp h with h | h
    · refine ⟨1, p + (l + 1 - p), by rw [abs_one]; exact h2, ?_⟩
      rw [e, h, zpow_add₀ (by norm_num), zpow_natCast]
      push_cast
      ring
    · refine ⟨-1, p + (l + 1 - p), by rw [abs_neg, abs_one]; exact h2, ?_⟩
      rw [e, h, zpow_add₀ (by norm_num), zpow_natCast]
      push_cast
      ring

instance (p : ℕ) : Zero (Binary p) := ⟨⟨0, 0, 0, by simp, by simp⟩⟩

instance (p : ℕ) [NeZero p] : Add (Binary p) := ⟨fun a b => ⟨round p (a.val + b.val), round_representable p (Nat.pos_of_ne_zero (NeZero.ne p)) _⟩⟩

instance (p : ℕ) [NeZero p] : Sub (Binary p) := ⟨fun a b => ⟨round p (a.val - b.val), round_representable p (Nat.pos_of_ne_zero (NeZero.ne p)) _⟩⟩

instance (p : ℕ) [NeZero p] : Mul (Binary p) := ⟨fun a b => ⟨round p (a.val * b.val), round_representable p (Nat.pos_of_ne_zero (NeZero.ne p)) _⟩⟩

instance (p : ℕ) [NeZero p] : IntCast (Binary p) := ⟨fun n => ⟨round p n, round_representable p (Nat.pos_of_ne_zero (NeZero.ne p)) _⟩⟩

/-- `VALUE(1)` -/
instance (p : ℕ) [NeZero p] : One (Binary p) := ⟨((1 : ℤ) : Binary p)⟩

/-- `VALUE(2)` and so on. -/
instance (p n : ℕ) [NeZero p] [n.AtLeastTwo] : OfNat (Binary p) n := ⟨((n : ℤ) : Binary p)⟩

instance (p : ℕ) : Neg (Binary p) := ⟨fun a => ⟨-a.val, let ⟨m, e, h1, h2⟩ := a.representable; ⟨-m, e, by rw [abs_neg]; exact h1, by rw [h2]; push_cast; ring⟩⟩⟩

/-- What a division by zero gives is not modelled: it is zero here. -/
instance (p : ℕ) [NeZero p] : Div (Binary p) := ⟨fun a b => ⟨round p (a.val / b.val), round_representable p (Nat.pos_of_ne_zero (NeZero.ne p)) _⟩⟩

/-- A constant that is written as a decimal: rounded to the `q` bits of its own type first, then converted. -/
def literal (q p : ℕ) [NeZero p] (x : ℚ) : Binary p := ⟨round p (round q x), round_representable p (Nat.pos_of_ne_zero (NeZero.ne p)) _⟩

end Binary
end DSP
