import Verif.Lemmas.BinaryRounded
import Verif.Model.BinaryOrder

/-!
# Operations of floating point numbers that are exact
-/

namespace DSP.Binary

variable {p : ℕ} [NeZero p]

theorem round_self (a : Binary p) : round p a.val = a.val := round_of_representable p _ a.representable

theorem eq_of_val {a b : Binary p} (h : a.val = b.val) : a = b := val_injective p h

theorem val_zero : (0 : Binary p).val = 0 := rfl

theorem val_one : (1 : Binary p).val = 1 := by
  have := (binary_roundedMul p).one
  have h : (((1 : Binary p).val : ℚ) : ℝ) = 1 := this
  exact_mod_cast h

theorem add_zero_of (a b : Binary p) (h : b.val = 0) : a + b = a := by
  apply eq_of_val
  show round p (a.val + b.val) = a.val
  rw [h, add_zero, round_self]

theorem zero_add_of (a b : Binary p) (h : a.val = 0) : a + b = b := by
  apply eq_of_val
  show round p (a.val + b.val) = b.val
  rw [h, zero_add, round_self]

theorem sub_zero_of (a b : Binary p) (h : b.val = 0) : a - b = a := by
  apply eq_of_val
  show round p (a.val - b.val) = a.val
  rw [h, sub_zero, round_self]

theorem sub_self_of (a b : Binary p) (h : a.val = b.val) : a - b = 0 := by
  apply eq_of_val
  show round p (a.val - b.val) = 0
  rw [h, sub_self]
  simp [round, nearest]

theorem one_mul_of (a b : Binary p) (h : a.val = 1) : a * b = b := by
  apply eq_of_val
  show round p (a.val * b.val) = b.val
  rw [h, one_mul, round_self]

theorem mul_one_of (a b : Binary p) (h : b.val = 1) : a * b = a := by
  apply eq_of_val
  show round p (a.val * b.val) = a.val
  rw [h, mul_one, round_self]

theorem zero_mul_of (a b : Binary p) (h : a.val = 0) : a * b = 0 := by
  apply eq_of_val
  show round p (a.val * b.val) = 0
  rw [h, zero_mul]
  simp [round, nearest]

theorem mul_zero_of (a b : Binary p) (h : b.val = 0) : a * b = 0 := by
  apply eq_of_val
  show round p (a.val * b.val) = 0
  rw [h, mul_zero]
  simp [round, nearest]

theorem div_one_of (a b : Binary p) (h : b.val = 1) : a / b = a := by
  apply eq_of_val
  show round p (a.val / b.val) = a.val
  rw [h, div_one, round_self]

theorem lt_iff (a b : Binary p) : a < b ↔ (a.val : ℝ) < b.val := by
  constructor
  · intro h; exact_mod_cast (show a.val < b.val from h)
  · intro h; exact (show a.val < b.val by exact_mod_cast h)

theorem le_iff (a b : Binary p) : a ≤ b ↔ (a.val : ℝ) ≤ b.val := by
  constructor
  · intro h; exact_mod_cast (show a.val ≤ b.val from h)
  · intro h; exact (show a.val ≤ b.val by exact_mod_cast h)

theorem val_max (a b : Binary p) : ((max a b).val : ℝ) = max (a.val : ℝ) b.val := by
  rcases le_total a b with h | h
  · rw [max_eq_right h, max_eq_right ((le_iff _ _).mp h)]
  · rw [max_eq_left h, max_eq_left ((le_iff _ _).mp h)]

theorem val_min (a b : Binary p) : ((min a b).val : ℝ) = min (a.val : ℝ) b.val := by
  rcases le_total a b with h | h
  · rw [min_eq_left h, min_eq_left ((le_iff _ _).mp h)]
  · rw [min_eq_right h, min_eq_right ((le_iff _ _).mp h)]

end DSP.Binary
