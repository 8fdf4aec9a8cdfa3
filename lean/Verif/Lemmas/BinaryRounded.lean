import Verif.Lemmas.Binary
import Verif.Spec.Rounding
import Mathlib.Data.Real.Basic

/-!
# Binary floating point is a rounded arithmetic
-/

namespace DSP

open Spec

/-- Binary floating point of any precision is such an arithmetic. -/
theorem binary_rounded (p : ℕ) [NeZero p] : Rounded (Binary p) (fun a => (a.val : ℝ)) (1 / 2 ^ p) where
  zero := by show ((0 : ℚ) : ℝ) = 0; exact Rat.cast_zero
  add a b := by
    have h : |(a + b).val - (a.val + b.val)| ≤ |a.val + b.val| / 2 ^ p := Binary.round_error p _
    rw [one_div_mul_eq_div]
    exact_mod_cast h
  sub a b := by
    have h : |(a - b).val - (a.val - b.val)| ≤ |a.val - b.val| / 2 ^ p := Binary.round_error p _
    rw [one_div_mul_eq_div]
    exact_mod_cast h

theorem binary_roundedMul (p : ℕ) [NeZero p] : RoundedMul (Binary p) (fun a => (a.val : ℝ)) (1 / 2 ^ p) where
  toRounded := binary_rounded p
  mul a b := by
    have h : |(a * b).val - (a.val * b.val)| ≤ |a.val * b.val| / 2 ^ p := Binary.round_error p _
    rw [one_div_mul_eq_div]
    exact_mod_cast h
  one := by
    have : ((1 : ℤ) : Binary p).val = 1 := Binary.round_of_representable p _ ⟨1, 0, by rw [abs_one]; exact one_lt_pow₀ (by norm_num) (NeZero.ne p), by simp⟩
    rw [this]; norm_num
  neg_one := by
    have : ((-1 : ℤ) : Binary p).val = -1 := by
      have := Binary.round_of_representable p ((-1 : ℤ) : ℚ) ⟨-1, 0, by rw [abs_neg, abs_one]; exact one_lt_pow₀ (by norm_num) (NeZero.ne p), by simp⟩
      rw [Int.cast_neg, Int.cast_one] at this
      exact this
    rw [this]; norm_num

theorem binary_roundedField (p : ℕ) [NeZero p] : RoundedField (Binary p) (fun a => (a.val : ℝ)) (1 / 2 ^ p) where
  toRoundedMul := binary_roundedMul p
  neg a := by
    show ((-a.val : ℚ) : ℝ) = -(a.val : ℝ)
    push_cast; rfl
  cast n := by
    have h : |((n : ℤ) : Binary p).val - n| ≤ |(n : ℚ)| / 2 ^ p := Binary.round_error p _
    rw [one_div_mul_eq_div]
    exact_mod_cast h
  div a b _ := by
    have h : |(a / b).val - a.val / b.val| ≤ |a.val / b.val| / 2 ^ p := Binary.round_error p _
    rw [one_div_mul_eq_div]
    exact_mod_cast h

theorem literal_error (q p : ℕ) [NeZero p] (h : p ≤ q) (x : ℚ) : |((Binary.literal q p x).val : ℝ) - x| ≤ 2 * (1 / 2 ^ p) * |(x : ℝ)| := by
  have key : |Binary.round p (Binary.round q x) - x| ≤ 2 * (1 / 2 ^ p) * |x| := by
    rcases h.eq_or_lt with rfl | h
    · rw [Binary.round_of_representable p _ (Binary.round_representable p (Nat.pos_of_ne_zero (NeZero.ne p)) x)]
      have := Binary.round_error p x
      have h0 : 0 ≤ |x| / 2 ^ p := by positivity
      calc _ ≤ _ := this
        _ ≤ |x| / 2 ^ p + |x| / 2 ^ p := by linarith
        _ = _ := by ring
    · have e1 := Binary.round_error q x
      have e2 := Binary.round_error p (Binary.round q x)
      have hq : (1 : ℚ) / 2 ^ q ≤ 1 / 2 ^ p / 2 := by
        rw [div_div, ← pow_succ]
        gcongr
        · norm_num
        · exact h
      have hp : (1 : ℚ) / 2 ^ p ≤ 1 := by rw [div_le_one (by positivity)]; exact one_le_pow₀ (by norm_num)
      have hp0 : (0 : ℚ) ≤ 1 / 2 ^ p := by positivity
      rw [div_eq_mul_one_div] at e1 e2
      generalize (1 : ℚ) / 2 ^ p = u at *
      have e3 : |Binary.round q x - x| ≤ |x| * (u / 2) := e1.trans (by gcongr)
      have e4 : |Binary.round q x| ≤ |x| * (1 + u / 2) := by
        calc |Binary.round q x| = |(Binary.round q x - x) + x| := by ring_nf
          _ ≤ _ := abs_add_le _ _
          _ ≤ _ := by linarith
      calc |Binary.round p (Binary.round q x) - x| ≤ _ := abs_sub_le _ (Binary.round q x) _
        _ ≤ |x| * (1 + u / 2) * u + |x| * (u / 2) := add_le_add (e2.trans (by gcongr)) e3
        _ ≤ _ := by nlinarith [abs_nonneg x, mul_nonneg hp0 (abs_nonneg x)]
  have := (Rat.cast_le (K := ℝ)).mpr key
  push_cast at this
  exact this

theorem literal_exact (q p : ℕ) [NeZero p] (h : p ≤ q) (m e : ℤ) (hm : |m| < 2 ^ p) : (Binary.literal q p (m * 2 ^ e)).val = m * 2 ^ e := by
  have hq : Binary.Representable q ((m : ℚ) * 2 ^ e) := ⟨m, e, hm.trans_le (pow_le_pow_right₀ (by norm_num) h), rfl⟩
  show Binary.round p (Binary.round q _) = _
  rw [Binary.round_of_representable q _ hq, Binary.round_of_representable p _ ⟨m, e, hm, rfl⟩]

end DSP
