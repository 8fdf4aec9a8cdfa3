import Verif.Lemmas.Binary

/-!
# Rounding of whole numbers just beyond the precision
-/

namespace DSP.Binary

theorem nearest_neg (x : ℚ) : nearest (-x) = -nearest x := by
  have h0 := Int.floor_le x
  have h1 := Int.lt_floor_add_one x
  by_cases hx : x = ⌊x⌋
  · rw [hx, ← Int.cast_neg, nearest_int, nearest_int]
  · have hlt : (⌊x⌋ : ℚ) < x := lt_of_le_of_ne h0 (Ne.symm hx)
    have hf : ⌊-x⌋ = -⌊x⌋ - 1 := by
      rw [Int.floor_eq_iff]
      push_cast
      constructor <;> linarith
    unfold nearest
    simp only [hf]
    push_cast
    generalize ⌊x⌋ = f at *
    split_ifs <;> (first | omega | (exfalso; linarith))

theorem round_neg (p : ℕ) (x : ℚ) : round p (-x) = -round p x := by
  unfold round
  simp only [abs_neg]
  rw [neg_div, nearest_neg]
  push_cast
  ring

/-- A mantissa of `p` bits with `j` bits below it. -/
theorem round_split (p j : ℕ) (hp : 1 ≤ p) (a r : ℤ) (h1 : 2 ^ (p - 1) ≤ a) (h2 : a < 2 ^ p) (hr : 0 ≤ r) (hr' : r < 2 ^ j) :
    round p ((2 ^ j * a + r : ℤ) : ℚ) = ((2 ^ j * (if 2 * r < 2 ^ j then a else if 2 ^ j < 2 * r then a + 1 else if a % 2 = 0 then a else a + 1) : ℤ) : ℚ) := by
  have hj : (0 : ℤ) < 2 ^ j := by positivity
  have hjq : (0 : ℚ) < 2 ^ j := by positivity
  have ha0 : 0 < a := lt_of_lt_of_le (by positivity) h1
  have hn : 0 < 2 ^ j * a + r := by positivity
  have hlog : Int.log 2 |((2 ^ j * a + r : ℤ) : ℚ)| = p - 1 + j := by
    have hnq : (0 : ℚ) < ((2 ^ j * a + r : ℤ) : ℚ) := by exact_mod_cast hn
    rw [abs_of_pos hnq]
    apply le_antisymm
    · have : (((2 ^ j * a + r : ℤ) : ℚ)) < ((2 : ℕ) : ℚ) ^ ((p : ℤ) + j) := by
        rw [zpow_add₀ (by norm_num), zpow_natCast, zpow_natCast]
        have : 2 ^ j * a + r < 2 ^ p * 2 ^ j := by nlinarith
        exact_mod_cast this
      have := (Int.lt_zpow_iff_log_lt (b := 2) (by norm_num) hnq).mp this
      omega
    · rw [← Int.zpow_le_iff_le_log (by norm_num) hnq]
      rw [show (p : ℤ) - 1 + j = ((p - 1 + j : ℕ) : ℤ) by omega, zpow_natCast, pow_add]
      have : 2 ^ (p - 1) * 2 ^ j ≤ 2 ^ j * a + r := by nlinarith
      exact_mod_cast this
  unfold round
  simp only []
  rw [hlog, show (p : ℤ) - 1 + j + 1 - p = (j : ℤ) by omega, zpow_natCast]
  have hdiv : ((2 ^ j * a + r : ℤ) : ℚ) / 2 ^ j = a + r / 2 ^ j := by
    push_cast; field_simp
  have hfl : ⌊(a + r / 2 ^ j : ℚ)⌋ = a := by
    rw [Int.floor_eq_iff]
    have q1 : (0 : ℚ) ≤ r / 2 ^ j := by
      have : (0 : ℚ) ≤ r := by exact_mod_cast hr
      positivity
    have q2 : (r : ℚ) / 2 ^ j < 1 := by
      rw [div_lt_one hjq]; exact_mod_cast hr'
    constructor <;> linarith
  rw [hdiv]
  unfold nearest
  simp only [hfl]
  have c1 : (a + r / 2 ^ j : ℚ) - a < 1 / 2 ↔ 2 * r < 2 ^ j := by
    rw [add_sub_cancel_left, div_lt_div_iff₀ hjq (by norm_num), one_mul, mul_comm]
    exact_mod_cast Iff.rfl
  have c2 : 1 / 2 < (a + r / 2 ^ j : ℚ) - a ↔ 2 ^ j < 2 * r := by
    rw [add_sub_cancel_left, div_lt_div_iff₀ (by norm_num) hjq, one_mul, mul_comm]
    exact_mod_cast Iff.rfl
  simp only [c1, c2]
  push_cast
  ring

/-- Rounding of whole numbers below `4 P`, for `P = 2^p`. -/
def intRound (P n : ℤ) : ℤ :=
  let m := |n|
  let r := if m < P then m
    else if m < 2 * P then (if m % 4 = 1 then m - 1 else if m % 4 = 3 then m + 1 else m)
    else (if m % 8 = 1 then m - 1 else if m % 8 = 2 then m - 2 else if m % 8 = 3 then m + 1 else if m % 8 = 5 then m - 1 else if m % 8 = 6 then m + 2 else if m % 8 = 7 then m + 1 else m)
  if n < 0 then -r else r

theorem round_int (p : ℕ) (hp : 2 ≤ p) (n : ℤ) (h : |n| < 4 * 2 ^ p) : round p (n : ℚ) = intRound (2 ^ p) n := by
  suffices H : ∀ n : ℤ, 0 ≤ n → n < 4 * 2 ^ p → round p (n : ℚ) = intRound (2 ^ p) n by
    rcases le_or_gt 0 n with hn | hn
    · exact H n hn (by rwa [abs_of_nonneg hn] at h)
    · have := H (-n) (by omega) (by rwa [abs_of_neg hn] at h)
      rw [Int.cast_neg, round_neg] at this
      have e : intRound (2 ^ p) (-n) = -intRound (2 ^ p) n := by
        unfold intRound
        simp only [abs_neg]
        rw [if_neg (by omega), if_pos hn, neg_neg]
      rw [e, Int.cast_neg] at this
      exact neg_injective this
  intro n h0 hn
  obtain ⟨Q, hQ⟩ : ∃ Q : ℤ, 2 ^ p = 4 * Q := ⟨2 ^ (p - 2), by rw [show (4 : ℤ) = 2 ^ 2 by norm_num, ← pow_add]; congr 1; omega⟩
  have hQ' : (2 : ℤ) ^ (p - 1) = 2 * Q := by
    have : (2 : ℤ) ^ p = 2 * 2 ^ (p - 1) := by rw [← pow_succ']; congr 1; omega
    omega
  unfold intRound
  simp only [abs_of_nonneg h0]
  rw [if_neg (by omega : ¬n < 0)]
  by_cases c1 : n < 2 ^ p
  · rw [if_pos c1]
    exact round_of_representable p _ ⟨n, 0, by rwa [abs_of_nonneg h0], by simp⟩
  rw [if_neg c1]
  by_cases c2 : n < 2 * 2 ^ p
  · rw [if_pos c2]
    have := round_split p 1 (by omega) (n / 2) (n % 2) (by omega) (by omega) (by omega) (by omega)
    rw [pow_one, show 2 * (n / 2) + n % 2 = n by omega] at this
    rw [this]
    congr 1
    split_ifs <;> omega
  · rw [if_neg c2]
    have := round_split p 2 (by omega) (n / 4) (n % 4) (by omega) (by omega) (by omega) (by omega)
    rw [show (2 : ℤ) ^ 2 = 4 by norm_num, show 4 * (n / 4) + n % 4 = n by omega] at this
    rw [this]
    congr 1
    split_ifs <;> omega

end DSP.Binary
