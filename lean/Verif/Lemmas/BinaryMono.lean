import Verif.Lemmas.BinaryBounds

namespace DSP.Binary

/-- Rounding does not pass a number that needs no rounding. -/
theorem round_le (p : ℕ) (hp : 0 < p) (x y : ℚ) (hy : Representable p y) (h : x ≤ y) : round p x ≤ y := by
  have := round_nearest p hp x y hy
  rw [abs_of_nonneg (sub_nonneg.mpr h)] at this
  linarith [le_abs_self (round p x - x)]

theorem le_round (p : ℕ) (hp : 0 < p) (x y : ℚ) (hy : Representable p y) (h : y ≤ x) : y ≤ round p x := by
  have := round_nearest p hp x y hy
  rw [abs_of_nonpos (sub_nonpos.mpr h)] at this
  linarith [neg_abs_le (round p x - x)]

/-- Rounding keeps the order. -/
theorem round_mono (p : ℕ) (hp : 0 < p) (x y : ℚ) (h : x ≤ y) : round p x ≤ round p y := by
  have hx := round_representable p hp x
  have hy := round_representable p hp y
  by_contra c
  push Not at c
  have h1 := round_nearest p hp x _ hy
  have h2 := round_nearest p hp y _ hx
  by_cases hxy : x ≤ round p y
  · exact absurd (round_le p hp x _ hy hxy) (not_le.mpr c)
  push Not at hxy
  rw [abs_sub_comm (round p y) x, abs_of_pos (show 0 < x - round p y by linarith)] at h1
  rw [abs_sub_comm (round p y) y, abs_of_pos (show 0 < y - round p y by linarith)] at h2
  have h3 := le_abs_self (round p x - x)
  rcases le_total (round p x) y with h4 | h4
  · rw [abs_of_nonpos (sub_nonpos.mpr h4)] at h2
    linarith
  · rw [abs_of_nonneg (sub_nonneg.mpr h4)] at h2
    have : x = y := by linarith
    rw [this] at c
    exact lt_irrefl _ c

theorem representable_two_mul (p : ℕ) (x : ℚ) (h : Representable p x) : Representable p (2 * x) := by
  obtain ⟨m, e, h1, h2⟩ := h
  refine ⟨m, e + 1, h1, ?_⟩
  rw [h2, zpow_add₀ (by norm_num), zpow_one]
  ring

/-- Scaling by two. -/
theorem round_two_mul (p : ℕ) (x : ℚ) : round p (2 * x) = 2 * round p x := by
  by_cases hx : x = 0
  · subst hx; simp [round, nearest]
  have h : Int.log 2 |2 * x| = Int.log 2 |x| + 1 := by
    have h0 : 0 < |x| := abs_pos.mpr hx
    have h1 := Int.zpow_log_le_self (b := 2) (by norm_num) h0
    have h2 := Int.lt_zpow_succ_log_self (b := 2) (by norm_num) |x|
    have h3 : |2 * x| = 2 * |x| := by rw [abs_mul, abs_two]
    rw [h3]
    have h0' : 0 < 2 * |x| := by positivity
    push_cast at h1 h2
    apply le_antisymm
    · have := (Int.lt_zpow_iff_log_lt (b := 2) (by norm_num) (x := Int.log 2 |x| + 1 + 1) h0').mp (by
        push_cast
        rw [zpow_add₀ (by norm_num) (Int.log 2 |x| + 1) 1, zpow_one]
        linarith)
      omega
    · refine (Int.zpow_le_iff_le_log (b := 2) (by norm_num) h0').mp ?_
      push_cast
      rw [zpow_add₀ (by norm_num), zpow_one]
      linarith
  rw [round_eq, round_eq, h]
  have e : (2 : ℚ) ^ (Int.log 2 |x| + 1 + 1 - (p : ℤ)) = 2 * 2 ^ (Int.log 2 |x| + 1 - (p : ℤ)) := by
    rw [show Int.log 2 |x| + 1 + 1 - (p : ℤ) = 1 + (Int.log 2 |x| + 1 - (p : ℤ)) by ring, zpow_add₀ (by norm_num), zpow_one]
  rw [e, mul_div_mul_left _ _ (by norm_num : (2 : ℚ) ≠ 0)]
  ring

/-- Whole numbers that fit are exact. -/
theorem cast_exact (p : ℕ) [NeZero p] (n : ℤ) (h : |n| < 2 ^ p) : ((n : Binary p)).val = n := by
  show round p (n : ℚ) = n
  exact round_of_representable p _ ⟨n, 0, h, by simp⟩

end DSP.Binary
