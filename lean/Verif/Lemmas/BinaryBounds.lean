import Verif.Lemmas.IntRound

/-!
# Rounding near powers of two
-/

namespace DSP.Binary

theorem round_zero (p : ℕ) : round p 0 = 0 := by simp [round, nearest]

/-- Rounding does not lead across a power of two. -/
theorem round_abs_le (p : ℕ) (hp : 0 < p) (x : ℚ) (k : ℤ) (h : |x| ≤ 2 ^ k) : |round p x| ≤ 2 ^ k := by
  by_cases hx : x = 0
  · subst hx; rw [round_zero, abs_zero]; positivity
  have hl : Int.log 2 |x| ≤ k := by
    have := log_lt x hx (k + 1) (lt_of_le_of_lt h (by rw [zpow_add_one₀ (by norm_num)]; linarith [show (0 : ℚ) < 2 ^ k by positivity]))
    omega
  obtain ⟨n, hn⟩ : ∃ n : ℕ, k = (n : ℤ) + (Int.log 2 |x| + 1 - p) := ⟨(k - (Int.log 2 |x| + 1 - p)).toNat, by omega⟩
  rw [round_eq]
  generalize Int.log 2 |x| + 1 - (p : ℤ) = e at *
  have he : (0 : ℚ) < 2 ^ e := by positivity
  have hk : (2 : ℚ) ^ k = 2 ^ n * 2 ^ e := by rw [hn, zpow_add₀ (by norm_num), zpow_natCast]
  have h1 : |x / 2 ^ e| ≤ ((2 ^ n : ℤ) : ℚ) := by
    rw [abs_div, abs_of_pos he, div_le_iff₀ he]
    push_cast
    rw [← hk]; exact h
  have h2 : ((|nearest (x / 2 ^ e)| : ℤ) : ℚ) ≤ ((2 ^ n : ℤ) : ℚ) := by exact_mod_cast nearest_le _ _ h1
  rw [abs_mul, abs_of_pos he, hk]
  push_cast at h2
  exact mul_le_mul_of_nonneg_right h2 he.le

theorem nearest_half (n : ℤ) (hn : n % 2 = 0) (x : ℚ) (h0 : (n : ℚ) ≤ x) (h1 : x ≤ n + 1 / 2) : nearest x = n := by
  have hf : ⌊x⌋ = n := by rw [Int.floor_eq_iff]; constructor <;> linarith
  unfold nearest
  simp only [hf]
  split_ifs with h2 h3
  · rfl
  · exfalso; linarith
  · rfl

/-- What lies less than half a place above a power of two goes back to it, ties included. -/
theorem round_abs_le_pow (p : ℕ) (hp : 2 ≤ p) (x : ℚ) (k : ℤ) (h : |x| ≤ 2 ^ k + 2 ^ (k - p)) : |round p x| ≤ 2 ^ k := by
  have key : ∀ x : ℚ, 0 ≤ x → x ≤ 2 ^ k + 2 ^ (k - p) → |round p x| ≤ 2 ^ k := by
    intro x h0 h
    rcases le_or_gt x (2 ^ k) with h1 | h1
    · exact round_abs_le p (by omega) x k (by rw [abs_of_nonneg h0]; exact h1)
    have hk : (0 : ℚ) < 2 ^ k := by positivity
    have hle : (2 : ℚ) ^ (k - p) < 2 ^ k := zpow_lt_zpow_right₀ (by norm_num) (by omega)
    have hx : x ≠ 0 := (hk.trans h1).ne'
    have hl : Int.log 2 |x| = k := by
      have a := log_lt x hx (k + 1) (by rw [abs_of_nonneg h0, zpow_add_one₀ (by norm_num)]; linarith)
      have b := lt_pow_log x
      rw [abs_of_nonneg h0] at b a ⊢
      have := (zpow_lt_zpow_iff_right₀ (by norm_num : (1 : ℚ) < 2)).mp (h1.trans b)
      omega
    rw [round_eq, hl]
    have he : (0 : ℚ) < 2 ^ (k + 1 - (p : ℤ)) := by positivity
    have e1 : (2 : ℚ) ^ k = ((2 ^ (p - 1) : ℤ) : ℚ) * 2 ^ (k + 1 - (p : ℤ)) := by
      push_cast
      rw [← zpow_natCast, ← zpow_add₀ (by norm_num)]
      congr 1; omega
    have e2 : (2 : ℚ) ^ (k - (p : ℤ)) = 1 / 2 * 2 ^ (k + 1 - (p : ℤ)) := by
      rw [show k + 1 - (p : ℤ) = k - p + 1 by ring, zpow_add_one₀ (by norm_num)]; ring
    have hn := nearest_half (2 ^ (p - 1)) (by
      obtain ⟨m, rfl⟩ : ∃ m, p = m + 2 := ⟨p - 2, by omega⟩
      rw [show m + 2 - 1 = m + 1 by omega, pow_succ]; omega) (x / 2 ^ (k + 1 - (p : ℤ)))
      (by rw [le_div_iff₀ he, ← e1]; exact h1.le) (by rw [div_le_iff₀ he, add_mul, ← e1, ← e2]; exact h)
    rw [hn, ← e1, abs_of_pos hk]
  rcases le_or_gt 0 x with h0 | h0
  · exact key x h0 (by rwa [abs_of_nonneg h0] at h)
  · have := key (-x) (by linarith) (by rwa [abs_of_neg h0] at h)
    rwa [round_neg, abs_neg] at this

theorem nearest_min (x : ℚ) (n : ℤ) : |(nearest x : ℚ) - x| ≤ |(n : ℚ) - x| := by
  by_contra c
  push Not at c
  have h := nearest_near x
  have : |((nearest x - n : ℤ) : ℚ)| < 1 := by
    push_cast
    have := abs_sub_le (nearest x : ℚ) x n
    rw [abs_sub_comm x] at this
    linarith
  have h1 : |nearest x - n| < 1 := by exact_mod_cast this
  have h2 : nearest x = n := by
    have := Int.abs_lt_one_iff.mp h1
    omega
  rw [h2] at c
  exact lt_irrefl _ c

/-- No number of `p` bits is nearer than the one that rounding gives. -/
theorem round_nearest (p : ℕ) (hp : 0 < p) (x y : ℚ) (hy : Representable p y) : |round p x - x| ≤ |y - x| := by
  by_cases hx : x = 0
  · subst hx; rw [round_zero]; simp
  have key : ∀ y : ℚ, (∃ n : ℤ, y = n * 2 ^ (Int.log 2 |x| + 1 - (p : ℤ))) → |round p x - x| ≤ |y - x| := by
    rintro y ⟨n, hn⟩
    rw [round_eq, hn]
    generalize Int.log 2 |x| + 1 - (p : ℤ) = e at *
    have he : (0 : ℚ) < 2 ^ e := by positivity
    have e1 : ∀ z : ℚ, z * 2 ^ e - x = (z - x / 2 ^ e) * 2 ^ e := by intro z; field_simp
    rw [e1, e1, abs_mul, abs_mul]
    exact mul_le_mul_of_nonneg_right (nearest_min _ n) (abs_nonneg _)
  obtain ⟨B, hB⟩ := multiple_of_representable p y hy
  rcases le_or_gt (Int.log 2 |x|) (Int.log 2 |y|) with hl | hl
  · exact key y (multiple_down y _ _ (by omega) ⟨B, hB⟩)
  · have ly := lt_pow_log y
    have px := pow_le_of_log x hx
    have hy2 : |y| < (2 : ℚ) ^ (Int.log 2 |x|) := lt_of_lt_of_le ly (zpow_le_zpow_right₀ (by norm_num) (by omega))
    have h3 : |x| - |y| ≤ |y - x| := by rw [abs_sub_comm]; exact abs_sub_abs_le_abs_sub x y
    have e1 : (2 : ℚ) ^ (Int.log 2 |x|) = ((2 ^ (p - 1) : ℤ) : ℚ) * 2 ^ (Int.log 2 |x| + 1 - (p : ℤ)) := by
      push_cast
      rw [← zpow_natCast, ← zpow_add₀ (by norm_num)]
      congr 1; omega
    rcases le_or_gt 0 x with c | c
    · have := key _ ⟨_, e1⟩
      have hx' := abs_of_nonneg c
      rw [abs_of_nonpos (a := (2 : ℚ) ^ (Int.log 2 |x|) - x) (by linarith)] at this
      linarith
    · have := key (-(2 : ℚ) ^ (Int.log 2 |x|)) ⟨-2 ^ (p - 1), by rw [e1]; push_cast; ring⟩
      have hx' := abs_of_neg c
      rw [abs_of_nonneg (a := -(2 : ℚ) ^ (Int.log 2 |x|) - x) (by linarith)] at this
      linarith

/-- Subtracting one from a number between a half and one is exact. -/
theorem sub_one_exact (p : ℕ) (hp : 0 < p) (x : ℚ) (hx : Representable p x) (h0 : 1 / 2 ≤ x) (h1 : x ≤ 1) : round p (x - 1) = x - 1 := by
  obtain ⟨n, hn⟩ := multiple_of_representable p x hx
  have hl : -1 ≤ Int.log 2 |x| := by
    have b := lt_pow_log x
    rw [abs_of_pos (by linarith)] at b ⊢
    have : (2 : ℚ) ^ (-1 : ℤ) < 2 ^ (Int.log 2 x + 1) := lt_of_le_of_lt (by norm_num; linarith) b
    have := (zpow_lt_zpow_iff_right₀ (by norm_num : (1 : ℚ) < 2)).mp this
    omega
  obtain ⟨m, hm⟩ := multiple_down x _ (-(p : ℤ)) (by omega) ⟨n, hn⟩
  apply round_of_representable
  refine representable_of_le p hp _ (m - 2 ^ p) (-(p : ℤ)) ?_ ?_
  · push_cast
    rw [sub_mul, ← hm, zpow_neg, zpow_natCast, mul_inv_cancel₀ (by positivity)]
  · rw [zpow_neg, zpow_natCast, mul_inv_cancel₀ (by positivity), abs_le]
    constructor <;> linarith

/-- Different numbers of `p` bits are not too close. -/
theorem representable_gap (p : ℕ) (hp : 0 < p) (a b : ℚ) (ha : Representable p a) (hb : Representable p b) (h : |a - b| < |a| / 2 ^ p) : a = b := by
  by_contra hne
  by_cases ha0 : a = 0
  · subst ha0; rw [abs_zero, zero_div] at h; exact absurd h (not_lt.mpr (abs_nonneg _))
  have hp1 : (1 : ℚ) < 2 ^ p := one_lt_pow₀ (by norm_num) hp.ne'
  have haP : 0 < |a| := abs_pos.mpr ha0
  by_cases hb0 : b = 0
  · subst hb0
    rw [sub_zero, lt_div_iff₀ (by positivity)] at h
    nlinarith
  obtain ⟨A, hA⟩ := multiple_of_representable p a ha
  obtain ⟨B, hB⟩ := multiple_of_representable p b hb
  have la := lt_pow_log a
  have pa := pow_le_of_log a ha0
  have lb := lt_pow_log b
  have pb := pow_le_of_log b hb0
  -- a common multiple
  have key : ∀ e : ℤ, (∃ n : ℤ, a = n * 2 ^ e) → (∃ n : ℤ, b = n * 2 ^ e) → (2 : ℚ) ^ e ≤ |a - b| := by
    rintro e ⟨n, hn⟩ ⟨m, hm⟩
    have hnm : n ≠ m := by rintro rfl; exact hne (hn.trans hm.symm)
    have he : (0 : ℚ) < 2 ^ e := by positivity
    rw [hn, hm, ← sub_mul, abs_mul, abs_of_pos he]
    have : (1 : ℤ) ≤ |n - m| := Int.one_le_abs (sub_ne_zero.mpr hnm)
    have : (1 : ℚ) ≤ |(n : ℚ) - m| := by exact_mod_cast this
    nlinarith
  rcases le_or_gt (Int.log 2 |a|) (Int.log 2 |b|) with hl | hl
  · have := key _ ⟨A, hA⟩ (multiple_down b _ _ (by omega) ⟨B, hB⟩)
    have e1 : |a| / 2 ^ p < (2 : ℚ) ^ (Int.log 2 |a| + 1 - (p : ℤ)) := by
      rw [div_lt_iff₀ (by positivity), zpow_sub₀ (by norm_num), zpow_natCast, div_mul_cancel₀ _ (by positivity)]
      exact la
    linarith
  · -- the other one is smaller: between them there is a power of two
    have hb2 : |b| < (2 : ℚ) ^ (Int.log 2 |a|) := lt_of_lt_of_le lb (zpow_le_zpow_right₀ (by norm_num) (by omega))
    have h3 : |a| - |b| ≤ |a - b| := abs_sub_abs_le_abs_sub a b
    have hP : (0 : ℚ) < 2 ^ (Int.log 2 |a|) := by positivity
    rw [lt_div_iff₀ (by positivity)] at h
    -- the smaller one is at least half of it
    have hlb : Int.log 2 |b| + 1 = Int.log 2 |a| := by
      by_contra hc
      have hb4 : |b| < (2 : ℚ) ^ (Int.log 2 |a| - 1) := lt_of_lt_of_le lb (zpow_le_zpow_right₀ (by norm_num) (by omega))
      rw [zpow_sub_one₀ (by norm_num)] at hb4
      have h2p : (2 : ℚ) ≤ 2 ^ p := by
        calc (2 : ℚ) = 2 ^ 1 := by norm_num
          _ ≤ 2 ^ p := pow_le_pow_right₀ (by norm_num) (by omega)
      nlinarith [abs_nonneg (a - b)]
    have k := key (Int.log 2 |b| + 1 - p) (multiple_down a _ _ (by omega) ⟨A, hA⟩) ⟨B, hB⟩
    rw [hlb, zpow_sub₀ (by norm_num), zpow_natCast, div_le_iff₀ (by positivity)] at k
    rcases pa.lt_or_eq with pa' | pa'
    · have hq : ∃ m : ℤ, |a| = m * 2 ^ (Int.log 2 |a| + 1 - (p : ℤ)) := by
        rcases abs_choice a with c | c
        · exact ⟨A, by rw [c] at hA ⊢; exact hA⟩
        · refine ⟨-A, ?_⟩
          generalize Int.log 2 |a| + 1 - (p : ℤ) = e at *
          rw [c, hA]; push_cast; ring
      obtain ⟨m, hm⟩ := hq
      have e1 : (2 : ℚ) ^ (Int.log 2 |a|) = ((2 ^ (p - 1) : ℤ) : ℚ) * 2 ^ (Int.log 2 |a| + 1 - (p : ℤ)) := by
        push_cast
        rw [← zpow_natCast, ← zpow_add₀ (by norm_num)]
        congr 1; omega
      have e2 : |a| < 2 ^ p * (2 : ℚ) ^ (Int.log 2 |a| + 1 - (p : ℤ)) := by
        rw [← zpow_natCast, ← zpow_add₀ (by norm_num), show (p : ℤ) + (Int.log 2 |a| + 1 - (p : ℤ)) = Int.log 2 |a| + 1 by ring]
        exact la
      generalize Int.log 2 |a| + 1 - (p : ℤ) = e at *
      have he : (0 : ℚ) < 2 ^ e := by positivity
      have h4 : (2 ^ (p - 1) : ℤ) < m := by
        have : (((2 ^ (p - 1) : ℤ)) : ℚ) * 2 ^ e < m * 2 ^ e := by rw [← e1, ← hm]; exact pa'
        exact_mod_cast lt_of_mul_lt_mul_right this he.le
      have h5 : (((2 ^ (p - 1) : ℤ)) : ℚ) + 1 ≤ m := by exact_mod_cast h4
      have h6 : 2 ^ e ≤ |a - b| := by nlinarith
      have : (2 : ℚ) ^ e * 2 ^ p ≤ |a - b| * 2 ^ p := mul_le_mul_of_nonneg_right h6 (by positivity)
      linarith
    · linarith

end DSP.Binary
