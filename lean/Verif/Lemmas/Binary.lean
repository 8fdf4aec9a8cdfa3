import Verif.Model.Binary
import Mathlib.Tactic.LinearCombination

/-!
# Error-free addition in binary floating point
-/

namespace DSP.Binary

theorem nearest_int (n : ℤ) : nearest (n : ℚ) = n := by
  have h := nearest_near n
  rw [abs_le] at h
  have a : nearest (n : ℚ) < n + 1 := by
    have : (nearest (n : ℚ) : ℚ) < n + 1 := by linarith [h.2]
    exact_mod_cast this
  have b : n < nearest (n : ℚ) + 1 := by
    have : (n : ℚ) < nearest (n : ℚ) + 1 := by linarith [h.1]
    exact_mod_cast this
  omega

theorem log_lt (x : ℚ) (hx : x ≠ 0) (k : ℤ) (h : |x| < 2 ^ k) : Int.log 2 |x| < k := by
  have := (Int.lt_zpow_iff_log_lt (b := 2) (by norm_num) (abs_pos.mpr hx) (x := k)).mp (by push_cast; exact h)
  exact this

theorem pow_le_of_log (x : ℚ) (hx : x ≠ 0) : (2 : ℚ) ^ (Int.log 2 |x|) ≤ |x| := by
  have := Int.zpow_log_le_self (b := 2) (by norm_num) (abs_pos.mpr hx)
  push_cast at this
  exact this

theorem lt_pow_log (x : ℚ) : |x| < (2 : ℚ) ^ (Int.log 2 |x| + 1) := by
  have := Int.lt_zpow_succ_log_self (b := 2) (by norm_num) |x|
  push_cast at this
  exact this

theorem round_eq (p : ℕ) (x : ℚ) : round p x = nearest (x / 2 ^ (Int.log 2 |x| + 1 - (p : ℤ))) * 2 ^ (Int.log 2 |x| + 1 - (p : ℤ)) := rfl

/-- A multiple of `2^k` is also one of a smaller power. -/
theorem multiple_down (x : ℚ) (k l : ℤ) (h : l ≤ k) (hx : ∃ n : ℤ, x = n * 2 ^ k) : ∃ n : ℤ, x = n * 2 ^ l := by
  obtain ⟨n, rfl⟩ := hx
  obtain ⟨d, rfl⟩ : ∃ d : ℕ, k = l + d := ⟨(k - l).toNat, by omega⟩
  refine ⟨n * 2 ^ d, ?_⟩
  rw [zpow_add₀ (by norm_num), zpow_natCast]
  push_cast
  ring

theorem round_of_multiple (p : ℕ) (x : ℚ) (h : ∃ n : ℤ, x = n * 2 ^ (Int.log 2 |x| + 1 - (p : ℤ))) : round p x = x := by
  obtain ⟨n, hn⟩ := h
  rw [round_eq]
  generalize Int.log 2 |x| + 1 - (p : ℤ) = e at *
  have hp : (2 : ℚ) ^ e ≠ 0 := by positivity
  have : x / 2 ^ e = n := by rw [hn]; field_simp
  rw [this, nearest_int, hn]

theorem round_of_representable (p : ℕ) (x : ℚ) (h : Representable p x) : round p x = x := by
  by_cases hx : x = 0
  · subst hx; simp [round, nearest]
  obtain ⟨m, e, hm, rfl⟩ := h
  refine round_of_multiple p _ (multiple_down _ e _ ?_ ⟨m, rfl⟩)
  have : |(m : ℚ) * 2 ^ e| < 2 ^ (e + p) := by
    rw [abs_mul, abs_of_pos (by positivity : (0 : ℚ) < 2 ^ e), zpow_add₀ (by norm_num), zpow_natCast, mul_comm]
    have : |(m : ℚ)| < 2 ^ p := by exact_mod_cast hm
    gcongr
  have := log_lt _ hx _ this
  omega

/-- Up to `2^p` the mantissa will do. -/
theorem representable_of_le (p : ℕ) (hp : 0 < p) (x : ℚ) (n e : ℤ) (hx : x = n * 2 ^ e) (h : |x| ≤ 2 ^ p * 2 ^ e) : Representable p x := by
  have hn : |n| ≤ 2 ^ p := by
    rw [hx, abs_mul, abs_of_pos (by positivity : (0 : ℚ) < 2 ^ e)] at h
    have := le_of_mul_le_mul_right h (by positivity)
    exact_mod_cast this
  rcases hn.lt_or_eq with h | h
  · exact ⟨n, e, h, hx⟩
  · have h2 : (1 : ℤ) < 2 ^ p := one_lt_pow₀ (by norm_num) hp.ne'
    rcases abs_eq (by positivity) |>.mp h with h | h
    · refine ⟨1, p + e, by rw [abs_one]; exact h2, ?_⟩
      rw [hx, h, zpow_add₀ (by norm_num), zpow_natCast]
      push_cast
      ring
    · refine ⟨-1, p + e, by rw [abs_neg, abs_one]; exact h2, ?_⟩
      rw [hx, h, zpow_add₀ (by norm_num), zpow_natCast]
      push_cast
      ring

/-- Every number of `p` bits is a multiple of the power its size suggests. -/
theorem multiple_of_representable (p : ℕ) (x : ℚ) (h : Representable p x) : ∃ n : ℤ, x = n * 2 ^ (Int.log 2 |x| + 1 - (p : ℤ)) := by
  exact ⟨_, (round_of_representable p x h).symm.trans (round_eq p x)⟩

/-- Dekker's theorem: with the larger number first, the difference is exact and so is the error. -/
theorem fast_two_sum (p : ℕ) (hp : 0 < p) (a b : ℚ) (ha : Representable p a) (hb : Representable p b) (h : |b| ≤ |a|) :
    Representable p (round p (a + b) - a) ∧ Representable p (round p (a + b) - a - b) := by
  have h0 : Representable p 0 := ⟨0, 0, by simp, by simp⟩
  by_cases hb0 : b = 0
  · subst hb0
    rw [add_zero, round_of_representable p a ha, sub_self, sub_zero]
    exact ⟨h0, h0⟩
  by_cases hs0 : a + b = 0
  · have : round p (a + b) = 0 := by rw [hs0]; simp [round, nearest]
    rw [this, show (0 : ℚ) - a = b by linarith, sub_self]
    exact ⟨hb, h0⟩
  have ha0 : a ≠ 0 := by
    rintro rfl
    rw [abs_zero] at h
    exact hb0 (abs_eq_zero.mp (le_antisymm h (abs_nonneg b)))
  by_cases hex : round p (a + b) = a + b
  · rw [hex, show a + b - a = b by ring, sub_self]
    exact ⟨hb, h0⟩
  -- exponents of the last places
  obtain ⟨A, hA⟩ := multiple_of_representable p a ha
  obtain ⟨B, hB⟩ := multiple_of_representable p b hb
  have la := lt_pow_log a
  have lb := lt_pow_log b
  have pb := pow_le_of_log b hb0
  have pa := pow_le_of_log a ha0
  have ps := pow_le_of_log _ hs0
  have lba : Int.log 2 |b| ≤ Int.log 2 |a| := by
    have := log_lt b hb0 (Int.log 2 |a| + 1) (lt_of_le_of_lt h la)
    omega
  have lsa : Int.log 2 |a + b| ≤ Int.log 2 |a| + 1 := by
    have h2 : |a + b| < 2 ^ (Int.log 2 |a| + 2) := by
      rw [show Int.log 2 |a| + 2 = Int.log 2 |a| + 1 + 1 by ring, zpow_add_one₀ (by norm_num)]
      linarith [abs_add_le a b]
    have := log_lt _ hs0 _ h2
    omega
  have hrs : ∃ n : ℤ, round p (a + b) = n * 2 ^ (Int.log 2 |a + b| + 1 - (p : ℤ)) := ⟨_, round_eq p (a + b)⟩
  have hks : Int.log 2 |b| < Int.log 2 |a + b| := by
    by_contra c
    push Not at c
    apply hex
    apply round_of_multiple
    obtain ⟨A', hA'⟩ := multiple_down a _ (Int.log 2 |a + b| + 1 - (p : ℤ)) (by omega) ⟨A, hA⟩
    obtain ⟨B', hB'⟩ := multiple_down b _ (Int.log 2 |a + b| + 1 - (p : ℤ)) (by omega) ⟨B, hB⟩
    refine ⟨A' + B', ?_⟩
    generalize Int.log 2 |a + b| + 1 - (p : ℤ) = e at *
    rw [hA', hB']
    push_cast
    ring
  have herr : |round p (a + b) - (a + b)| ≤ 2 ^ (Int.log 2 |a + b| - (p : ℤ)) := by
    have := nearest_near ((a + b) / 2 ^ (Int.log 2 |a + b| + 1 - (p : ℤ)))
    rw [round_eq]
    have e1 : Int.log 2 |a + b| - (p : ℤ) = (Int.log 2 |a + b| + 1 - (p : ℤ)) - 1 := by ring
    rw [e1]
    generalize Int.log 2 |a + b| + 1 - (p : ℤ) = e at *
    have hpe : (0 : ℚ) < 2 ^ e := by positivity
    have e2 : (nearest ((a + b) / 2 ^ e) : ℚ) * 2 ^ e - (a + b) = (nearest ((a + b) / 2 ^ e) - (a + b) / 2 ^ e) * 2 ^ e := by field_simp
    rw [e2, abs_mul, abs_of_pos hpe, zpow_sub_one₀ (by norm_num)]
    calc _ ≤ 1 / 2 * (2 : ℚ) ^ e := by gcongr
      _ = _ := by ring
  have hbk : |b| ≤ (2 ^ p - 1) * 2 ^ (Int.log 2 |b| + 1 - (p : ℤ)) := by
    have hBp : |B| < 2 ^ p := by
      have : |b| < (2 : ℚ) ^ p * 2 ^ (Int.log 2 |b| + 1 - (p : ℤ)) := by
        rw [← zpow_natCast, ← zpow_add₀ (by norm_num), show (p : ℤ) + (Int.log 2 |b| + 1 - p) = Int.log 2 |b| + 1 by ring]
        exact lb
      nth_rw 1 [hB] at this
      rw [abs_mul, abs_of_pos (by positivity : (0 : ℚ) < 2 ^ (Int.log 2 |b| + 1 - (p : ℤ)))] at this
      have := lt_of_mul_lt_mul_right this (by positivity)
      exact_mod_cast this
    nth_rw 1 [hB]
    rw [abs_mul, abs_of_pos (by positivity : (0 : ℚ) < 2 ^ (Int.log 2 |b| + 1 - (p : ℤ)))]
    have : |(B : ℚ)| ≤ 2 ^ p - 1 := by
      have : |B| ≤ 2 ^ p - 1 := by omega
      exact_mod_cast this
    gcongr
  constructor
  · -- the difference
    obtain ⟨t, ht1, ht2, ht3⟩ : ∃ t : ℤ, t ≤ Int.log 2 |a| + 1 - p ∧ t ≤ Int.log 2 |a + b| + 1 - p ∧ (Int.log 2 |b| + 1 - p ≤ t ∧ Int.log 2 |a + b| - p ≤ t) := by
      rcases le_total (Int.log 2 |a|) (Int.log 2 |a + b|) with c | c
      · exact ⟨Int.log 2 |a| + 1 - p, by omega, by omega, by omega, by omega⟩
      · exact ⟨Int.log 2 |a + b| + 1 - p, by omega, by omega, by omega, by omega⟩
    obtain ⟨A', hA'⟩ := multiple_down a _ t ht1 ⟨A, hA⟩
    obtain ⟨S, hS⟩ := multiple_down _ _ t ht2 hrs
    refine representable_of_le p hp _ (S - A') t (by rw [hS]; push_cast; linear_combination -hA') ?_
    have q1 : (2 : ℚ) ^ (Int.log 2 |b| + 1 - (p : ℤ)) ≤ 2 ^ t := zpow_le_zpow_right₀ (by norm_num) ht3.1
    have q2 : (2 : ℚ) ^ (Int.log 2 |a + b| - (p : ℤ)) ≤ 2 ^ t := zpow_le_zpow_right₀ (by norm_num) ht3.2
    have q3 : (0 : ℚ) ≤ 2 ^ p - 1 := by
      have : (1 : ℚ) ≤ 2 ^ p := one_le_pow₀ (by norm_num)
      linarith
    have q4 : ((2 : ℚ) ^ p - 1) * 2 ^ (Int.log 2 |b| + 1 - (p : ℤ)) ≤ (2 ^ p - 1) * 2 ^ t := by gcongr
    have e : round p (a + b) - a = (round p (a + b) - (a + b)) + b := by ring
    rw [e]
    refine (abs_add_le _ _).trans ?_
    linarith
  · -- the error
    have e : round p (a + b) - a - b = round p (a + b) - (a + b) := by ring
    obtain ⟨A', hA'⟩ := multiple_down a _ (Int.log 2 |b| + 1 - (p : ℤ)) (by omega) ⟨A, hA⟩
    obtain ⟨S, hS⟩ := multiple_down _ _ (Int.log 2 |b| + 1 - (p : ℤ)) (by omega) hrs
    refine representable_of_le p hp _ (S - A' - B) (Int.log 2 |b| + 1 - (p : ℤ)) (by rw [hS]; push_cast; linear_combination -hA' - hB) ?_
    rw [e]
    have hpow : (2 : ℚ) ^ p * 2 ^ (Int.log 2 |b| + 1 - (p : ℤ)) = 2 ^ (Int.log 2 |b| + 1) := by
      rw [← zpow_natCast, ← zpow_add₀ (by norm_num)]
      congr 1
      ring
    rw [hpow]
    rcases le_or_gt (Int.log 2 |a + b|) (Int.log 2 |a|) with c | c
    · -- `a` is a candidate of the rounding
      obtain ⟨n, hn⟩ := multiple_down a _ (Int.log 2 |a + b| + 1 - (p : ℤ)) (by omega) ⟨A, hA⟩
      refine le_trans ?_ lb.le
      have hbest : ∀ (y : ℚ) (n : ℤ), |(nearest y : ℚ) - y| ≤ |(n : ℚ) - y| := by
        intro y n
        by_cases cn : nearest y = n
        · rw [cn]
        · have h1 := nearest_near y
          have h2 : (1 : ℚ) ≤ |(nearest y : ℚ) - n| := by
            have : 1 ≤ |nearest y - n| := Int.one_le_abs (sub_ne_zero.mpr cn)
            exact_mod_cast this
          have h3 := abs_sub_le (nearest y : ℚ) y n
          rw [abs_sub_comm y n] at h3
          linarith
      rw [round_eq]
      generalize Int.log 2 |a + b| + 1 - (p : ℤ) = e at *
      have hpe : (0 : ℚ) < 2 ^ e := by positivity
      have e2 : (nearest ((a + b) / 2 ^ e) : ℚ) * 2 ^ e - (a + b) = (nearest ((a + b) / 2 ^ e) - (a + b) / 2 ^ e) * 2 ^ e := by field_simp
      rw [e2, abs_mul, abs_of_pos hpe]
      have := hbest ((a + b) / 2 ^ e) n
      calc _ ≤ |(n : ℚ) - (a + b) / 2 ^ e| * 2 ^ e := by gcongr
        _ = |((n : ℚ) - (a + b) / 2 ^ e) * 2 ^ e| := by rw [abs_mul, abs_of_pos hpe]
        _ = |b| := by
          rw [sub_mul, div_mul_cancel₀ _ hpe.ne', ← hn, show a - (a + b) = -b by ring, abs_neg]
    · -- the sum is in the next binade, so `b` is at least one unit in the last place of `a`
      have hls : Int.log 2 |a + b| = Int.log 2 |a| + 1 := by omega
      have hAp : |a| ≤ (2 ^ p - 1) * 2 ^ (Int.log 2 |a| + 1 - (p : ℤ)) := by
        have hAp : |A| < 2 ^ p := by
          have : |a| < (2 : ℚ) ^ p * 2 ^ (Int.log 2 |a| + 1 - (p : ℤ)) := by
            rw [← zpow_natCast, ← zpow_add₀ (by norm_num), show (p : ℤ) + (Int.log 2 |a| + 1 - p) = Int.log 2 |a| + 1 by ring]
            exact la
          nth_rw 1 [hA] at this
          rw [abs_mul, abs_of_pos (by positivity : (0 : ℚ) < 2 ^ (Int.log 2 |a| + 1 - (p : ℤ)))] at this
          have := lt_of_mul_lt_mul_right this (by positivity)
          exact_mod_cast this
        nth_rw 1 [hA]
        rw [abs_mul, abs_of_pos (by positivity : (0 : ℚ) < 2 ^ (Int.log 2 |a| + 1 - (p : ℤ)))]
        have : |(A : ℚ)| ≤ 2 ^ p - 1 := by
          have : |A| ≤ 2 ^ p - 1 := by omega
          exact_mod_cast this
        gcongr
      have hpa : (2 : ℚ) ^ p * 2 ^ (Int.log 2 |a| + 1 - (p : ℤ)) = 2 ^ (Int.log 2 |a| + 1) := by
        rw [← zpow_natCast, ← zpow_add₀ (by norm_num)]
        congr 1
        ring
      rw [hls] at ps herr
      have hbig : (2 : ℚ) ^ (Int.log 2 |a| + 1 - (p : ℤ)) ≤ |b| := by
        have := abs_add_le a b
        linarith
      exact herr.trans (hbig.trans lb.le)

end DSP.Binary
