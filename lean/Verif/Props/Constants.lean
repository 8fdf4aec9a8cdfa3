import Verif.Model.Elementary
import Verif.Lemmas.Digits
import Mathlib.Analysis.SpecialFunctions.Pow.Real
import Mathlib.Analysis.SpecialFunctions.Sqrt

/-!
# C40: the printed constants
-/

namespace DSP.Const
open Digits

/-- The number `printed` is `exact` cut off after the digit worth `unit`. -/
def Truncated (printed exact unit : ℝ) : Prop := printed ≤ exact ∧ exact < printed + unit

theorem pi_between : (3.1415926535897932384626433832795028841971693993751058209749445923078164 : ℝ) ≤ Real.pi ∧
    Real.pi < 3.1415926535897932384626433832795028841971693993751058209749445923078165 := by
  have h := abs_le.mp pi_digits
  rw [Digits.pi] at h
  push_cast at h
  constructor <;> norm_num at h ⊢ <;> linarith [h.1, h.2]

theorem sqrt_truncated (p v u : ℝ) (hp : 0 ≤ p) (h1 : p * p ≤ v) (h2 : v < (p + u) * (p + u)) (hu : 0 < u) : Truncated p (Real.sqrt v) u :=
  ⟨Real.le_sqrt_of_sq_le (by nlinarith), by rw [Real.sqrt_lt' (by linarith)]; nlinarith⟩

/-- Every constant of const.hh is the exact value cut off after the last printed digit. -/
theorem C40_const :
    Truncated eighthPi (Real.pi / 8) (1 / 10 ^ 67) ∧ Truncated fourthPi (Real.pi / 4) (1 / 10 ^ 67) ∧ Truncated halfPi (Real.pi / 2) (1 / 10 ^ 66) ∧
    Truncated pi Real.pi (1 / 10 ^ 66) ∧ Truncated twoPi (2 * Real.pi) (1 / 10 ^ 66) ∧ Truncated fourPi (4 * Real.pi) (1 / 10 ^ 65) ∧
    Truncated sqrtPi (Real.sqrt Real.pi) (1 / 10 ^ 66) ∧ Truncated sqrtTwoPi (Real.sqrt (2 * Real.pi)) (1 / 10 ^ 66) ∧ Truncated invSqrtTwo (1 / Real.sqrt 2) (1 / 10 ^ 67) := by
  obtain ⟨h1, h2⟩ := pi_between
  have e : 1 / Real.sqrt 2 = Real.sqrt (1 / 2) := by rw [Real.sqrt_div (by norm_num), Real.sqrt_one]
  rw [e]
  refine ⟨⟨?_, ?_⟩, ⟨?_, ?_⟩, ⟨?_, ?_⟩, ⟨?_, ?_⟩, ⟨?_, ?_⟩, ⟨?_, ?_⟩, ?_, ?_, ?_⟩
  · rw [eighthPi]; norm_num at h1 h2 ⊢; linarith
  · rw [eighthPi]; norm_num at h1 h2 ⊢; linarith
  · rw [fourthPi]; norm_num at h1 h2 ⊢; linarith
  · rw [fourthPi]; norm_num at h1 h2 ⊢; linarith
  · rw [halfPi]; norm_num at h1 h2 ⊢; linarith
  · rw [halfPi]; norm_num at h1 h2 ⊢; linarith
  · rw [pi]; norm_num at h1 h2 ⊢; linarith
  · rw [pi]; norm_num at h1 h2 ⊢; linarith
  · rw [twoPi]; norm_num at h1 h2 ⊢; linarith
  · rw [twoPi]; norm_num at h1 h2 ⊢; linarith
  · rw [fourPi]; norm_num at h1 h2 ⊢; linarith
  · rw [fourPi]; norm_num at h1 h2 ⊢; linarith
  · refine sqrt_truncated _ _ _ ?_ (le_trans ?_ h1) (lt_trans h2 ?_) (by norm_num) <;> norm_num [sqrtPi]
  · refine sqrt_truncated _ _ _ ?_ (le_trans ?_ (mul_le_mul_of_nonneg_left h1 (by norm_num))) (lt_trans (mul_lt_mul_of_pos_left h2 (by norm_num)) ?_) (by norm_num) <;> norm_num [sqrtTwoPi]
  · refine sqrt_truncated _ _ _ ?_ ?_ ?_ (by norm_num) <;> norm_num [invSqrtTwo]

theorem root_truncated (p u : ℝ) (n : ℕ) (hn : 0 < n) (hp : 0 ≤ p) (hu : 0 < u) (h1 : (p * p + 1) ^ n ≤ 2) (h2 : 2 < ((p + u) * (p + u) + 1) ^ n) :
    Truncated p (Real.sqrt ((2 : ℝ) ^ (1 / (n : ℝ)) - 1)) u := by
  have hr : ((2 : ℝ) ^ (1 / (n : ℝ))) ^ n = 2 := by rw [one_div]; exact Real.rpow_inv_natCast_pow (by norm_num) hn.ne'
  have h0 : (0 : ℝ) ≤ (2 : ℝ) ^ (1 / (n : ℝ)) := by positivity
  have l : p * p + 1 ≤ (2 : ℝ) ^ (1 / (n : ℝ)) := by
    by_contra c
    push Not at c
    have := pow_lt_pow_left₀ c h0 hn.ne'
    linarith
  have g : (2 : ℝ) ^ (1 / (n : ℝ)) < (p + u) * (p + u) + 1 := by
    by_contra c
    push Not at c
    have := pow_le_pow_left₀ (by positivity) c n
    linarith
  exact sqrt_truncated p _ u hp (by linarith) (by linarith) hu

/-- Every factor of the cascade is the exact value, the position of the -3 dB point of `n` stages relative to that of one, cut off after the last printed digit; a single stage
needs no correction. -/
theorem C40_cascade (n : ℕ) (h1 : 1 ≤ n) (h2 : n ≤ 16) : Truncated (EMACascade.cascadeFactor n) (Real.sqrt ((2 : ℝ) ^ (1 / (n : ℝ)) - 1)) (1 / 10 ^ 67) := by
  refine root_truncated _ _ n h1 ?_ (by norm_num) ?_ ?_ <;> interval_cases n <;> norm_num [EMACascade.cascadeFactor]

/-- From seventeen stages on there is no correction at all, though the exact factor is below `0.21`. -/
theorem C40_cascade_limit (n : ℕ) (h : 17 ≤ n) : EMACascade.cascadeFactor n = 1 ∧ Real.sqrt ((2 : ℝ) ^ (1 / (n : ℝ)) - 1) < 0.21 := by
  constructor
  · unfold EMACascade.cascadeFactor
    simp only [show ¬((n : ℤ) = 2) by omega, show ¬((n : ℤ) = 3) by omega, show ¬((n : ℤ) = 4) by omega, show ¬((n : ℤ) = 5) by omega, show ¬((n : ℤ) = 6) by omega,
      show ¬((n : ℤ) = 7) by omega, show ¬((n : ℤ) = 8) by omega, show ¬((n : ℤ) = 9) by omega, show ¬((n : ℤ) = 10) by omega, show ¬((n : ℤ) = 11) by omega,
      show ¬((n : ℤ) = 12) by omega, show ¬((n : ℤ) = 13) by omega, show ¬((n : ℤ) = 14) by omega, show ¬((n : ℤ) = 15) by omega, show ¬((n : ℤ) = 16) by omega, if_false]
  · rw [Real.sqrt_lt' (by norm_num)]
    have hm : (2 : ℝ) ^ (1 / (n : ℝ)) ≤ (2 : ℝ) ^ (1 / (17 : ℝ)) := by
      apply Real.rpow_le_rpow_of_exponent_le (by norm_num)
      apply one_div_le_one_div_of_le (by norm_num)
      exact_mod_cast h
    have hr : ((2 : ℝ) ^ (1 / (17 : ℝ))) ^ 17 = 2 := by
      have := Real.rpow_inv_natCast_pow (x := 2) (n := 17) (by norm_num) (by norm_num)
      rw [one_div]
      exact_mod_cast this
    have h17 : (2 : ℝ) ^ (1 / (17 : ℝ)) < 1.0441 := by
      by_contra c
      push Not at c
      have := pow_le_pow_left₀ (by norm_num) c 17
      rw [hr] at this
      norm_num at this
    have : (0.21 : ℝ) ^ 2 = 0.0441 := by norm_num
    linarith

/-- The factor for two stages. -/
example : EMACascade.cascadeFactor 2 < 0.643594252905582624735443437418209808924202742444007651156152009353 ∧
    Truncated (EMACascade.cascadeFactor (2 : ℕ)) (Real.sqrt ((2 : ℝ) ^ (1 / ((2 : ℕ) : ℝ)) - 1)) (1 / 10 ^ 67) :=
  ⟨by norm_num [EMACascade.cascadeFactor], C40_cascade 2 (by norm_num) (by norm_num)⟩

end DSP.Const
