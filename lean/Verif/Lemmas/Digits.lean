import Mathlib.Analysis.SpecialFunctions.Log.Deriv
import Mathlib.Analysis.SpecialFunctions.Complex.Arctan
import Mathlib.Analysis.SpecialFunctions.Trigonometric.Arctan
import Mathlib.Analysis.SpecificLimits.Normed
import Mathlib.Tactic.Linarith
import Mathlib.Tactic.NormNum

/-!
# Many digits of π, log 2 and log 10

Partial sums are computed with rational numbers in the kernel.
-/

namespace DSP.Digits
open Finset

/-- Partial sums of the series of the area tangens. -/
def areaSum (x : ℚ) : ℕ → ℚ
  | 0 => 0
  | n + 1 => areaSum x n + x ^ (2 * n + 1) / (2 * n + 1)

/-- Partial sums of the series of the arcus tangens. -/
def arcSum (x : ℚ) : ℕ → ℚ
  | 0 => 0
  | n + 1 => arcSum x n + (-1) ^ n * (x ^ (2 * n + 1) / (2 * n + 1))

theorem areaSum_eq (x : ℚ) (n : ℕ) : ((areaSum x n : ℚ) : ℝ) = ∑ i ∈ range n, (x : ℝ) ^ (2 * i + 1) / (2 * i + 1) := by
  induction n with
  | zero => simp [areaSum]
  | succ n ih => rw [areaSum, sum_range_succ, ← ih]; push_cast; ring

theorem arcSum_eq (x : ℚ) (n : ℕ) : ((arcSum x n : ℚ) : ℝ) = ∑ i ∈ range n, (-1) ^ i * ((x : ℝ) ^ (2 * i + 1) / (2 * i + 1)) := by
  induction n with
  | zero => simp [arcSum]
  | succ n ih => rw [arcSum, sum_range_succ, ← ih]; push_cast; ring

/-- Enclosure of a logarithm. -/
theorem log_enclosed (x : ℚ) (h0 : 0 ≤ x) (h1 : x < 1) (n : ℕ) : 2 * ((areaSum x n : ℚ) : ℝ) ≤ Real.log ((1 + x) / (1 - x)) ∧
    Real.log ((1 + x) / (1 - x)) ≤ 2 * ((areaSum x n + x ^ (2 * n + 1) / (1 - x ^ 2) : ℚ) : ℝ) := by
  have a0 : (0 : ℝ) ≤ x := by exact_mod_cast h0
  have a1 : (x : ℝ) < 1 := by exact_mod_cast h1
  have l := Real.sum_range_le_log_div a0 a1 n
  have u := Real.log_div_le_sum_range_add a0 a1 n
  push_cast
  rw [areaSum_eq]
  constructor <;> linarith

/-- Enclosure of an arcus tangent. -/
theorem arctan_enclosed (x : ℚ) (h0 : 0 ≤ x) (h1 : x < 1) (n : ℕ) : ((arcSum x (2 * n) : ℚ) : ℝ) ≤ Real.arctan x ∧ Real.arctan x ≤ ((arcSum x (2 * n + 1) : ℚ) : ℝ) := by
  have a0 : (0 : ℝ) ≤ x := by exact_mod_cast h0
  have a1 : (x : ℝ) < 1 := by exact_mod_cast h1
  have hs := (Real.hasSum_arctan (x := x) (by rw [Real.norm_eq_abs, abs_of_nonneg a0]; exact a1)).tendsto_sum_nat
  have e : (fun n => ∑ i ∈ range n, (-1 : ℝ) ^ i * (x : ℝ) ^ (2 * i + 1) / ((2 * i + 1 : ℕ) : ℝ)) =
      fun n => ∑ i ∈ range n, (-1) ^ i * ((x : ℝ) ^ (2 * i + 1) / (2 * i + 1)) := by
    funext n
    refine sum_congr rfl fun i _ => ?_
    push_cast
    rw [mul_div_assoc]
  rw [e] at hs
  have ha : Antitone fun i : ℕ => (x : ℝ) ^ (2 * i + 1) / (2 * i + 1) := by
    refine antitone_nat_of_succ_le fun i => ?_
    push_cast
    refine div_le_div₀ (by positivity) (pow_le_pow_of_le_one a0 a1.le (by omega)) (by positivity) (by linarith)
  rw [arcSum_eq, arcSum_eq]
  exact ⟨ha.alternating_series_le_tendsto hs n, ha.tendsto_le_alternating_series hs n⟩

/-- 75 digits. -/
def log2 : ℚ := 0.693147180559945309417232121458176568075500134360255254120680009493393621969694
def log10 : ℚ := 2.302585092994045684017991454684364207601101488628772976033327900967572609677352
def pi : ℚ := 3.141592653589793238462643383279502884197169399375105820974944592307816406286208

theorem sums : (log2 - 1 / 10 ^ 76 ≤ 2 * areaSum (1 / 3) 80 ∧ 2 * (areaSum (1 / 3) 80 + (1 / 3) ^ (2 * 80 + 1) / (1 - (1 / 3) ^ 2)) ≤ log2 + 1 / 10 ^ 76) ∧
    (log10 - 3 * log2 - 1 / 10 ^ 76 ≤ 2 * areaSum (1 / 9) 40 ∧ 2 * (areaSum (1 / 9) 40 + (1 / 9) ^ (2 * 40 + 1) / (1 - (1 / 9) ^ 2)) ≤ log10 - 3 * log2 + 1 / 10 ^ 76) ∧
    (pi - 1 / 10 ^ 76 ≤ 16 * arcSum (1 / 5) (2 * 28) - 4 * arcSum (1 / 239) (2 * 8 + 1) ∧ 16 * arcSum (1 / 5) (2 * 28 + 1) - 4 * arcSum (1 / 239) (2 * 8) ≤ pi + 1 / 10 ^ 76) := by
  decide +kernel

theorem log_two : |Real.log 2 - (log2 : ℝ)| ≤ 1 / 10 ^ 76 := by
  have h := log_enclosed (1 / 3) (by norm_num) (by norm_num) 80
  have e : ((1 + ((1 / 3 : ℚ) : ℝ)) / (1 - ((1 / 3 : ℚ) : ℝ))) = 2 := by norm_num
  rw [e] at h
  have l : ((log2 - 1 / 10 ^ 76 : ℚ) : ℝ) ≤ ((2 * areaSum (1 / 3) 80 : ℚ) : ℝ) := by exact_mod_cast sums.1.1
  have u : ((2 * (areaSum (1 / 3) 80 + (1 / 3) ^ (2 * 80 + 1) / (1 - (1 / 3) ^ 2)) : ℚ) : ℝ) ≤ ((log2 + 1 / 10 ^ 76 : ℚ) : ℝ) := by exact_mod_cast sums.1.2
  rw [Rat.cast_mul, Rat.cast_ofNat] at l u
  rw [Rat.cast_sub] at l
  rw [Rat.cast_add (log2)] at u
  have t : ((1 / 10 ^ 76 : ℚ) : ℝ) = 1 / 10 ^ 76 := by norm_num
  rw [t] at l u
  rw [abs_le]
  constructor <;> linarith [h.1, h.2]

theorem log_ten : |Real.log 10 - (log10 : ℝ)| ≤ 1 / 10 ^ 75 := by
  have h := log_enclosed (1 / 9) (by norm_num) (by norm_num) 40
  have e : ((1 + ((1 / 9 : ℚ) : ℝ)) / (1 - ((1 / 9 : ℚ) : ℝ))) = 5 / 4 := by norm_num
  rw [e] at h
  have l : ((log10 - 3 * log2 - 1 / 10 ^ 76 : ℚ) : ℝ) ≤ ((2 * areaSum (1 / 9) 40 : ℚ) : ℝ) := by exact_mod_cast sums.2.1.1
  have u : ((2 * (areaSum (1 / 9) 40 + (1 / 9) ^ (2 * 40 + 1) / (1 - (1 / 9) ^ 2)) : ℚ) : ℝ) ≤ ((log10 - 3 * log2 + 1 / 10 ^ 76 : ℚ) : ℝ) := by exact_mod_cast sums.2.1.2
  have d : Real.log 10 = 3 * Real.log 2 + Real.log (5 / 4) := by
    rw [show (10 : ℝ) = 2 ^ 3 * (5 / 4) by norm_num, Real.log_mul (by norm_num) (by norm_num), Real.log_pow]
    norm_num
  rw [Rat.cast_mul, Rat.cast_ofNat] at l u
  rw [Rat.cast_sub, Rat.cast_sub, Rat.cast_mul, Rat.cast_ofNat] at l
  rw [Rat.cast_add (log10 - 3 * log2), Rat.cast_sub, Rat.cast_mul, Rat.cast_ofNat] at u
  have t : ((1 / 10 ^ 76 : ℚ) : ℝ) = 1 / 10 ^ 76 := by norm_num
  rw [t] at l u
  have h2 := abs_le.mp log_two
  have t2 : (1 : ℝ) / 10 ^ 75 = 10 * (1 / 10 ^ 76) := by norm_num
  have t3 : (0 : ℝ) < 1 / 10 ^ 76 := by norm_num
  rw [abs_le, t2]
  constructor <;> linarith [h.1, h.2, h2.1, h2.2]

theorem pi_digits : |Real.pi - (pi : ℝ)| ≤ 1 / 10 ^ 76 := by
  have a := arctan_enclosed (1 / 5) (by norm_num) (by norm_num) 28
  have b := arctan_enclosed (1 / 239) (by norm_num) (by norm_num) 8
  have m := Real.four_mul_arctan_inv_5_sub_arctan_inv_239
  have e1 : ((1 / 5 : ℚ) : ℝ) = 5⁻¹ := by norm_num
  have e2 : ((1 / 239 : ℚ) : ℝ) = 239⁻¹ := by norm_num
  rw [e1] at a
  rw [e2] at b
  have l : ((pi - 1 / 10 ^ 76 : ℚ) : ℝ) ≤ ((16 * arcSum (1 / 5) (2 * 28) - 4 * arcSum (1 / 239) (2 * 8 + 1) : ℚ) : ℝ) := by exact_mod_cast sums.2.2.1
  have u : ((16 * arcSum (1 / 5) (2 * 28 + 1) - 4 * arcSum (1 / 239) (2 * 8) : ℚ) : ℝ) ≤ ((pi + 1 / 10 ^ 76 : ℚ) : ℝ) := by exact_mod_cast sums.2.2.2
  rw [Rat.cast_sub, Rat.cast_sub, Rat.cast_mul, Rat.cast_mul, Rat.cast_ofNat, Rat.cast_ofNat] at l
  rw [Rat.cast_add, Rat.cast_sub, Rat.cast_mul, Rat.cast_mul, Rat.cast_ofNat, Rat.cast_ofNat] at u
  have t : ((1 / 10 ^ 76 : ℚ) : ℝ) = 1 / 10 ^ 76 := by norm_num
  rw [t] at l u
  rw [abs_le]
  constructor <;> linarith [a.1, a.2, b.1, b.2]

end DSP.Digits
