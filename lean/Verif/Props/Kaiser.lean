import Verif.Props.Window
import Verif.Spec.Bessel
import Mathlib.Analysis.SpecialFunctions.Exponential
import Mathlib.Analysis.SpecificLimits.Normed

/-!
# The Kaiser window (C63)
-/

namespace DSP
namespace Win

open Spec

/-- A term of the series. -/
noncomputable def term (x : ℝ) (m : ℕ) : ℝ := ((x / 2) ^ m / m.factorial) ^ 2

/-- The terms the code adds. -/
noncomputable def partI0 (x : ℝ) : ℝ := ∑ m ∈ Finset.range 35, term x m

theorem term_nonneg (x : ℝ) (m : ℕ) : 0 ≤ term x m := sq_nonneg _

theorem term_eq (x : ℝ) (m : ℕ) : term x m = ((x / 2) ^ 2) ^ m / (m.factorial : ℝ) ^ 2 := by
  rw [term, div_pow, ← pow_mul, ← pow_mul, mul_comm m 2]

theorem term_zero (x : ℝ) : term x 0 = 1 := by simp [term]

theorem term_eq_zero (x : ℝ) (k m : ℕ) (hm : 1 ≤ m) (h : term x k = 0) : term x m = 0 := by
  have h1 : (x / 2) ^ k / (k.factorial : ℝ) = 0 := by simpa [term] using h
  have h2 : (x / 2) ^ k = 0 := by
    rcases div_eq_zero_iff.mp h1 with h | h
    · exact h
    · exact absurd h (by exact_mod_cast k.factorial_ne_zero)
  have h3 : x / 2 = 0 := by
    by_contra c
    exact pow_ne_zero k c h2
  simp only [term, h3, zero_pow (by omega : m ≠ 0)]
  simp

theorem val_succ (x : ℝ) (k : ℕ) : (x / 2) ^ k / (k.factorial : ℝ) * (x / ((2 * (k + 1) : ℕ) : ℝ)) = (x / 2) ^ (k + 1) / ((k + 1).factorial : ℝ) := by
  have : (k.factorial : ℝ) ≠ 0 := by exact_mod_cast k.factorial_ne_zero
  rw [Nat.factorial_succ]
  push_cast
  field_simp
  ring

theorem loop_ok (x : ℝ) (j k : ℕ) :
    i0Loop x (List.range' (k + 1) j) ⟨∑ m ∈ Finset.range (k + 1), term x m, 0⟩ ((x / 2) ^ k / (k.factorial : ℝ)) =
      .ok (∑ m ∈ Finset.range (k + 1 + j), term x m) := by
  induction j generalizing k with
  | zero => rfl
  | succ j ih =>
    have hk : ((2 * (k + 1) : ℕ) : ℝ) ≠ 0 := by positivity
    simp only [List.range'_succ, i0Loop, bind, Except.bind, fdiv_ok hk, val_succ, Kahan.same, Kahan.call, Kahan.eq, sub_zero]
    have e : (x / 2) ^ (k + 1) / ((k + 1).factorial : ℝ) * ((x / 2) ^ (k + 1) / ((k + 1).factorial : ℝ)) = term x (k + 1) := by rw [term, sq]
    rw [e]
    have s : ∑ m ∈ Finset.range (k + 1), term x m + term x (k + 1) = ∑ m ∈ Finset.range (k + 1 + 1), term x m := (Finset.sum_range_succ _ _).symm
    split_ifs with c
    · have hz : term x (k + 1) = 0 := by
        simp only [Bool.and_eq_true, beq_iff_eq] at c
        linarith [c.2]
      simp only [Kahan.get, s]
      congr 1
      have hr := Finset.sum_range_add (term x) (k + 1 + 1) j
      rw [Finset.sum_eq_zero (s := Finset.range j) (fun i _ => term_eq_zero x (k + 1) _ (by omega) hz), add_zero] at hr
      rw [show k + 1 + (j + 1) = k + 1 + 1 + j by ring]
      exact hr.symm
    · have hl : ∑ m ∈ Finset.range (k + 1), term x m + term x (k + 1) - ∑ m ∈ Finset.range (k + 1), term x m - term x (k + 1) = 0 := by ring
      rw [hl, s, ih (k + 1)]
      congr 2
      rw [show k + 1 + (j + 1) = k + 1 + 1 + j by ring]

theorem i0_ok (x : ℝ) : i0 x = .ok (partI0 x) := by
  have h := loop_ok x 34 0
  simp only [Nat.factorial_zero, pow_zero, zero_add, Finset.sum_range_one, term_zero, Nat.cast_one, div_one] at h
  exact h

theorem one_le_partI0 (x : ℝ) : 1 ≤ partI0 x := by
  rw [partI0, Finset.sum_range_succ', term_zero]
  have := Finset.sum_nonneg (s := Finset.range 34) (f := fun k => term x (k + 1)) (fun i _ => term_nonneg x _)
  linarith

theorem term_lt (x y : ℝ) (m : ℕ) (hm : 1 ≤ m) (h : |x| < |y|) : term x m < term y m := by
  have : 0 < (m.factorial : ℝ) := by exact_mod_cast m.factorial_pos
  rw [term_eq, term_eq, div_lt_div_iff_of_pos_right (by positivity)]
  refine pow_lt_pow_left₀ ?_ (by positivity) (by omega)
  rw [sq_lt_sq, abs_div, abs_div]
  gcongr

theorem partI0_lt (x y : ℝ) (h : |x| < |y|) : partI0 x < partI0 y := by
  refine Finset.sum_lt_sum (fun i _ => ?_) ⟨1, by simp, term_lt x y 1 le_rfl h⟩
  rcases Nat.eq_zero_or_pos i with rfl | hi
  · rw [term_zero, term_zero]
  · exact (term_lt x y i hi h).le

theorem partI0_neg (x : ℝ) : partI0 (-x) = partI0 x := by
  refine Finset.sum_congr rfl fun m _ => ?_
  rw [term_eq, term_eq, neg_div, neg_sq]

theorem partI0_abs (x : ℝ) : partI0 |x| = partI0 x := by
  rcases abs_cases x with ⟨h, -⟩ | ⟨h, -⟩ <;> rw [h]
  exact partI0_neg x

theorem partI0_le (x y : ℝ) (h : |x| ≤ |y|) : partI0 x ≤ partI0 y := by
  rcases lt_or_eq_of_le h with h | h
  · exact (partI0_lt x y h).le
  · rw [← partI0_abs x, h, partI0_abs]

theorem summable_term (x : ℝ) : Summable (term x) := by
  refine Summable.of_nonneg_of_le (term_nonneg x) (fun m => ?_) (Real.summable_pow_div_factorial ((x / 2) ^ 2))
  have h : (1 : ℝ) ≤ m.factorial := by exact_mod_cast m.factorial_pos
  rw [term_eq]
  gcongr
  nlinarith

theorem bessel_split (x : ℝ) : besselI0 x = partI0 x + ∑' i, term x (i + 35) := ((summable_term x).sum_add_tsum_nat_add 35).symm

theorem tail_nonneg (x : ℝ) : 0 ≤ ∑' i, term x (i + 35) := tsum_nonneg fun _ => term_nonneg x _

theorem tail_le (x : ℝ) (hx : |x| ≤ 3 * Real.pi) : ∑' i, term x (i + 35) ≤ 1 / 10 ^ 32 := by
  have hp := Real.pi_lt_d4
  have hx2 : |x / 2| ≤ 4.7125 := by rw [abs_div, abs_of_pos (by norm_num : (0 : ℝ) < 2)]; linarith
  have h35 : term x 35 ≤ 1 / (2 * 10 ^ 32) := by
    have h1 : |(x / 2) ^ 35| ≤ 4.7125 ^ 35 := by rw [abs_pow]; exact pow_le_pow_left₀ (abs_nonneg _) hx2 35
    have h2 : ((x / 2) ^ 35) ^ 2 ≤ (4.7125 ^ 35) ^ 2 := by rw [← sq_abs ((x / 2) ^ 35)]; exact pow_le_pow_left₀ (abs_nonneg _) h1 2
    have hf : (((35 : ℕ).factorial : ℕ) : ℝ) = 10333147966386144929666651337523200000000 := by norm_num [Nat.factorial]
    rw [term, div_pow, hf]
    calc _ ≤ ((4.7125 : ℝ) ^ 35) ^ 2 / 10333147966386144929666651337523200000000 ^ 2 := by gcongr
      _ ≤ _ := by norm_num
  have hstep : ∀ m, 35 ≤ m → term x (m + 1) ≤ term x m * (1 / 2) := by
    intro m hm
    have e : term x (m + 1) = term x m * ((x / 2) / (m + 1)) ^ 2 := by
      rw [term_eq, term_eq, Nat.factorial_succ, pow_succ]; push_cast
      have : (m.factorial : ℝ) ≠ 0 := by exact_mod_cast m.factorial_ne_zero
      field_simp
    rw [e]
    refine mul_le_mul_of_nonneg_left ?_ (term_nonneg x m)
    have hm' : (36 : ℝ) ≤ m + 1 := by exact_mod_cast (by omega : 36 ≤ m + 1)
    rw [← sq_abs, abs_div, abs_of_pos (by linarith : (0 : ℝ) < m + 1)]
    have : |x / 2| / (m + 1) ≤ 1 / 2 := by rw [div_le_iff₀ (by linarith)]; linarith
    nlinarith [div_nonneg (abs_nonneg (x / 2)) (by linarith : (0 : ℝ) ≤ m + 1)]
  have hg : ∀ i, term x (i + 35) ≤ 1 / (2 * 10 ^ 32) * (1 / 2) ^ i := by
    intro i
    induction i with
    | zero => simpa using h35
    | succ i ih =>
      calc term x (i + 1 + 35) ≤ term x (i + 35) * (1 / 2) := by rw [show i + 1 + 35 = i + 35 + 1 by ring]; exact hstep _ (by omega)
        _ ≤ 1 / (2 * 10 ^ 32) * (1 / 2) ^ i * (1 / 2) := by gcongr
        _ = _ := by rw [pow_succ]; ring
  have hs : HasSum (fun i : ℕ => 1 / (2 * 10 ^ 32) * (1 / 2 : ℝ) ^ i) (1 / (2 * 10 ^ 32) * 2) := hasSum_geometric_two.mul_left _
  calc _ ≤ ∑' i : ℕ, 1 / (2 * 10 ^ 32) * (1 / 2 : ℝ) ^ i :=
        Summable.tsum_le_tsum hg ((summable_nat_add_iff 35).mpr (summable_term x)) hs.summable
    _ = 1 / 10 ^ 32 := by rw [hs.tsum_eq]; norm_num

/-- `i0` never divides by zero; it is even, at least one, increasing with the magnitude of its argument, and for arguments up to three half turns (as its comment
says) within `10^-32` of the Bessel function. -/
theorem C63_i0 : ∃ f : ℝ → ℝ, (∀ x, i0 x = .ok (f x)) ∧ (∀ x, f (-x) = f x) ∧ (∀ x, 1 ≤ f x) ∧ f 0 = 1 ∧ (∀ x y, |x| < |y| → f x < f y) ∧
    (∀ x, f x ≤ besselI0 x) ∧ ∀ x, |x| ≤ 3 * Real.pi → besselI0 x - f x ≤ 1 / 10 ^ 32 := by
  refine ⟨partI0, i0_ok, partI0_neg, one_le_partI0, ?_, partI0_lt, fun x => ?_, fun x hx => ?_⟩
  · rw [partI0, Finset.sum_range_succ', term_zero, Finset.sum_eq_zero, zero_add]
    intro i _
    simp [term]
  · rw [bessel_split]; linarith [tail_nonneg x]
  · rw [bessel_split]; linarith [tail_le x hx]

/-! ### The window -/

/-- The distance from the middle of the window as a fraction of its half. -/
noncomputable def offset (n N : ℤ) : ℝ := 2 * n / (N - 1 : ℤ) - 1

noncomputable def kaiserArg (a : ℝ) (n N : ℤ) : ℝ := Real.pi * a * Real.sqrt (1 - offset n N ^ 2)

theorem kaiser_ok (a : ℝ) (n N : ℤ) (hN : 2 ≤ N) (hN2 : N ≤ 1073741824) (h0 : 0 ≤ n) (h1 : n < N) :
    kaiser a n N = .ok (partI0 (kaiserArg a n N) / partI0 (Real.pi * a)) := by
  have hM' : ((N - 1 : ℤ) : ℝ) ≠ 0 := by exact_mod_cast (by omega : N - 1 ≠ 0)
  simp only [kaiser, bind, Except.bind, int32_fits (show -2147483648 ≤ N - 1 ∧ N - 1 ≤ 2147483647 by omega),
    int32_fits (show -2147483648 ≤ 2 * n ∧ 2 * n ≤ 2147483647 by omega), fdiv_ok hM', i0_ok]
  rw [fdiv_ok (by have := one_le_partI0 (Real.pi * a); positivity)]
  simp only [kaiserArg, offset]
  push_cast
  congr 5
  ring

theorem kaiserArg_le (a : ℝ) (n N : ℤ) : |kaiserArg a n N| ≤ |Real.pi * a| := by
  rw [kaiserArg, abs_mul, abs_of_nonneg (Real.sqrt_nonneg _)]
  have : Real.sqrt (1 - offset n N ^ 2) ≤ 1 := by rw [Real.sqrt_le_one]; linarith [sq_nonneg (offset n N)]
  nlinarith [abs_nonneg (Real.pi * a)]

/-- The Kaiser window for every parameter: symmetric, positive, at most one and one in the middle. -/
theorem C63_window (a : ℝ) (N : ℤ) (hN : 2 ≤ N) (hN2 : N ≤ 1073741824) :
    ∃ w, IsTaper N w ∧ ∀ n, 0 ≤ n → n < N → kaiser a n N = .ok (w n) ∧ 0 < w n := by
  have hpos : ∀ x, 0 < partI0 x := fun x => lt_of_lt_of_le one_pos (one_le_partI0 x)
  have hM' : ((N - 1 : ℤ) : ℝ) ≠ 0 := by exact_mod_cast (by omega : N - 1 ≠ 0)
  refine ⟨fun n => partI0 (kaiserArg a n N) / partI0 (Real.pi * a), ⟨fun n _ _ => ?_, fun n _ _ => (div_pos (hpos _) (hpos _)).le, fun n _ _ => ?_, fun n h => ?_⟩,
    fun n h0 h1 => ⟨kaiser_ok a n N hN hN2 h0 h1, div_pos (hpos _) (hpos _)⟩⟩
  · have : offset (N - 1 - n) N = -offset n N := by simp only [offset]; push_cast; push_cast at hM'; field_simp; ring
    simp only [kaiserArg, this, neg_sq]
  · rw [div_le_one (hpos _)]; exact partI0_le _ _ (kaiserArg_le a n N)
  · have hn : (n : ℝ) ≠ 0 := by exact_mod_cast (by omega : n ≠ 0)
    have : offset n N = 0 := by simp only [offset]; rw [show N - 1 = 2 * n by omega]; push_cast; field_simp; ring
    simp only [kaiserArg, this]
    rw [show (1 : ℝ) - 0 ^ 2 = 1 by norm_num, Real.sqrt_one, mul_one, div_self (hpos _).ne']

theorem ratio_accuracy (x y : ℝ) (hxy : |x| ≤ |y|) (hy : |y| ≤ 3 * Real.pi) : |partI0 x / partI0 y - besselI0 x / besselI0 y| ≤ 1 / 10 ^ 32 := by
  have hx := hxy.trans hy
  have hle := partI0_le _ _ hxy
  have e1 := tail_le x hx
  have e2 := tail_le y hy
  have e3 := tail_nonneg x
  have e4 := tail_nonneg y
  have p1 := one_le_partI0 x
  have p2 := one_le_partI0 y
  rw [bessel_split x, bessel_split y]
  generalize partI0 x = u at *
  generalize partI0 y = v at *
  generalize ∑' i, term x (i + 35) = δ at *
  generalize ∑' i, term y (i + 35) = γ at *
  have hv : 0 < v := by linarith
  have hvγ : 0 < v + γ := by linarith
  rw [div_sub_div _ _ hv.ne' hvγ.ne', abs_div, abs_of_pos (mul_pos hv hvγ), div_le_iff₀ (mul_pos hv hvγ), abs_le]
  have : (1 : ℝ) ≤ v + γ := by linarith
  have hm : 1 / 10 ^ 32 * v ≤ 1 / 10 ^ 32 * (v * (v + γ)) := by
    rw [← mul_assoc]
    exact le_mul_of_one_le_right (by positivity) this
  constructor
  · nlinarith [mul_nonneg (show (0 : ℝ) ≤ u by linarith) e4, mul_le_mul_of_nonneg_left e1 hv.le]
  · nlinarith [mul_nonneg hv.le e3, mul_le_mul_of_nonneg_right hle e4, mul_le_mul_of_nonneg_left e2 hv.le]

/-- For `|a| <= 3` the weights are within `10^-32` of the ratio of Bessel functions which defines the window. -/
theorem C63_accuracy (a : ℝ) (ha : |a| ≤ 3) (n N : ℤ) (hN : 2 ≤ N) (hN2 : N ≤ 1073741824) (h0 : 0 ≤ n) (h1 : n < N) :
    ∃ v, kaiser a n N = .ok v ∧
      |v - besselI0 (Real.pi * a * Real.sqrt (1 - (2 * n / (N - 1 : ℤ) - 1) ^ 2)) / besselI0 (Real.pi * a)| ≤ 1 / 10 ^ 32 :=
  ⟨_, kaiser_ok a n N hN hN2 h0 h1, ratio_accuracy (kaiserArg a n N) _ (kaiserArg_le a n N) (by rw [abs_mul, abs_of_pos Real.pi_pos]; nlinarith [Real.pi_pos])⟩

/-- At the edges the argument of the root is zero and the weight is one over `i0`. -/
example (a : ℝ) : ∃ v, kaiser a 0 9 = .ok v ∧ kaiser a 8 9 = .ok v := by
  obtain ⟨w, h, h'⟩ := C63_window a 9 (by norm_num) (by norm_num)
  exact ⟨w 0, (h' 0 (by norm_num) (by norm_num)).1, by rw [(h' 8 (by norm_num) (by norm_num)).1, ← h.symmetric 0 (by norm_num) (by norm_num)]; norm_num⟩

end Win
end DSP
