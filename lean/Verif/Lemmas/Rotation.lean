import Mathlib.Analysis.SpecialFunctions.Complex.Arg
import Mathlib.Analysis.SpecialFunctions.Complex.Arctan
import Mathlib.Analysis.SpecialFunctions.Trigonometric.Arctan
import Mathlib.Analysis.SpecialFunctions.Trigonometric.ArctanDeriv
import Mathlib.Analysis.Real.Pi.Bounds
import Mathlib.Tactic.Linarith

/-!
# Rotations by the angles of the CORDIC algorithm and small perturbations
-/

namespace DSP.Rotation
open Complex

theorem arctan_abs_le (x : ℝ) : |Real.arctan x| ≤ |x| := by
  have h : ∀ y : ℝ, 0 ≤ y → Real.arctan y ≤ y := fun y hy => by
    rcases hy.eq_or_lt with rfl | hy
    · simp
    · have a := Real.arctan_pos.mpr hy
      have b := Real.lt_tan a (Real.arctan_lt_pi_div_two y)
      rw [Real.tan_arctan] at b
      exact b.le
  rcases le_total 0 x with hx | hx
  · rw [abs_of_nonneg hx, abs_of_nonneg (Real.arctan_nonneg.mpr hx)]
    exact h x hx
  · have a := h (-x) (by linarith)
    rw [Real.arctan_neg] at a
    rw [abs_of_nonpos hx, abs_of_nonpos]
    · exact a
    · have := Real.arctan_nonneg.mpr (show 0 ≤ -x by linarith)
      rw [Real.arctan_neg] at this
      linarith

theorem arg_of_pos (z : ℂ) (h : 0 < z.re) : arg z = Real.arctan (z.im / z.re) := by
  rw [← Complex.tan_arg, Real.arctan_tan]
  · exact (neg_pi_div_two_lt_arg_iff.mpr (Or.inl h))
  · exact (arg_lt_pi_div_two_iff.mpr (Or.inl h))

theorem arg_one_add (q : ℂ) (h : ‖q‖ < 1) : |arg (1 + q)| ≤ ‖q‖ / (1 - ‖q‖) := by
  have hr : 1 - ‖q‖ ≤ (1 + q).re := by
    have := abs_le.mp (abs_re_le_norm q)
    simp only [add_re, one_re]
    linarith [this.1]
  rw [arg_of_pos _ (by linarith)]
  refine (arctan_abs_le _).trans ?_
  rw [abs_div, abs_of_pos (show 0 < (1 + q).re by linarith)]
  have : |(1 + q).im| ≤ ‖q‖ := by simpa using abs_im_le_norm q
  exact div_le_div₀ (norm_nonneg _) this (by linarith) hr

/-- Adding a small number changes the angle but little. -/
theorem perturb (w e : ℂ) (h : ‖e‖ < ‖w‖) (ha : |arg w| + ‖e‖ / (‖w‖ - ‖e‖) < Real.pi) : |arg (w + e) - arg w| ≤ ‖e‖ / (‖w‖ - ‖e‖) := by
  have hw : 0 < ‖w‖ := lt_of_le_of_lt (norm_nonneg _) h
  have w0 : w ≠ 0 := norm_pos_iff.mp hw
  have hq : ‖e / w‖ < 1 := by rw [norm_div, div_lt_one hw]; exact h
  have b := arg_one_add (e / w) hq
  have eq : ‖e / w‖ / (1 - ‖e / w‖) = ‖e‖ / (‖w‖ - ‖e‖) := by
    rw [norm_div]
    have : ‖w‖ - ‖e‖ ≠ 0 := by linarith
    have : 1 - ‖e‖ / ‖w‖ ≠ 0 := by
      intro c
      field_simp at c
      linarith
    field_simp
  rw [eq] at b
  have n0 : 1 + e / w ≠ 0 := fun c => by
    have : e / w = -1 := by linear_combination c
    rw [this] at hq
    simp at hq
  have s : w + e = w * (1 + e / w) := by field_simp
  have b' := abs_le.mp b
  have ha' := abs_lt.mp (show |arg w| < Real.pi - ‖e‖ / (‖w‖ - ‖e‖) by linarith)
  rw [s, (arg_mul_eq_add_arg_iff w0 n0).mpr ⟨by linarith [b'.1, ha'.1], by linarith [b'.2, ha'.2]⟩]
  simpa using b

/-- The direction of a rotation towards the real axis. -/
noncomputable def dir (z : ℂ) : ℝ := if z.im < 0 then -1 else 1

theorem arg_turn (t d : ℝ) : arg (1 - d * t * I) = -Real.arctan (d * t) := by
  rw [arg_of_pos _ (by simp)]
  simp [Real.arctan_neg]

theorem dir_arctan (z : ℂ) (t : ℝ) : Real.arctan (dir z * t) = dir z * Real.arctan t := by
  unfold dir
  split <;> simp

/-- A rotation towards the real axis. -/
theorem rotate (z : ℂ) (hz : z ≠ 0) (ha : |arg z| ≤ Real.pi / 2) (t : ℝ) (h0 : 0 ≤ t) :
    arg (z * (1 - dir z * t * I)) = arg z - dir z * Real.arctan t ∧ |arg z - dir z * Real.arctan t| = |(|arg z| - Real.arctan t)| := by
  have n0 : (1 - dir z * t * I) ≠ 0 := fun c => by
    have := congrArg re c
    simp at this
  have h1 := Real.arctan_lt_pi_div_two t
  have h2 := Real.arctan_nonneg.mpr h0
  have ha' := abs_le.mp ha
  constructor
  · rw [(arg_mul_eq_add_arg_iff hz n0).mpr, arg_turn, dir_arctan, sub_eq_add_neg]
    rw [arg_turn, dir_arctan]
    unfold dir
    split <;> constructor <;> linarith [ha'.1, ha'.2, Real.pi_pos]
  · unfold dir
    split
    · rename_i c
      rw [abs_of_neg (arg_neg_iff.mpr c), ← abs_neg]
      congr 1
      ring
    · rename_i c
      rw [abs_of_nonneg (arg_nonneg_iff.mpr (not_lt.mp c)), one_mul]

theorem norm_turn (z : ℂ) (t : ℝ) : ‖z * (1 - dir z * t * I)‖ = ‖z‖ * Real.sqrt (1 + t ^ 2) := by
  rw [norm_mul]
  congr 1
  rw [Complex.norm_def]
  congr 1
  simp only [normSq_apply]
  unfold dir
  split <;> simp <;> ring

/-- Each angle is at most twice the next. -/
theorem arctan_half (k : ℕ) : Real.arctan ((1 / 2) ^ k) ≤ 2 * Real.arctan ((1 / 2) ^ (k + 1)) := by
  have p : (0 : ℝ) < (1 / 2) ^ (k + 1) := by positivity
  have l : ((1 : ℝ) / 2) ^ (k + 1) ≤ 1 / 2 := by
    rw [pow_succ]
    have : ((1 : ℝ) / 2) ^ k ≤ 1 := pow_le_one₀ (by norm_num) (by norm_num)
    linarith
  rw [Real.two_mul_arctan (by linarith) (by linarith)]
  refine Real.arctan_mono ?_
  have q : (0 : ℝ) < (1 / 2) ^ k := by positivity
  have e : ((1 : ℝ) / 2) ^ (k + 1) = (1 / 2) ^ k / 2 := by rw [pow_succ]; ring
  rw [e] at p l ⊢
  generalize ((1 : ℝ) / 2) ^ k = x at *
  rw [le_div_iff₀ (by nlinarith)]
  nlinarith [mul_pos q (mul_pos q q)]

/-- What the steps from `k` on can turn, and the last one once more. -/
noncomputable def rest (n k : ℕ) : ℝ := ∑ j ∈ Finset.Ico k n, Real.arctan ((1 / 2) ^ j) + Real.arctan ((1 / 2) ^ (n - 1))

theorem rest_succ (n k : ℕ) (h : k < n) : rest n k = Real.arctan ((1 / 2) ^ k) + rest n (k + 1) := by
  unfold rest
  rw [Finset.sum_eq_sum_Ico_succ_bot h]
  ring

theorem le_rest (n k : ℕ) (h : k < n) : Real.arctan ((1 / 2) ^ k) ≤ rest n (k + 1) := by
  induction hm : n - 1 - k generalizing k with
  | zero =>
    have : k = n - 1 := by omega
    subst this
    rw [rest, show n - 1 + 1 = n by omega]
    simp
  | succ m ih =>
    rw [rest_succ n (k + 1) (by omega)]
    have a := ih (k + 1) (by omega) (by omega)
    have b := arctan_half k
    linarith

theorem rest_le (n k : ℕ) (h1 : 1 ≤ k) (h : k ≤ n) : rest n k ≤ 2 * (1 / 2) ^ k := by
  have arc : ∀ j, Real.arctan ((1 / 2) ^ j) ≤ (1 / 2) ^ j := fun j => by
    have := arctan_abs_le ((1 / 2) ^ j)
    rw [abs_of_nonneg (show (0 : ℝ) ≤ (1 / 2) ^ j by positivity)] at this
    exact (le_abs_self _).trans this
  induction hm : n - k generalizing k with
  | zero =>
    have : k = n := by omega
    subst this
    rw [rest]
    simp only [Finset.Ico_self, Finset.sum_empty, zero_add]
    refine (arc _).trans (le_of_eq ?_)
    obtain ⟨m, rfl⟩ : ∃ m, k = m + 1 := ⟨k - 1, by omega⟩
    rw [pow_succ]
    simp only [Nat.add_sub_cancel]
    ring
  | succ m ih =>
    rw [rest_succ n k (by omega)]
    have a := ih (k + 1) (by omega) (by omega) (by omega)
    rw [pow_succ] at a
    linarith [arc k]

/-- One step with rounding: `x` is the direction before it, `e` what rounding adds. -/
theorem step (n k : ℕ) (hk : k < n) (z e : ℂ) (m s ε : ℝ) (hm : 3 / 2 ≤ m) (hn : m ≤ ‖z‖) (he : ‖e‖ ≤ 1.4143) (hs : 0 ≤ s) (ha : |arg z| ≤ rest n k + s)
    (hπ : |arg z| ≤ Real.pi / 2) (hε : 1.4143 / (m - 1.4143) ≤ ε) (h1 : ε ≤ 1 / 2) :
    |arg (z * (1 - dir z * ((1 / 2 : ℝ) ^ k : ℝ) * I) + e) - (arg z - dir z * Real.arctan ((1 / 2) ^ k))| ≤ ε ∧
    |arg (z * (1 - dir z * ((1 / 2 : ℝ) ^ k : ℝ) * I) + e)| ≤ rest n (k + 1) + (s + ε) ∧
    ‖z‖ - 1.4143 ≤ ‖z * (1 - dir z * ((1 / 2 : ℝ) ^ k : ℝ) * I) + e‖ := by
  have z0 : z ≠ 0 := norm_pos_iff.mp (by linarith)
  obtain ⟨r1, r2⟩ := rotate z z0 hπ ((1 / 2) ^ k) (by positivity)
  have nt := norm_turn z ((1 / 2) ^ k)
  set w := z * (1 - dir z * ((1 / 2 : ℝ) ^ k : ℝ) * I) with hw
  have nw : ‖z‖ ≤ ‖w‖ := by
    rw [nt]
    have : 1 ≤ Real.sqrt (1 + ((1 / 2 : ℝ) ^ k) ^ 2) := Real.one_le_sqrt.mpr (by nlinarith [sq_nonneg ((1 / 2 : ℝ) ^ k)])
    nlinarith [norm_nonneg z]
  have pe : ‖e‖ / (‖w‖ - ‖e‖) ≤ ε := by
    refine le_trans ?_ hε
    exact div_le_div₀ (by norm_num) he (by linarith) (by linarith)
  have a0 : 0 ≤ Real.arctan ((1 / 2 : ℝ) ^ k) := Real.arctan_nonneg.mpr (by positivity)
  have a1 := Real.arctan_lt_pi_div_two ((1 / 2 : ℝ) ^ k)
  have lw : |arg w| ≤ Real.pi / 2 := by
    rw [r1, r2, abs_le]
    constructor <;> linarith [abs_nonneg (arg z)]
  have rw' : |arg w| ≤ rest n (k + 1) + s := by
    rw [r1, r2, abs_le]
    have := le_rest n k hk
    rw [rest_succ n k hk] at ha
    constructor <;> linarith [abs_nonneg (arg z)]
  have p := perturb w e (by linarith) (by linarith [Real.pi_gt_three])
  refine ⟨?_, ?_, ?_⟩
  · rw [← r1]
    linarith
  · have := abs_add_le (arg (w + e) - arg w) (arg w)
    rw [sub_add_cancel] at this
    linarith
  · have := norm_sub_norm_le w (-e)
    rw [norm_neg, sub_neg_eq_add] at this
    linarith

end DSP.Rotation
