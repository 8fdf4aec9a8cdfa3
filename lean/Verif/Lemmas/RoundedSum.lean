import Verif.Lemmas.Rel
import Verif.Lemmas.BinaryRounded
import Verif.Lemmas.Loops
import Mathlib.Algebra.BigOperators.Intervals
import Mathlib.Algebra.Order.BigOperators.Group.Finset

/-!
# Sums in floating point
-/

namespace DSP

/-- The sum from left to right of `f 0`, ..., `f (m - 1)`. -/
def leftSum {V : Type} [Add V] (f : ℕ → V) (m : ℕ) : V := (List.range (m - 1)).foldl (fun s i => s + f (i + 1)) (f 0)

/-- A loop whose first term is outside of it. -/
theorem leftSum_loop {V : Type} [Add V] (g : ℕ → M V) (f : ℕ → V) (m : ℕ) (hm : 1 ≤ m) (h : ∀ i < m, g i = .ok (f i)) :
    (List.range (m - 1)).foldlM (fun s (i : ℕ) => do
      let t ← g (i + 1)
      return s + t) (f 0) = .ok (leftSum f m) := by
  obtain ⟨b, e, hb⟩ := foldlM_inv (fun k s => s = leftSum f (k + 1)) (fun s (i : ℕ) => do
      let t ← g (i + 1)
      return s + t) (m - 1) (f 0) rfl (by
    rintro i hi s rfl
    refine ⟨_, ?_, rfl⟩
    simp only [h (i + 1) (by omega), bind, Except.bind, pure, Except.pure, leftSum]
    rw [show i + 1 + 1 - 1 = i + 1 by omega, show i + 1 - 1 = i by omega, List.range_succ, List.foldl_append]
    rfl)
  rw [e, hb, Nat.sub_add_cancel hm]

/-- The error of a sum is small compared to the sum of the absolute values. -/
theorem leftSum_error {p : ℕ} [NeZero p] (u : ℝ) (hu : u = 1 / 2 ^ p) (f : ℕ → Binary p) (T : ℕ → ℝ) (K : ℕ) (m : ℕ) (hm : 1 ≤ m) (h : ∀ i < m, Rel u K (f i).val (T i)) :
    |((leftSum f m).val : ℝ) - ∑ i ∈ Finset.range m, T i| ≤ ((1 + u) ^ (K + (m - 1)) - 1) * ∑ i ∈ Finset.range m, |T i| := by
  have hR := binary_roundedField p
  rw [← hu] at hR
  have hu0 : 0 ≤ u := by rw [hu]; positivity
  obtain ⟨n, rfl⟩ : ∃ n, m = n + 1 := ⟨m - 1, by omega⟩
  rw [Nat.add_sub_cancel]
  clear hm
  induction n with
  | zero => simpa [leftSum, Rel] using h 0 (by norm_num)
  | succ n ih =>
    have ih := ih fun i hi => h i (by omega)
    have ht := h (n + 1) (by omega)
    have e : leftSum f (n + 1 + 1) = leftSum f (n + 1) + f (n + 1) := by
      simp only [leftSum]
      rw [show n + 1 + 1 - 1 = n + 1 by omega, show n + 1 - 1 = n by omega, List.range_succ, List.foldl_append]
      rfl
    rw [e, Finset.sum_range_succ, Finset.sum_range_succ _ (n + 1)]
    have hr := hR.add (leftSum f (n + 1)) (f (n + 1))
    unfold Rel at ht
    have hS : |∑ i ∈ Finset.range (n + 1), T i| ≤ ∑ i ∈ Finset.range (n + 1), |T i| := Finset.abs_sum_le_sum_abs _ _
    have hP : (1 + u) ^ K ≤ (1 + u) ^ (K + n) := pow_le_pow_right₀ (by linarith) (by omega)
    have hP1 : 1 ≤ (1 + u) ^ (K + n) := one_le_pow₀ (by linarith)
    rw [← Nat.add_assoc, pow_succ]
    generalize ((leftSum f (n + 1) + f (n + 1)).val : ℝ) = r at *
    generalize ((leftSum f (n + 1)).val : ℝ) = s at *
    generalize ((f (n + 1)).val : ℝ) = t at *
    generalize (∑ i ∈ Finset.range (n + 1), T i) = S at *
    generalize (∑ i ∈ Finset.range (n + 1), |T i|) = A at *
    generalize T (n + 1) = t' at *
    generalize (1 + u) ^ (K + n) = P at *
    have h1 : |s + t - (S + t')| ≤ (P - 1) * (A + |t'|) := by
      calc |s + t - (S + t')| = |(s - S) + (t - t')| := by congr 1; ring
        _ ≤ |s - S| + |t - t'| := abs_add_le _ _
        _ ≤ (P - 1) * A + (P - 1) * |t'| := add_le_add ih (ht.trans (mul_le_mul_of_nonneg_right (by linarith) (abs_nonneg _)))
        _ = _ := by ring
    have h2 : |s + t| ≤ P * (A + |t'|) := by
      calc |s + t| = |(s + t - (S + t')) + (S + t')| := by congr 1; ring
        _ ≤ (P - 1) * (A + |t'|) + (A + |t'|) := (abs_add_le _ _).trans (add_le_add h1 ((abs_add_le _ _).trans (by linarith)))
        _ = _ := by ring
    calc |r - (S + t')| ≤ |r - (s + t)| + |s + t - (S + t')| := abs_sub_le _ _ _
      _ ≤ u * (P * (A + |t'|)) + (P - 1) * (A + |t'|) := add_le_add (hr.trans (mul_le_mul_of_nonneg_left h2 hu0)) h1
      _ = _ := by ring

/-- Many roundings, compared to one. -/
theorem pow_units (u : ℝ) (hu0 : 0 ≤ u) (K : ℕ) (h : 10 * (K * u) ≤ 1) : (1 + u) ^ K - 1 ≤ 1.1 * K * u := by
  have h0 : 0 ≤ K * u := by positivity
  have := pow_sub_one_bound u hu0 K (by linarith)
  nlinarith

end DSP
