import Verif.Lemmas.Rel

/-!
# Errors relative to a size

Sums of terms of different signs have no relative error, but one in proportion to the sum of the sizes of the terms.
-/

namespace DSP

/-- `a` is `z` up to `K` roundings of a number of the size `s`. -/
def RelS (u : ℝ) (K : ℕ) (a z s : ℝ) : Prop := |a - z| ≤ ((1 + u) ^ K - 1) * s ∧ |z| ≤ s

theorem Rel.sized {u : ℝ} (hu : 0 ≤ u) {K L : ℕ} {a z s : ℝ} (h : Rel u K a z) (hK : K ≤ L) (hs : |z| ≤ s) : RelS u L a z s := by
  refine ⟨h.trans ?_, hs⟩
  have h1 : (1 + u) ^ K ≤ (1 + u) ^ L := pow_le_pow_right₀ (by linarith) hK
  have h2 : 0 ≤ (1 + u) ^ K - 1 := sub_nonneg.mpr (one_le_pow₀ (by linarith))
  exact mul_le_mul (by linarith) hs (abs_nonneg _) (by linarith)

theorem RelS.mono {u : ℝ} (hu : 0 ≤ u) {K L : ℕ} {a z s t : ℝ} (h : RelS u K a z s) (hK : K ≤ L) (hs : s ≤ t) : RelS u L a z t := by
  refine ⟨h.1.trans ?_, h.2.trans hs⟩
  have h1 : (1 + u) ^ K ≤ (1 + u) ^ L := pow_le_pow_right₀ (by linarith) hK
  have h2 : 0 ≤ (1 + u) ^ K - 1 := sub_nonneg.mpr (one_le_pow₀ (by linarith))
  exact mul_le_mul (by linarith) hs ((abs_nonneg _).trans h.2) (by linarith)

theorem RelS.size {u : ℝ} {K : ℕ} {a z s : ℝ} (h : RelS u K a z s) : |a| ≤ (1 + u) ^ K * s := by
  have := abs_sub_abs_le_abs_sub a z
  have h1 := h.1
  have h2 := h.2
  linarith

theorem RelS.round {u : ℝ} (hu : 0 ≤ u) {K : ℕ} {a z r s : ℝ} (h : RelS u K a z s) (hr : |r - a| ≤ u * |a|) : RelS u (K + 1) r z s := by
  refine ⟨?_, h.2⟩
  calc |r - z| ≤ |r - a| + |a - z| := abs_sub_le _ _ _
    _ ≤ u * ((1 + u) ^ K * s) + ((1 + u) ^ K - 1) * s := add_le_add (hr.trans (mul_le_mul_of_nonneg_left h.size hu)) h.1
    _ = _ := by rw [pow_succ]; ring

theorem RelS.add {u : ℝ} (hu : 0 ≤ u) {K : ℕ} {a z b w r s t : ℝ} (h : RelS u K a z s) (g : RelS u K b w t) (hr : |r - (a + b)| ≤ u * |a + b|) : RelS u (K + 1) r (z + w) (s + t) := by
  refine RelS.round hu ⟨?_, (abs_add_le _ _).trans (add_le_add h.2 g.2)⟩ hr
  rw [show a + b - (z + w) = (a - z) + (b - w) by ring, mul_add]
  exact (abs_add_le _ _).trans (add_le_add h.1 g.1)

theorem RelS.sub {u : ℝ} (hu : 0 ≤ u) {K : ℕ} {a z b w r s t : ℝ} (h : RelS u K a z s) (g : RelS u K b w t) (hr : |r - (a - b)| ≤ u * |a - b|) : RelS u (K + 1) r (z - w) (s + t) := by
  refine RelS.round hu ⟨?_, (abs_sub _ _).trans (add_le_add h.2 g.2)⟩ hr
  rw [show a - b - (z - w) = (a - z) - (b - w) by ring, mul_add]
  exact (abs_sub _ _).trans (add_le_add h.1 g.1)

theorem RelS.mul {u : ℝ} (hu : 0 ≤ u) {K L : ℕ} {a z b w r s t : ℝ} (h : RelS u K a z s) (g : RelS u L b w t) (hr : |r - a * b| ≤ u * |a * b|) : RelS u (K + L + 1) r (z * w) (s * t) := by
  have hs : 0 ≤ s := (abs_nonneg _).trans h.2
  have ht : 0 ≤ t := (abs_nonneg _).trans g.2
  have hK : 0 ≤ (1 + u) ^ K - 1 := sub_nonneg.mpr (one_le_pow₀ (by linarith))
  have hL : 0 ≤ (1 + u) ^ L - 1 := sub_nonneg.mpr (one_le_pow₀ (by linarith))
  refine RelS.round hu ⟨?_, ?_⟩ hr
  · rw [show a * b - z * w = a * (b - w) + (a - z) * w by ring]
    refine (abs_add_le _ _).trans ?_
    rw [abs_mul, abs_mul]
    have h1 : |a| * |b - w| ≤ ((1 + u) ^ K * s) * (((1 + u) ^ L - 1) * t) := mul_le_mul h.size g.1 (abs_nonneg _) (by positivity)
    have h2 : |a - z| * |w| ≤ (((1 + u) ^ K - 1) * s) * t := mul_le_mul h.1 g.2 (abs_nonneg _) (by positivity)
    refine (add_le_add h1 h2).trans (le_of_eq ?_)
    rw [pow_add]; ring
  · rw [abs_mul]
    exact mul_le_mul h.2 g.2 (abs_nonneg _) hs

end DSP
