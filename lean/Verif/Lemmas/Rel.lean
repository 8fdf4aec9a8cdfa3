import Verif.Spec.Rounding
import Mathlib.Analysis.SpecialFunctions.Exp

/-!
# Relative errors

Products and quotients of rounded numbers, with the number of roundings as the measure of the error.
-/

namespace DSP

/-- `a` is `z` up to `K` roundings. -/
def Rel (u : ℝ) (K : ℕ) (a z : ℝ) : Prop := |a - z| ≤ ((1 + u) ^ K - 1) * |z|

theorem Rel.refl (u : ℝ) (a : ℝ) : Rel u 0 a a := by simp [Rel]

theorem Rel.size {u : ℝ} {K : ℕ} {a z : ℝ} (h : Rel u K a z) : |a| ≤ (1 + u) ^ K * |z| := by
  have := abs_sub_abs_le_abs_sub a z
  unfold Rel at h
  linarith

theorem Rel.of_le {u : ℝ} (hu : 0 ≤ u) {K : ℕ} {a z e : ℝ} (h : |a - z| ≤ e * |z|) (he : e ≤ K * u) : Rel u K a z := by
  refine h.trans (mul_le_mul_of_nonneg_right ?_ (abs_nonneg _))
  have := one_add_mul_le_pow (by linarith : -2 ≤ u) K
  linarith

theorem Rel.round {u : ℝ} (hu : 0 ≤ u) {K : ℕ} {a z r : ℝ} (h : Rel u K a z) (hr : |r - a| ≤ u * |a|) : Rel u (K + 1) r z := by
  unfold Rel
  calc |r - z| ≤ |r - a| + |a - z| := abs_sub_le _ _ _
    _ ≤ u * ((1 + u) ^ K * |z|) + ((1 + u) ^ K - 1) * |z| := add_le_add (hr.trans (mul_le_mul_of_nonneg_left h.size hu)) h
    _ = _ := by rw [pow_succ]; ring

theorem Rel.mul_exact {u : ℝ} (hu : 0 ≤ u) {K L : ℕ} {a z b w : ℝ} (h : Rel u K a z) (g : Rel u L b w) : Rel u (K + L) (a * b) (z * w) := by
  have e : a * b - z * w = a * (b - w) + (a - z) * w := by ring
  unfold Rel
  rw [e, abs_mul z w]
  refine (abs_add_le _ _).trans ?_
  rw [abs_mul, abs_mul]
  have hL : 0 ≤ (1 + u) ^ L - 1 := sub_nonneg.mpr (one_le_pow₀ (by linarith))
  calc _ ≤ (1 + u) ^ K * |z| * (((1 + u) ^ L - 1) * |w|) + ((1 + u) ^ K - 1) * |z| * |w| := by
        apply add_le_add
        · exact mul_le_mul h.size g (abs_nonneg _) (by positivity)
        · exact mul_le_mul_of_nonneg_right h (abs_nonneg _)
    _ = _ := by rw [pow_add]; ring

theorem Rel.mul {u : ℝ} (hu : 0 ≤ u) {K L : ℕ} {a z b w r : ℝ} (h : Rel u K a z) (g : Rel u L b w) (hr : |r - a * b| ≤ u * |a * b|) : Rel u (K + L + 1) r (z * w) :=
  (h.mul_exact hu g).round hu hr

/-- Few roundings add up to little. -/
theorem pow_sub_one_bound (u : ℝ) (hu0 : 0 ≤ u) (K : ℕ) (h : K * u ≤ 1) : (1 + u) ^ K - 1 ≤ K * u * (1 + K * u) := by
  have h0 : 0 ≤ K * u := by positivity
  have h1 : (1 + u) ^ K ≤ Real.exp (K * u) := by
    rw [Real.exp_nat_mul]
    exact pow_le_pow_left₀ (by positivity) (by linarith [Real.add_one_le_exp u]) K
  have h2 := Real.abs_exp_sub_one_sub_id_le (x := K * u) (by rw [abs_of_nonneg h0]; exact h)
  have h3 := le_abs_self (Real.exp (K * u) - 1 - K * u)
  nlinarith

theorem Rel.bound {u : ℝ} (hu : 0 ≤ u) {K : ℕ} {a z C : ℝ} (h : Rel u K a z) (hK : K * u ≤ 1) (hC : K * (1 + K * u) ≤ C) : |a - z| ≤ C * u * |z| := by
  refine h.trans (mul_le_mul_of_nonneg_right ?_ (abs_nonneg _))
  refine (pow_sub_one_bound u hu K hK).trans ?_
  calc _ = K * (1 + K * u) * u := by ring
    _ ≤ _ := by gcongr

theorem pow_error (u : ℝ) (hu0 : 0 ≤ u) (hu : u ≤ 1 / 1000) (K : ℕ) (hK : K ≤ 137) : (1 + u) ^ K - 1 ≤ 1.14 * K * u := by
  have hK' : (K : ℝ) ≤ 137 := by exact_mod_cast hK
  have h0 : 0 ≤ K * u := by positivity
  have hy : K * u ≤ 0.137 := by nlinarith
  have := pow_sub_one_bound u hu0 K (by linarith)
  nlinarith

theorem Rel.inv {u : ℝ} (hu : 0 ≤ u) (hu1 : u ≤ 1) {L : ℕ} {b w : ℝ} (h : Rel u L b w) (hw : w ≠ 0) (hL : 8 * L ^ 2 * u ≤ 1) : b ≠ 0 ∧ Rel u (L + 1) b⁻¹ w⁻¹ := by
  have hw0 : 0 < |w| := abs_pos.mpr hw
  obtain ⟨δ, hδ⟩ : ∃ δ, δ = (1 + u) ^ L - 1 := ⟨_, rfl⟩
  have hδ0 : 0 ≤ δ := by rw [hδ]; exact sub_nonneg.mpr (one_le_pow₀ (by linarith))
  have hLu : L * u ≤ 1 / 8 := by
    rcases Nat.eq_zero_or_pos L with rfl | hL1
    · simp
    · have hL2 : (1 : ℝ) ≤ L := by exact_mod_cast hL1
      have : (L : ℝ) * u ≤ L ^ 2 * u := by
        apply mul_le_mul_of_nonneg_right _ hu
        nlinarith
      linarith
  have hδ1 : δ ≤ 9 / 8 * (L * u) := by
    have := pow_sub_one_bound u hu L (by linarith)
    have hLu0 : 0 ≤ L * u := by positivity
    rw [hδ]
    nlinarith
  have hδ2 : δ ^ 2 ≤ u / 2 := by
    have h1 : δ ^ 2 ≤ (9 / 8 * (L * u)) ^ 2 := pow_le_pow_left₀ hδ0 hδ1 2
    have h2 : (9 / 8 * (L * u)) ^ 2 = 81 / 64 * (L ^ 2 * u) * u := by ring
    have h3 : 81 / 64 * (L ^ 2 * u) * u ≤ 81 / 64 * (1 / 8) * u := by
      gcongr
      linarith
    linarith
  have hδ3 : δ < 1 / 2 := by linarith
  unfold Rel at h
  rw [← hδ] at h
  have hb : (1 - δ) * |w| ≤ |b| := by
    have := abs_sub_abs_le_abs_sub w b
    rw [abs_sub_comm] at this
    linarith
  have hb0 : 0 < |b| := lt_of_lt_of_le (by nlinarith) hb
  have hbne : b ≠ 0 := abs_pos.mp hb0
  refine ⟨hbne, ?_⟩
  unfold Rel
  rw [pow_succ, show (1 + u) ^ L = 1 + δ by rw [hδ]; ring]
  have e : b⁻¹ - w⁻¹ = -(b - w) * (b⁻¹ * w⁻¹) := by field_simp; ring
  rw [e, abs_mul, abs_neg, abs_mul, abs_inv, abs_inv]
  have e2 : |b|⁻¹ ≤ ((1 - δ) * |w|)⁻¹ := inv_anti₀ (by nlinarith) hb
  calc _ ≤ δ * |w| * (((1 - δ) * |w|)⁻¹ * |w|⁻¹) := by gcongr
    _ = δ / (1 - δ) * |w|⁻¹ := by
      have : 1 - δ ≠ 0 := by linarith
      field_simp
    _ ≤ _ := by
      apply mul_le_mul_of_nonneg_right _ (by positivity)
      rw [div_le_iff₀ (by linarith)]
      nlinarith

theorem Rel.div {u : ℝ} (hu : 0 ≤ u) (hu1 : u ≤ 1) {K L : ℕ} {a z b w r : ℝ} (h : Rel u K a z) (g : Rel u L b w) (hw : w ≠ 0) (hL : 8 * L ^ 2 * u ≤ 1) (hr : b ≠ 0 → |r - a / b| ≤ u * |a / b|) :
    b ≠ 0 ∧ Rel u (K + L + 2) r (z / w) := by
  obtain ⟨hb, hi⟩ := g.inv hu hu1 hw hL
  refine ⟨hb, ?_⟩
  have := (h.mul_exact hu hi).round hu (by rw [← div_eq_mul_inv]; exact hr hb)
  rw [← div_eq_mul_inv] at this
  exact this

end DSP
