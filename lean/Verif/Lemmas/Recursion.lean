import Mathlib.Analysis.SpecificLimits.Normed
import Mathlib.Tactic.Linarith
import Mathlib.Tactic.FieldSimp

/-! # Linear recursions of first order -/

namespace DSP

open Filter Topology

theorem contraction_bounded (d : ℕ → ℝ) (r B C : ℝ) (hr : 0 ≤ r) (h : ∀ n, d (n + 1) ≤ r * d n + B)
    (h0 : d 0 ≤ C) (hC : r * C + B ≤ C) (n : ℕ) : d n ≤ C := by
  induction n with
  | zero => exact h0
  | succ n ih => exact (h n).trans (le_trans (by nlinarith) hC)

theorem contraction_tendsto (d v : ℕ → ℝ) (r : ℝ) (hr : 0 ≤ r) (hr1 : r < 1) (hd : ∀ n, 0 ≤ d n)
    (h : ∀ n, d (n + 1) ≤ r * d n + v n) (hv : Tendsto v atTop (𝓝 0)) : Tendsto d atTop (𝓝 0) := by
  rw [Metric.tendsto_atTop] at hv ⊢
  intro e he
  obtain ⟨N, hN⟩ := hv (e * (1 - r) / 2) (by have : 0 < 1 - r := by linarith
                                             positivity)
  have hb : ∀ k, d (N + k) ≤ r ^ k * d N + e / 2 := by
    intro k
    induction k with
    | zero => simp; linarith
    | succ k ih =>
      have h1 := h (N + k)
      have h2 := hN (N + k) (by omega)
      rw [Real.dist_eq, sub_zero] at h2
      have h3 := le_abs_self (v (N + k))
      rw [show N + (k + 1) = N + k + 1 from rfl, pow_succ]
      nlinarith
  have hp := ((tendsto_pow_atTop_nhds_zero_of_lt_one hr hr1).mul_const (d N))
  rw [zero_mul, Metric.tendsto_atTop] at hp
  obtain ⟨M, hM⟩ := hp (e / 2) (by linarith)
  refine ⟨N + M, fun n hn => ?_⟩
  have h1 := hb (n - N)
  rw [show N + (n - N) = n from by omega] at h1
  have h2 := hM (n - N) (by omega)
  rw [Real.dist_eq, sub_zero] at h2 ⊢
  have h3 := le_abs_self (r ^ (n - N) * d N)
  rw [abs_of_nonneg (hd n)]
  linarith

/-- `y[n+1] = r y[n] + u[n]` with `|r| < 1`: a vanishing input gives a vanishing output. -/
theorem recursion_tendsto {𝕜 E : Type*} [NormedField 𝕜] [NormedAddCommGroup E] [NormedSpace 𝕜 E] (y u : ℕ → E) (r : 𝕜)
    (hr : ‖r‖ < 1) (h : ∀ n, y (n + 1) = r • y n + u n) (hu : Tendsto u atTop (𝓝 0)) : Tendsto y atTop (𝓝 0) := by
  rw [tendsto_zero_iff_norm_tendsto_zero] at hu ⊢
  refine contraction_tendsto _ _ ‖r‖ (norm_nonneg _) hr (fun _ => norm_nonneg _) (fun n => ?_) hu
  rw [h n, ← norm_smul]
  exact norm_add_le _ _

/-- A bounded input gives a bounded output. -/
theorem recursion_bounded {𝕜 E : Type*} [NormedField 𝕜] [NormedAddCommGroup E] [NormedSpace 𝕜 E] (y u : ℕ → E) (r : 𝕜)
    (hr : ‖r‖ < 1) (h : ∀ n, y (n + 1) = r • y n + u n) (B : ℝ) (hu : ∀ n, ‖u n‖ ≤ B) (n : ℕ) :
    ‖y n‖ ≤ max ‖y 0‖ (B / (1 - ‖r‖)) := by
  have h1 : 0 < 1 - ‖r‖ := by linarith
  refine contraction_bounded (fun n => ‖y n‖) ‖r‖ B _ (norm_nonneg _) (fun n => ?_) (le_max_left _ _) ?_ n
  · rw [h n, ← norm_smul]
    exact (norm_add_le _ _).trans (by linarith [hu n])
  · have h2 : B / (1 - ‖r‖) ≤ max ‖y 0‖ (B / (1 - ‖r‖)) := le_max_right _ _
    rw [div_le_iff₀ h1] at h2
    linarith

end DSP
