import Mathlib.Analysis.Calculus.Deriv.MeanValue
import Mathlib.Analysis.Real.Pi.Leibniz
import Mathlib.Analysis.SpecificLimits.Normed
import Mathlib.Tactic.Positivity

/-!
# Sums of sines of odd multiples
-/

namespace DSP

/-- Summation by parts. -/
theorem sum_parts (b a : ℕ → ℝ) (m : ℕ) : ∑ i ∈ Finset.range m, b i * a i =
    ∑ k ∈ Finset.range m, (b k - b (k + 1)) * ∑ i ∈ Finset.range (k + 1), a i + b m * ∑ i ∈ Finset.range m, a i := by
  induction m with
  | zero => simp
  | succ m ih =>
    rw [Finset.sum_range_succ, ih, Finset.sum_range_succ _ m, Finset.sum_range_succ a m]
    ring

theorem odd_sine (k : ℕ) (ω : ℝ) : Real.sin ω * ∑ i ∈ Finset.range k, Real.sin ((2 * i + 1) * ω) = Real.sin (k * ω) ^ 2 := by
  induction k with
  | zero => simp
  | succ k ih =>
    rw [Finset.sum_range_succ, mul_add, ih]
    have e1 : ((2 : ℝ) * k + 1) * ω = k * ω + (k * ω + ω) := by ring
    have e2 : ((k + 1 : ℕ) : ℝ) * ω = k * ω + ω := by push_cast; ring
    rw [e1, e2, Real.sin_add (k * ω), Real.sin_add, Real.cos_add]
    have h1 := Real.sin_sq_add_cos_sq ω
    have h2 := Real.sin_sq_add_cos_sq (k * ω)
    generalize Real.sin (k * ω) = S at *
    generalize Real.cos (k * ω) = C at *
    generalize Real.sin ω = s at *
    generalize Real.cos ω = c at *
    linear_combination (-S ^ 2) * h1 + 0 * h2

theorem odd_cosine (k : ℕ) (ω : ℝ) : 2 * Real.sin ω * ∑ i ∈ Finset.range k, Real.cos ((2 * i + 1) * ω) = Real.sin (2 * k * ω) := by
  induction k with
  | zero => simp
  | succ k ih =>
    rw [Finset.sum_range_succ, mul_add, ih]
    have e1 : ((2 : ℝ) * k + 1) * ω = 2 * k * ω + ω := by ring
    have e2 : (2 : ℝ) * ((k + 1 : ℕ) : ℝ) * ω = 2 * k * ω + (ω + ω) := by push_cast; ring
    rw [e1, e2, Real.sin_add, Real.sin_add ω, Real.cos_add ω, Real.cos_add]
    have h1 := Real.sin_sq_add_cos_sq ω
    generalize Real.sin (2 * k * ω) = S at *
    generalize Real.cos (2 * k * ω) = C at *
    generalize Real.sin ω = s at *
    generalize Real.cos ω = c at *
    linear_combination (-S) * h1

/-- The beginning of the Fourier series of a square wave with the height `π / 4`. -/
noncomputable def squareWave (n : ℕ) (ω : ℝ) : ℝ := ∑ i ∈ Finset.range n, Real.sin ((2 * i + 1) * ω) / (2 * i + 1)

theorem squareWave_deriv (n : ℕ) (t : ℝ) : HasDerivAt (squareWave n) (∑ i ∈ Finset.range n, Real.cos ((2 * i + 1) * t)) t := by
  refine HasDerivAt.fun_sum fun i _ => ?_
  have h : ((2 : ℝ) * i + 1) ≠ 0 := by positivity
  have h0 : HasDerivAt (fun t : ℝ => (2 * (i : ℝ) + 1) * t) (2 * i + 1) t := by simpa using (hasDerivAt_id t).const_mul (2 * (i : ℝ) + 1)
  refine ((HasDerivAt.comp (h := fun t : ℝ => (2 * (i : ℝ) + 1) * t) t (Real.hasDerivAt_sin _) h0).div_const _).congr_deriv ?_
  field_simp

theorem squareWave_mirror (n : ℕ) (ω : ℝ) : squareWave n (Real.pi - ω) = squareWave n ω := by
  refine Finset.sum_congr rfl fun i _ => ?_
  congr 1
  have : (2 * (i : ℝ) + 1) * (Real.pi - ω) = Real.pi - (2 * i + 1) * ω + i * (2 * Real.pi) := by ring
  rw [this, Real.sin_add_nat_mul_two_pi, Real.sin_pi_sub]

/-- At the middle it is the series of Leibniz. -/
theorem squareWave_middle (n : ℕ) : |squareWave n (Real.pi / 2) - Real.pi / 4| ≤ 1 / (2 * n + 1) := by
  have e : ∀ n, squareWave n (Real.pi / 2) = ∑ i ∈ Finset.range n, (-1 : ℝ) ^ i * (1 / (2 * i + 1)) := fun n => by
    refine Finset.sum_congr rfl fun i _ => ?_
    have : (2 * (i : ℝ) + 1) * (Real.pi / 2) = Real.pi / 2 + i * Real.pi := by ring
    rw [this, Real.sin_add_nat_mul_pi, Real.sin_pi_div_two]
    ring
  have ha : Antitone fun i : ℕ => (1 : ℝ) / (2 * i + 1) := fun i j h => by
    have : (i : ℝ) ≤ j := by exact_mod_cast h
    dsimp only
    gcongr
  have hl : Filter.Tendsto (fun n => ∑ i ∈ Finset.range n, (-1 : ℝ) ^ i * (1 / (2 * (i : ℝ) + 1))) Filter.atTop (nhds (Real.pi / 4)) := by
    refine Real.tendsto_sum_pi_div_four.congr fun n => Finset.sum_congr rfl fun i _ => by ring
  rw [e]
  rcases Nat.even_or_odd' n with ⟨k, rfl | rfl⟩
  · have h1 := ha.alternating_series_le_tendsto hl k
    have h2 := ha.tendsto_le_alternating_series hl k
    rw [Finset.sum_range_succ, pow_mul] at h2
    push_cast at h2 ⊢
    norm_num at h1 h2 ⊢
    rw [abs_le]
    constructor <;> linarith [show (0 : ℝ) ≤ (2 * (2 * (k : ℝ)) + 1)⁻¹ by positivity]
  · have h1 := ha.alternating_series_le_tendsto hl (k + 1)
    have h2 := ha.tendsto_le_alternating_series hl k
    rw [show 2 * (k + 1) = 2 * k + 1 + 1 by ring, Finset.sum_range_succ, pow_succ, pow_mul] at h1
    push_cast at h1 ⊢
    norm_num at h1 h2 ⊢
    rw [abs_le]
    constructor <;> linarith [show (0 : ℝ) ≤ (2 * (2 * (k : ℝ) + 1) + 1)⁻¹ by positivity]

/-- How near it is to the square wave. -/
theorem squareWave_near (n : ℕ) (hn : 1 ≤ n) (ω : ℝ) (h0 : 0 < ω) (h1 : ω < Real.pi) : |squareWave n ω - Real.pi / 4| ≤ 1 / (n * Real.sin ω) := by
  wlog c : ω ≤ Real.pi / 2 generalizing ω with H
  · have := H (Real.pi - ω) (by linarith) (by linarith) (by linarith)
    rwa [squareWave_mirror, Real.sin_pi_sub] at this
  have hn' : (1 : ℝ) ≤ n := by exact_mod_cast hn
  have hs : ∀ t, ω ≤ t → t ≤ Real.pi / 2 → 0 < Real.sin t := fun t a b => Real.sin_pos_of_pos_of_lt_pi (by linarith) (by linarith [Real.pi_pos])
  have hd : ∀ (s t : ℝ), ω ≤ t → t ≤ Real.pi / 2 → HasDerivAt (fun t => squareWave n t + (Real.cos (2 * n * t) - s) / (4 * n * Real.sin t)) ((s - Real.cos (2 * n * t)) * Real.cos t / (4 * n * Real.sin t ^ 2)) t := fun s t a b => by
    have st := (hs t a b).ne'
    have i0 : HasDerivAt (fun t : ℝ => 2 * (n : ℝ) * t) (2 * n) t := by simpa using (hasDerivAt_id t).const_mul (2 * (n : ℝ))
    have i1 := (HasDerivAt.comp (h := fun t : ℝ => 2 * (n : ℝ) * t) t (Real.hasDerivAt_cos _) i0).sub_const s
    have i2 := (Real.hasDerivAt_sin t).const_mul (4 * (n : ℝ))
    have i3 := (squareWave_deriv n t).add (i1.div i2 (by positivity))
    refine i3.congr_deriv ?_
    have e := odd_cosine n t
    have e' : ∑ i ∈ Finset.range n, Real.cos ((2 * i + 1) * t) = Real.sin (2 * n * t) / (2 * Real.sin t) := by
      rw [← e, mul_div_cancel_left₀ _ (by positivity)]
    rw [e']
    simp only [Function.comp]
    field_simp
    ring
  have key : ∀ s : ℝ, s = 1 ∨ s = -1 → s * (squareWave n ω + (Real.cos (2 * n * ω) - s) / (4 * n * Real.sin ω)) ≤ s * (squareWave n (Real.pi / 2) + (Real.cos (2 * n * (Real.pi / 2)) - s) / (4 * n * Real.sin (Real.pi / 2))) := by
    intro s hs'
    have hm : MonotoneOn (fun t => s * (squareWave n t + (Real.cos (2 * n * t) - s) / (4 * n * Real.sin t))) (Set.Icc ω (Real.pi / 2)) := by
      refine monotoneOn_of_hasDerivWithinAt_nonneg (convex_Icc _ _) (f' := fun t => s * ((s - Real.cos (2 * n * t)) * Real.cos t / (4 * n * Real.sin t ^ 2))) ?_ ?_ ?_
      · intro t ht
        exact ((hd s t ht.1 ht.2).const_mul s).continuousAt.continuousWithinAt
      · intro t ht
        have ht := interior_subset ht
        exact ((hd s t ht.1 ht.2).const_mul s).hasDerivWithinAt
      · intro t ht
        have ht := interior_subset ht
        have p1 : 0 ≤ Real.cos t := Real.cos_nonneg_of_neg_pi_div_two_le_of_le (by linarith [ht.1, Real.pi_pos]) ht.2
        have p2 := hs t ht.1 ht.2
        have p3 : 0 ≤ Real.cos t / (4 * n * Real.sin t ^ 2) := by positivity
        have p4 : 0 ≤ s * (s - Real.cos (2 * n * t)) := by
          have a := Real.neg_one_le_cos (2 * n * t)
          have b := Real.cos_le_one (2 * n * t)
          rcases hs' with rfl | rfl <;> linarith
        have := mul_nonneg p4 p3
        rw [mul_assoc] at this
        rwa [mul_div_assoc]
    exact hm ⟨le_rfl, c⟩ ⟨c, le_rfl⟩ c
  have k1 := key 1 (Or.inl rfl)
  have k2 := key (-1) (Or.inr rfl)
  have hm := abs_le.mp (squareWave_middle n)
  have s0 := hs ω le_rfl c
  have s1 := Real.sin_le_one ω
  rw [Real.sin_pi_div_two, show 2 * (n : ℝ) * (Real.pi / 2) = n * Real.pi by ring] at k1 k2
  have q : ∀ u : ℝ, (Real.cos (2 * n * ω) - u) / (4 * n * Real.sin ω) = (Real.cos (2 * n * ω) - u) / 4 * (1 / (n * Real.sin ω)) := fun u => by field_simp
  have q' : ∀ u v : ℝ, (u - v) / (4 * n * 1) = (u - v) / 4 * (1 / n) := fun u v => by field_simp
  rw [q, q'] at k1 k2
  have r1 : 1 / (n : ℝ) ≤ 1 / (n * Real.sin ω) := by
    gcongr
    nlinarith
  have r2 : 1 / (2 * (n : ℝ) + 1) ≤ 1 / 2 * (1 / n) := by
    rw [div_mul_div_comm, one_mul]
    gcongr
    linarith
  have r3 : 0 < 1 / (n : ℝ) := by positivity
  have a := Real.neg_one_le_cos (2 * n * ω)
  have b := Real.cos_le_one (2 * n * ω)
  have a' := Real.neg_one_le_cos (n * Real.pi)
  have b' := Real.cos_le_one (n * Real.pi)
  generalize 1 / ((n : ℝ) * Real.sin ω) = Q at *
  generalize 1 / (n : ℝ) = R at *
  have f1 : -(Q / 2) ≤ (Real.cos (2 * n * ω) - 1) / 4 * Q := by nlinarith
  have f2 : (Real.cos (n * Real.pi) - 1) / 4 * R ≤ 0 := by nlinarith
  have f3 : (Real.cos (2 * n * ω) - -1) / 4 * Q ≤ Q / 2 := by nlinarith
  have f4 : 0 ≤ (Real.cos (n * Real.pi) - -1) / 4 * R := by nlinarith
  rw [abs_le]
  constructor <;> linarith

end DSP
