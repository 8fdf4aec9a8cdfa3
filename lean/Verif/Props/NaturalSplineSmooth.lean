import Verif.Props.NaturalSpline
import Mathlib.Analysis.Calculus.MeanValue
import Mathlib.Analysis.SpecialFunctions.Trigonometric.Deriv
import Mathlib.MeasureTheory.Integral.IntervalIntegral.FundThmCalculus

/-!
# The natural spline is the smoothest function through its data (C91)
-/

namespace DSP
namespace NaturalSpline

open Spec Set

/-- The second derivative of a cubic piece. -/
theorem piece_second {S S1 S2 : ℝ → ℝ} (h1 : ∀ t, HasDerivAt S (S1 t) t) (h2 : ∀ t, HasDerivAt S1 (S2 t) t) (h3 : Continuous S2) (a b : ℝ) (hab : a < b) (A B C D : ℝ)
    (hS : ∀ t ∈ Icc a b, S t = A + B * t + C * t ^ 2 + D * t ^ 3) : ∀ t ∈ Icc a b, S2 t = 2 * C + 6 * D * t := by
  have d1 : ∀ t : ℝ, HasDerivAt (fun t : ℝ => A + B * t + C * t ^ 2 + D * t ^ 3) (B + 2 * C * t + 3 * D * t ^ 2) t := by
    intro t
    have h := hasDerivAt_id t
    have := (((h.const_mul B).const_add A).add ((h.pow 2).const_mul C)).add ((h.pow 3).const_mul D)
    refine this.congr_deriv ?_
    simp; ring
  have d2 : ∀ t : ℝ, HasDerivAt (fun t : ℝ => B + 2 * C * t + 3 * D * t ^ 2) (2 * C + 6 * D * t) t := by
    intro t
    have h := hasDerivAt_id t
    have := ((h.const_mul (2 * C)).const_add B).add ((h.pow 2).const_mul (3 * D))
    refine this.congr_deriv ?_
    simp; ring
  have e1 : ∀ t ∈ Ioo a b, S1 t = B + 2 * C * t + 3 * D * t ^ 2 := by
    intro t ht
    refine (h1 t).unique ((d1 t).congr_of_eventuallyEq ?_)
    filter_upwards [isOpen_Ioo.mem_nhds ht] with s hs
    exact hS s (Ioo_subset_Icc_self hs)
  have e2 : ∀ t ∈ Ioo a b, S2 t = 2 * C + 6 * D * t := by
    intro t ht
    refine (h2 t).unique ((d2 t).congr_of_eventuallyEq ?_)
    filter_upwards [isOpen_Ioo.mem_nhds ht] with s hs
    exact e1 s hs
  have : EqOn S2 (fun t => 2 * C + 6 * D * t) (closure (Ioo a b)) := Set.EqOn.closure e2 h3 (by fun_prop)
  rw [closure_Ioo hab.ne] at this
  exact this

/-- The second derivative of the spline is orthogonal to that of every function which is zero at the knots. -/
theorem orthogonal {K : ℕ} {y : ℕ → ℝ} {S S1 S2 h h1 h2 : ℝ → ℝ} (hS : IsNaturalSpline K y S) (s1 : ∀ t, HasDerivAt S (S1 t) t) (s2 : ∀ t, HasDerivAt S1 (S2 t) t) (s3 : Continuous S2) (s4 : S2 0 = 0)
    (s5 : S2 ((K : ℝ) - 1) = 0) (g1 : ∀ t, HasDerivAt h (h1 t) t) (g2 : ∀ t, HasDerivAt h1 (h2 t) t) (g3 : Continuous h2) (hk : ∀ i : ℕ, i < K → h i = 0) (hK : 1 ≤ K) :
    ∫ t in (0 : ℝ)..(K : ℝ) - 1, S2 t * h2 t = 0 := by
  have hc : Continuous fun t => S2 t * h2 t := s3.mul g3
  have key : ∀ m : ℕ, m < K → ∫ t in (0 : ℝ)..(m : ℝ), S2 t * h2 t = S2 m * h1 m := by
    intro m
    induction m with
    | zero => intro _; simp [s4]
    | succ m ih =>
      intro hm
      obtain ⟨A, B, C, D, hp⟩ := hS.cubic m hm
      have hlt : (m : ℝ) < ((m + 1 : ℕ) : ℝ) := by push_cast; linarith
      have e := piece_second s1 s2 s3 (m : ℝ) ((m + 1 : ℕ) : ℝ) hlt A B C D (fun t ht => hp t (Or.inr ht.1) (Or.inr (by simpa using ht.2)))
      have hint : ∫ t in (m : ℝ)..((m + 1 : ℕ) : ℝ), S2 t * h2 t = S2 ((m + 1 : ℕ) : ℝ) * h1 ((m + 1 : ℕ) : ℝ) - S2 m * h1 m := by
        have hd : ∀ t ∈ uIcc (m : ℝ) ((m + 1 : ℕ) : ℝ), HasDerivAt (fun t => (2 * C + 6 * D * t) * h1 t - 6 * D * h t) (S2 t * h2 t) t := by
          intro t ht
          rw [uIcc_of_le hlt.le] at ht
          have i := hasDerivAt_id t
          have := (((i.const_mul (6 * D)).const_add (2 * C)).mul (g2 t)).sub ((g1 t).const_mul (6 * D))
          refine this.congr_deriv ?_
          rw [e t ht]
          simp
        rw [intervalIntegral.integral_eq_sub_of_hasDerivAt hd (hc.intervalIntegrable _ _), e _ (right_mem_Icc.mpr hlt.le), e _ (left_mem_Icc.mpr hlt.le), hk (m + 1) hm, hk m (by omega)]
        ring
      rw [← intervalIntegral.integral_add_adjacent_intervals (hc.intervalIntegrable _ _) (hc.intervalIntegrable _ _), ih (by omega), hint]
      ring
  obtain ⟨m, rfl⟩ : ∃ m, K = m + 1 := ⟨K - 1, by omega⟩
  have e : (((m + 1 : ℕ) : ℝ)) - 1 = m := by push_cast; ring
  rw [e] at s5 ⊢
  rw [key m (by omega), s5, zero_mul]

/-- A function with second derivative zero and two zeros is zero. -/
theorem zero_of_second {h h1 h2 : ℝ → ℝ} {L : ℝ} (hL : 1 ≤ L) (g1 : ∀ t, HasDerivAt h (h1 t) t) (g2 : ∀ t, HasDerivAt h1 (h2 t) t) (hz : ∀ t ∈ Icc 0 L, h2 t = 0) (h0 : h 0 = 0) (hone : h 1 = 0) :
    ∀ t ∈ Icc 0 L, h t = 0 := by
  have c1 : ∀ t ∈ Icc 0 L, h1 t = h1 0 := by
    refine constant_of_has_deriv_right_zero (fun t _ => (g2 t).continuousAt.continuousWithinAt) fun t ht => ?_
    have := (g2 t).hasDerivWithinAt (s := Ici t)
    rwa [hz t ⟨ht.1, ht.2.le⟩] at this
  have c2 : ∀ t ∈ Icc 0 L, h t - h1 0 * t = h 0 - h1 0 * 0 := by
    have hd : ∀ t, HasDerivAt (fun t => h t - h1 0 * t) (h1 t - h1 0) t := fun t => by
      have := (g1 t).sub ((hasDerivAt_id t).const_mul (h1 0))
      refine this.congr_deriv ?_
      simp
    refine constant_of_has_deriv_right_zero (f := fun t => h t - h1 0 * t) (fun t _ => (hd t).continuousAt.continuousWithinAt) fun t ht => ?_
    have := (hd t).hasDerivWithinAt (s := Ici t)
    rwa [c1 t ⟨ht.1, ht.2.le⟩, sub_self] at this
  intro t ht
  have e1 := c2 1 ⟨by norm_num, hL⟩
  have e2 := c2 t ht
  rw [h0, hone] at e1
  rw [h0] at e2
  have : h1 0 = 0 := by linarith
  rw [this] at e2
  linarith

/-- Of all twice continuously differentiable functions through the data the natural spline has the least curvature, and it is the only one. -/
theorem smoothest {K : ℕ} (hK : 2 ≤ K) {y : ℕ → ℝ} {S S1 S2 g g1 g2 : ℝ → ℝ} (hS : IsNaturalSpline K y S) (s1 : ∀ t, HasDerivAt S (S1 t) t) (s2 : ∀ t, HasDerivAt S1 (S2 t) t) (s3 : Continuous S2)
    (s4 : S2 0 = 0) (s5 : S2 ((K : ℝ) - 1) = 0) (d1 : ∀ t, HasDerivAt g (g1 t) t) (d2 : ∀ t, HasDerivAt g1 (g2 t) t) (d3 : Continuous g2) (hg : ∀ i : ℕ, i < K → g i = y i) :
    (∫ t in (0 : ℝ)..(K : ℝ) - 1, S2 t ^ 2) ≤ (∫ t in (0 : ℝ)..(K : ℝ) - 1, g2 t ^ 2) ∧
      ((∫ t in (0 : ℝ)..(K : ℝ) - 1, g2 t ^ 2) ≤ (∫ t in (0 : ℝ)..(K : ℝ) - 1, S2 t ^ 2) → ∀ t ∈ Icc 0 ((K : ℝ) - 1), g t = S t) := by
  have hK1 : (1 : ℝ) ≤ (K : ℝ) - 1 := by
    have : (2 : ℝ) ≤ K := by exact_mod_cast hK
    linarith
  have ho := orthogonal hS s1 s2 s3 s4 s5 (h := fun t => g t - S t) (h1 := fun t => g1 t - S1 t) (h2 := fun t => g2 t - S2 t) (fun t => (d1 t).sub (s1 t)) (fun t => (d2 t).sub (s2 t)) (d3.sub s3)
    (fun i hi => by rw [hg i hi, hS.knots i hi, sub_self]) (by omega)
  have hc : Continuous fun t => (g2 t - S2 t) ^ 2 := by fun_prop
  have e : (∫ t in (0 : ℝ)..(K : ℝ) - 1, g2 t ^ 2) = (∫ t in (0 : ℝ)..(K : ℝ) - 1, S2 t ^ 2) + ∫ t in (0 : ℝ)..(K : ℝ) - 1, (g2 t - S2 t) ^ 2 := by
    have i1 : IntervalIntegrable (fun t => S2 t ^ 2) MeasureTheory.volume 0 ((K : ℝ) - 1) := (by fun_prop : Continuous fun t => S2 t ^ 2).intervalIntegrable _ _
    have i2 : IntervalIntegrable (fun t => (g2 t - S2 t) ^ 2) MeasureTheory.volume 0 ((K : ℝ) - 1) := hc.intervalIntegrable _ _
    have i3 : IntervalIntegrable (fun t => 2 * (S2 t * (g2 t - S2 t))) MeasureTheory.volume 0 ((K : ℝ) - 1) := (by fun_prop : Continuous fun t => 2 * (S2 t * (g2 t - S2 t))).intervalIntegrable _ _
    have : (fun t => g2 t ^ 2) = fun t => (S2 t ^ 2 + (g2 t - S2 t) ^ 2) + 2 * (S2 t * (g2 t - S2 t)) := by funext t; ring
    rw [this, intervalIntegral.integral_add (i1.add i2) i3, intervalIntegral.integral_add i1 i2, intervalIntegral.integral_const_mul, ho]
    ring
  have hn : 0 ≤ ∫ t in (0 : ℝ)..(K : ℝ) - 1, (g2 t - S2 t) ^ 2 := intervalIntegral.integral_nonneg (by linarith) fun t _ => sq_nonneg _
  refine ⟨by linarith, fun hle t ht => ?_⟩
  have h0 : ∫ t in (0 : ℝ)..(K : ℝ) - 1, (g2 t - S2 t) ^ 2 = 0 := by linarith
  have hz : ∀ t ∈ Icc 0 ((K : ℝ) - 1), g2 t - S2 t = 0 := by
    by_contra hne
    push Not at hne
    obtain ⟨c, hc1, hc2⟩ := hne
    have := intervalIntegral.integral_pos (f := fun t => (g2 t - S2 t) ^ 2) (by linarith : (0 : ℝ) < (K : ℝ) - 1) hc.continuousOn (fun t _ => sq_nonneg _) ⟨c, hc1, by positivity⟩
    linarith
  have := zero_of_second hK1 (h := fun t => g t - S t) (h1 := fun t => g1 t - S1 t) (h2 := fun t => g2 t - S2 t) (fun t => (d1 t).sub (s1 t)) (fun t => (d2 t).sub (s2 t)) hz
    (by
      have a := hg 0 (by omega)
      have b := hS.knots 0 (by omega)
      rw [Nat.cast_zero] at a b
      rw [a, b, sub_self])
    (by
      have a := hg 1 (by omega)
      have b := hS.knots 1 (by omega)
      rw [Nat.cast_one] at a b
      rw [a, b, sub_self]) t ht
  linarith

/-- Cubic polynomials that agree from zero to one are the same. -/
theorem cubic_unique {A B C D A' B' C' D' : ℝ} (x : ℝ) (h : ∀ t ∈ Icc x (x + 1), A + B * t + C * t ^ 2 + D * t ^ 3 = A' + B' * t + C' * t ^ 2 + D' * t ^ 3) (t : ℝ) :
    A + B * t + C * t ^ 2 + D * t ^ 3 = A' + B' * t + C' * t ^ 2 + D' * t ^ 3 := by
  have h0 := h x ⟨le_rfl, by linarith⟩
  have h1 := h (x + 1 / 3) ⟨by linarith, by linarith⟩
  have h2 := h (x + 2 / 3) ⟨by linarith, by linarith⟩
  have h3 := h (x + 1) ⟨by linarith, by linarith⟩
  obtain ⟨s, rfl⟩ : ∃ s, t = x + s := ⟨t - x, by ring⟩
  linear_combination (1 - 11 / 2 * s + 9 * s ^ 2 - 9 / 2 * s ^ 3) * h0 + (9 * s - 45 / 2 * s ^ 2 + 27 / 2 * s ^ 3) * h1 + (-9 / 2 * s + 18 * s ^ 2 - 27 / 2 * s ^ 3) * h2 + (s - 9 / 2 * s ^ 2 + 9 / 2 * s ^ 3) * h3

/-- **C91** There is only one natural spline through the data. -/
theorem C91_unique (K : ℕ) (hK : 2 ≤ K) (y : ℕ → ℝ) (S T : ℝ → ℝ) (hS : IsNaturalSpline K y S) (hT : IsNaturalSpline K y T) : S = T := by
  obtain ⟨S1, S2, s1, s2, s3, s4, s5⟩ := hS.smooth
  obtain ⟨T1, T2, t1, t2, t3, t4, t5⟩ := hT.smooth
  have a := smoothest hK hS s1 s2 s3 s4 s5 t1 t2 t3 hT.knots
  have b := smoothest hK hT t1 t2 t3 t4 t5 s1 s2 s3 hS.knots
  have inner : ∀ t ∈ Icc 0 ((K : ℝ) - 1), S t = T t := b.2 a.1
  have hKr : (2 : ℝ) ≤ K := by exact_mod_cast hK
  funext t
  rcases lt_or_ge t 0 with h | h
  · obtain ⟨A, B, C, D, p⟩ := hS.cubic 0 (by omega)
    obtain ⟨A', B', C', D', q⟩ := hT.cubic 0 (by omega)
    rw [p t (Or.inl rfl) (Or.inr (by push_cast; linarith)), q t (Or.inl rfl) (Or.inr (by push_cast; linarith))]
    refine cubic_unique 0 (fun s hs => ?_) t
    rw [← p s (Or.inl rfl) (Or.inr (by push_cast; exact hs.2)), ← q s (Or.inl rfl) (Or.inr (by push_cast; exact hs.2))]
    exact inner s ⟨hs.1, by linarith [hs.2]⟩
  · rcases le_or_gt t ((K : ℝ) - 1) with h' | h'
    · exact inner t ⟨h, h'⟩
    · obtain ⟨m, rfl⟩ : ∃ m, K = m + 2 := ⟨K - 2, by omega⟩
      push_cast at h' inner
      obtain ⟨A, B, C, D, p⟩ := hS.cubic m (by omega)
      obtain ⟨A', B', C', D', q⟩ := hT.cubic m (by omega)
      rw [p t (Or.inr (by linarith)) (Or.inl rfl), q t (Or.inr (by linarith)) (Or.inl rfl)]
      refine cubic_unique m (fun s hs => ?_) t
      rw [← p s (Or.inr hs.1) (Or.inl rfl), ← q s (Or.inr hs.1) (Or.inl rfl)]
      exact inner s ⟨le_trans (Nat.cast_nonneg m) hs.1, by linarith [hs.2]⟩

/-- **C91** What the code computes is the smoothest function through the data: its values are those of a function `S` with the second derivative `S2`, and every twice continuously differentiable function `g` through the data has at least the
same mean square of the second derivative, and more if it differs from `S` anywhere between the first and the last knot. -/
theorem C91_smoothest (K : ℕ) (hK : 2 ≤ K) (junk Y : List ℝ) (hj : junk.length = K - 1) (st : ℕ) (y : ℕ → ℝ) (hy : ∀ i, i < K → Y[i * st]? = some (y i)) (x0 dx : ℝ) (hdx : dx ≠ 0) :
    ∃ s, make K junk Y x0 dx st = .ok s ∧ ∃ S S1 S2 : ℝ → ℝ, (∀ t, HasDerivAt S (S1 t) t) ∧ (∀ t, HasDerivAt S1 (S2 t) t) ∧ Continuous S2 ∧ (∀ i : ℕ, i < K → S i = y i) ∧
      (∀ x, |(x - x0) / dx| < 2147483648 → s.call K x = .ok (S ((x - x0) / dx))) ∧
      ∀ g g1 g2 : ℝ → ℝ, (∀ t, HasDerivAt g (g1 t) t) → (∀ t, HasDerivAt g1 (g2 t) t) → Continuous g2 → (∀ i : ℕ, i < K → g i = y i) →
        (∫ t in (0 : ℝ)..(K : ℝ) - 1, S2 t ^ 2) ≤ (∫ t in (0 : ℝ)..(K : ℝ) - 1, g2 t ^ 2) ∧
        ((∃ t ∈ Icc 0 ((K : ℝ) - 1), g t ≠ S t) → (∫ t in (0 : ℝ)..(K : ℝ) - 1, S2 t ^ 2) < ∫ t in (0 : ℝ)..(K : ℝ) - 1, g2 t ^ 2) := by
  obtain ⟨s, e, S, hS, hc⟩ := C58_natural K hK junk Y hj st y hy x0 dx hdx
  obtain ⟨S1, S2, s1, s2, s3, s4, s5⟩ := hS.smooth
  refine ⟨s, e, S, S1, S2, s1, s2, s3, hS.knots, hc, fun g g1 g2 d1 d2 d3 hg => ?_⟩
  obtain ⟨a, b⟩ := smoothest hK hS s1 s2 s3 s4 s5 d1 d2 d3 hg
  refine ⟨a, fun ⟨t, ht, hne⟩ => ?_⟩
  by_contra hle
  exact hne (b (not_lt.mp hle) t ht)

/-- Three knots at 10, 12 and 14 with the data 0, 1, 0 meet the hypotheses; a sine goes through them, too. -/
example : (2 ≤ 3) ∧ ([7, 7] : List ℝ).length = 3 - 1 ∧ (∀ i, i < 3 → ([0, 1, 0] : List ℝ)[i * 1]? = some (([0, 1, 0] : List ℝ).getD i 0)) ∧ ((2 : ℝ) ≠ 0) ∧
    (∀ t, HasDerivAt (fun t => Real.sin (Real.pi / 2 * t)) (Real.pi / 2 * Real.cos (Real.pi / 2 * t)) t) ∧ ∀ i : ℕ, i < 3 → Real.sin (Real.pi / 2 * i) = ([0, 1, 0] : List ℝ).getD i 0 := by
  refine ⟨by norm_num, rfl, ?_, by norm_num, ?_, ?_⟩
  · intro i hi
    interval_cases i <;> simp
  · intro t
    have := (Real.hasDerivAt_sin (Real.pi / 2 * t)).comp t ((hasDerivAt_id t).const_mul (Real.pi / 2))
    refine this.congr_deriv ?_
    ring
  · intro i hi
    interval_cases i <;> simp

end NaturalSpline
end DSP
