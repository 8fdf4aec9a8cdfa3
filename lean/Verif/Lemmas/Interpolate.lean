import Mathlib.Analysis.Convex.Deriv
import Mathlib.Analysis.Calculus.Deriv.MeanValue
import Mathlib.Analysis.Calculus.Deriv.Pow
import Mathlib.Tactic.Positivity

/-!
# Bounds on functions by bounds on their derivatives
-/

namespace DSP

/-- A function is near its chord if its second derivative is small. -/
theorem chord_error (a B : ℝ) (E E1 E2 : ℝ → ℝ) (h1 : ∀ x, a ≤ x → x ≤ a + 1 → HasDerivAt E (E1 x) x) (h2 : ∀ x, a ≤ x → x ≤ a + 1 → HasDerivAt E1 (E2 x) x)
    (hB : ∀ x, a ≤ x → x ≤ a + 1 → |E2 x| ≤ B) (t : ℝ) (t0 : 0 ≤ t) (t1 : t ≤ 1) : |E (a + t) - ((1 - t) * E a + t * E (a + 1))| ≤ B * (t * (1 - t)) / 2 := by
  have key : ∀ s : ℝ, s = 1 ∨ s = -1 → s * (E (a + t) - ((1 - t) * E a + t * E (a + 1))) ≤ B * (t * (1 - t)) / 2 := by
    intro s hs
    have hc : ConvexOn ℝ (Set.Icc a (a + 1)) (fun x => s * E x + B / 2 * x ^ 2) := by
      refine convexOn_of_hasDerivWithinAt2_nonneg (convex_Icc _ _) (f' := fun x => s * E1 x + B * x) (f'' := fun x => s * E2 x + B) ?_ ?_ ?_ ?_
      · intro x hx
        exact (((h1 x hx.1 hx.2).const_mul s).add (((hasDerivAt_pow 2 x).const_mul (B / 2)))).continuousAt.continuousWithinAt
      · intro x hx
        have hx := interior_subset hx
        refine (((h1 x hx.1 hx.2).const_mul s).add (((hasDerivAt_pow 2 x).const_mul (B / 2)))).hasDerivWithinAt.congr_deriv ?_
        push_cast; ring
      · intro x hx
        have hx := interior_subset hx
        refine (((h2 x hx.1 hx.2).const_mul s).add ((hasDerivAt_id x).const_mul B)).hasDerivWithinAt.congr_deriv ?_
        ring
      · intro x hx
        have hx := interior_subset hx
        have := abs_le.mp (hB x hx.1 hx.2)
        rcases hs with rfl | rfl <;> linarith
    have := hc.2 (show a ∈ Set.Icc a (a + 1) from ⟨le_rfl, by linarith⟩) (show a + 1 ∈ Set.Icc a (a + 1) from ⟨by linarith, le_rfl⟩) (show 0 ≤ 1 - t by linarith) t0 (by ring)
    simp only [smul_eq_mul] at this
    rw [show (1 - t) * a + t * (a + 1) = a + t by ring] at this
    nlinarith
  rw [abs_le]
  have k1 := key 1 (Or.inl rfl)
  have k2 := key (-1) (Or.inr rfl)
  constructor <;> linarith

/-- A function that starts at zero is small if its derivative is. -/
theorem grow (n : ℕ) (C : ℝ) (φ φ1 : ℝ → ℝ) (h0 : φ 0 = 0) (h1 : ∀ x, 0 ≤ x → x ≤ 1 → HasDerivAt φ (φ1 x) x) (hC : ∀ x, 0 ≤ x → x ≤ 1 → |φ1 x| ≤ C * x ^ n) (t : ℝ) (t0 : 0 ≤ t) (t1 : t ≤ 1) :
    |φ t| ≤ C / (n + 1) * t ^ (n + 1) := by
  have hn : (n : ℝ) + 1 ≠ 0 := by positivity
  have key : ∀ s : ℝ, s = 1 ∨ s = -1 → s * φ t ≤ C / (n + 1) * t ^ (n + 1) := by
    intro s hs
    have hd : ∀ x, 0 ≤ x → x ≤ 1 → HasDerivAt (fun x => C / (n + 1) * x ^ (n + 1) - s * φ x) (C * x ^ n - s * φ1 x) x := fun x x0 x1 => by
      refine (((hasDerivAt_pow (n + 1) x).const_mul (C / (n + 1))).sub ((h1 x x0 x1).const_mul s)).congr_deriv ?_
      push_cast
      rw [← mul_assoc, div_mul_cancel₀ _ hn]
    have hm : MonotoneOn (fun x => C / (n + 1) * x ^ (n + 1) - s * φ x) (Set.Icc 0 1) := by
      refine monotoneOn_of_hasDerivWithinAt_nonneg (convex_Icc _ _) (f' := fun x => C * x ^ n - s * φ1 x) ?_ ?_ ?_
      · intro x hx
        exact (hd x hx.1 hx.2).continuousAt.continuousWithinAt
      · intro x hx
        have hx := interior_subset hx
        exact (hd x hx.1 hx.2).hasDerivWithinAt
      · intro x hx
        have hx := interior_subset hx
        have := abs_le.mp (hC x hx.1 hx.2)
        rcases hs with rfl | rfl <;> linarith
    have := hm (a := 0) ⟨le_rfl, by norm_num⟩ (b := t) ⟨t0, t1⟩ t0
    simp only [h0, zero_pow (Nat.succ_ne_zero n), mul_zero, sub_zero] at this
    linarith
  rw [abs_le]
  have k1 := key 1 (Or.inl rfl)
  have k2 := key (-1) (Or.inr rfl)
  constructor <;> linarith

/-- A function is near its tangent if its second derivative is small. -/
theorem tangent_error (a h M : ℝ) (f f1 f2 : ℝ → ℝ) (h1 : ∀ t, 0 ≤ t → t ≤ 1 → HasDerivAt f (f1 (a + t * h)) (a + t * h)) (h2 : ∀ t, 0 ≤ t → t ≤ 1 → HasDerivAt f1 (f2 (a + t * h)) (a + t * h))
    (hM : ∀ t, 0 ≤ t → t ≤ 1 → |f2 (a + t * h)| ≤ M) : |f (a + h) - f a - f1 a * h| ≤ M * h ^ 2 / 2 := by
  have hd : ∀ t, HasDerivAt (fun t : ℝ => a + t * h) h t := fun t => by simpa using ((hasDerivAt_id t).mul_const h).const_add a
  have e1 : ∀ t, 0 ≤ t → t ≤ 1 → |(f1 (a + t * h) - f1 a) * h| ≤ M * h ^ 2 * t ^ 1 := fun t t0 t1 => by
    have := grow 0 (M * h ^ 2) (fun t => (f1 (a + t * h) - f1 a) * h) (fun t => f2 (a + t * h) * h * h) (by simp) (fun t t0 t1 => (((h2 t t0 t1).comp t (hd t)).sub_const _).mul_const h)
      (fun t t0 t1 => by
        rw [pow_zero, mul_one, mul_assoc, ← sq, abs_mul, abs_of_nonneg (sq_nonneg h)]
        exact mul_le_mul_of_nonneg_right (hM t t0 t1) (sq_nonneg h)) t t0 t1
    norm_num at this ⊢
    exact this
  have := grow 1 (M * h ^ 2) (fun t => f (a + t * h) - f a - f1 a * h * t) (fun t => (f1 (a + t * h) - f1 a) * h) (by simp) (fun t t0 t1 => by
    refine ((((h1 t t0 t1).comp t (hd t)).sub_const _).sub ((hasDerivAt_id t).const_mul (f1 a * h))).congr_deriv ?_
    ring) e1 1 zero_le_one le_rfl
  norm_num at this
  exact this

/-- The second difference is bounded by the second derivative. -/
theorem second_difference (a M : ℝ) (g g1 g2 : ℝ → ℝ) (h1 : ∀ x, a - 1 ≤ x → x ≤ a + 1 → HasDerivAt g (g1 x) x) (h2 : ∀ x, a - 1 ≤ x → x ≤ a + 1 → HasDerivAt g1 (g2 x) x)
    (hM : ∀ x, a - 1 ≤ x → x ≤ a + 1 → |g2 x| ≤ M) : |g (a + 1) - 2 * g a + g (a - 1)| ≤ M := by
  have hp : ∀ (f f' : ℝ → ℝ), (∀ x, a - 1 ≤ x → x ≤ a + 1 → HasDerivAt f (f' x) x) → ∀ t, 0 ≤ t → t ≤ 1 → HasDerivAt (fun t => f (a + t)) (f' (a + t)) t := fun f f' h t t0 t1 => by
    have := (h (a + t) (by linarith) (by linarith)).comp t ((hasDerivAt_id t).const_add a)
    rw [mul_one] at this
    exact this
  have hn : ∀ (f f' : ℝ → ℝ), (∀ x, a - 1 ≤ x → x ≤ a + 1 → HasDerivAt f (f' x) x) → ∀ t, 0 ≤ t → t ≤ 1 → HasDerivAt (fun t => f (a - t)) (-f' (a - t)) t := fun f f' h t t0 t1 => by
    have := (h (a - t) (by linarith) (by linarith)).comp t ((hasDerivAt_id t).const_sub a)
    rw [mul_neg_one] at this
    exact this
  have e1 : ∀ t, 0 ≤ t → t ≤ 1 → |g1 (a + t) - g1 (a - t)| ≤ 2 * M * t ^ 1 := fun t t0 t1 => by
    have := grow 0 (2 * M) (fun t => g1 (a + t) - g1 (a - t)) (fun t => g2 (a + t) - (-g2 (a - t))) (by simp) (fun t t0 t1 => (hp g1 g2 h2 t t0 t1).sub (hn g1 g2 h2 t t0 t1))
      (fun t t0 t1 => by
        have b1 := abs_le.mp (hM (a + t) (by linarith) (by linarith))
        have b2 := abs_le.mp (hM (a - t) (by linarith) (by linarith))
        rw [pow_zero, abs_le]
        constructor <;> linarith) t t0 t1
    norm_num at this ⊢
    exact this
  have := grow 1 (2 * M) (fun t => g (a + t) + g (a - t) - 2 * g a) (fun t => g1 (a + t) + -g1 (a - t)) (by simp; ring) (fun t t0 t1 => ((hp g g1 h1 t t0 t1).add (hn g g1 h1 t t0 t1)).sub_const _)
    (fun t t0 t1 => by rw [← sub_eq_add_neg]; exact e1 t t0 t1) 1 zero_le_one le_rfl
  norm_num at this
  rw [show g (a + 1) - 2 * g a + g (a - 1) = g (a + 1) + g (a - 1) - 2 * g a by ring]
  exact this

/-- The second difference and the second derivatives, with an error of the size of the fourth derivative. -/
theorem stencil (a M : ℝ) (g g1 g2 g3 g4 : ℝ → ℝ) (h1 : ∀ x, a - 1 ≤ x → x ≤ a + 1 → HasDerivAt g (g1 x) x) (h2 : ∀ x, a - 1 ≤ x → x ≤ a + 1 → HasDerivAt g1 (g2 x) x)
    (h3 : ∀ x, a - 1 ≤ x → x ≤ a + 1 → HasDerivAt g2 (g3 x) x) (h4 : ∀ x, a - 1 ≤ x → x ≤ a + 1 → HasDerivAt g3 (g4 x) x) (hM : ∀ x, a - 1 ≤ x → x ≤ a + 1 → |g4 x| ≤ M) :
    |3 * (g (a + 1) - 2 * g a + g (a - 1)) - (g2 (a - 1) + 4 * g2 a + g2 (a + 1)) / 2| ≤ 3 / 4 * M := by
  have hM0 : 0 ≤ M := (abs_nonneg _).trans (hM a (by linarith) (by linarith))
  have hp : ∀ (f f' : ℝ → ℝ), (∀ x, a - 1 ≤ x → x ≤ a + 1 → HasDerivAt f (f' x) x) → ∀ t, 0 ≤ t → t ≤ 1 → HasDerivAt (fun t => f (a + t)) (f' (a + t)) t := fun f f' h t t0 t1 => by
    have := (h (a + t) (by linarith) (by linarith)).comp t ((hasDerivAt_id t).const_add a)
    rw [mul_one] at this
    exact this
  have hn : ∀ (f f' : ℝ → ℝ), (∀ x, a - 1 ≤ x → x ≤ a + 1 → HasDerivAt f (f' x) x) → ∀ t, 0 ≤ t → t ≤ 1 → HasDerivAt (fun t => f (a - t)) (-f' (a - t)) t := fun f f' h t t0 t1 => by
    have := (h (a - t) (by linarith) (by linarith)).comp t ((hasDerivAt_id t).const_sub a)
    rw [mul_neg_one] at this
    exact this
  have e3 : ∀ t, 0 ≤ t → t ≤ 1 → |g3 (a + t) - g3 (a - t)| ≤ 2 * M * t ^ 1 := fun t t0 t1 => by
    have := grow 0 (2 * M) (fun t => g3 (a + t) - g3 (a - t)) (fun t => g4 (a + t) - (-g4 (a - t))) (by simp) (fun t t0 t1 => (hp g3 g4 h4 t t0 t1).sub (hn g3 g4 h4 t t0 t1))
      (fun t t0 t1 => by
        have b1 := abs_le.mp (hM (a + t) (by linarith) (by linarith))
        have b2 := abs_le.mp (hM (a - t) (by linarith) (by linarith))
        rw [pow_zero, abs_le]
        constructor <;> linarith) t t0 t1
    norm_num at this ⊢
    exact this
  have e2 : ∀ t, 0 ≤ t → t ≤ 1 → |g2 (a + t) + g2 (a - t) - 2 * g2 a| ≤ M * t ^ 2 := fun t t0 t1 => by
    have := grow 1 (2 * M) (fun t => g2 (a + t) + g2 (a - t) - 2 * g2 a) (fun t => g3 (a + t) + -g3 (a - t)) (by simp; ring) (fun t t0 t1 => ((hp g2 g3 h3 t t0 t1).add (hn g2 g3 h3 t t0 t1)).sub_const _)
      (fun t t0 t1 => by rw [← sub_eq_add_neg]; exact e3 t t0 t1) t t0 t1
    norm_num at this ⊢
    exact this
  have e1 : ∀ t, 0 ≤ t → t ≤ 1 → |g1 (a + t) - g1 (a - t) - 2 * g2 a * t| ≤ M / 3 * t ^ 3 := fun t t0 t1 => by
    have := grow 2 M (fun t => g1 (a + t) - g1 (a - t) - 2 * g2 a * t) (fun t => g2 (a + t) - (-g2 (a - t)) - 2 * g2 a * 1) (by simp)
      (fun t t0 t1 => ((hp g1 g2 h2 t t0 t1).sub (hn g1 g2 h2 t t0 t1)).sub ((hasDerivAt_id t).const_mul _))
      (fun t t0 t1 => by rw [sub_neg_eq_add, mul_one]; exact e2 t t0 t1) t t0 t1
    norm_num at this ⊢
    exact this
  have e0 : |g (a + 1) + g (a - 1) - 2 * g a - g2 a * 1 ^ 2| ≤ M / 3 / 4 * 1 ^ 4 := by
    have := grow 3 (M / 3) (fun t => g (a + t) + g (a - t) - 2 * g a - g2 a * t ^ 2) (fun t => g1 (a + t) + -g1 (a - t) - g2 a * (2 * t)) (by simp; ring)
      (fun t t0 t1 => (((hp g g1 h1 t t0 t1).add (hn g g1 h1 t t0 t1)).sub_const _).sub (by
        have := (hasDerivAt_pow 2 t).const_mul (g2 a)
        refine this.congr_deriv ?_
        norm_num))
      (fun t t0 t1 => by
        rw [← sub_eq_add_neg, show g2 a * (2 * t) = 2 * g2 a * t by ring]
        exact e1 t t0 t1) 1 zero_le_one le_rfl
    norm_num at this ⊢
    exact this
  have e2 := e2 1 zero_le_one le_rfl
  rw [abs_le] at e0 e2 ⊢
  norm_num at e0 e2
  constructor <;> linarith

end DSP
