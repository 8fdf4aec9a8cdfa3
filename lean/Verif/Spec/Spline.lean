import Mathlib.Analysis.Calculus.Deriv.Basic

/-!
# What splines are
-/

namespace DSP.Spec

/-- `S` is the natural cubic spline through `y 0, ..., y (K-1)` at `0, ..., K-1`: it interpolates, is twice continuously differentiable, a cubic polynomial
between neighbouring knots (and the first and last pieces go on outside), and its second derivative is zero at both ends. -/
structure IsNaturalSpline (K : ℕ) (y : ℕ → ℝ) (S : ℝ → ℝ) : Prop where
  knots : ∀ i : ℕ, i < K → S i = y i
  smooth : ∃ S1 S2 : ℝ → ℝ, (∀ t, HasDerivAt S (S1 t) t) ∧ (∀ t, HasDerivAt S1 (S2 t) t) ∧ Continuous S2 ∧ S2 0 = 0 ∧ S2 ((K : ℝ) - 1) = 0
  cubic : ∀ k : ℕ, k + 1 < K → ∃ a b c d : ℝ, ∀ t, (k = 0 ∨ (k : ℝ) ≤ t) → (k + 2 = K ∨ t ≤ k + 1) → S t = a + b * t + c * t ^ 2 + d * t ^ 3

/-- `S` is a cubic Hermite spline through the points `(x i, y i)` for `i < n` with slopes `m i`: it interpolates, is continuously differentiable with the given slopes, and
a cubic polynomial between neighbouring knots (the first and last pieces go on outside). -/
structure IsHermiteSpline (n : ℕ) (x y m : ℕ → ℝ) (S : ℝ → ℝ) : Prop where
  knots : ∀ i : ℕ, i < n → S (x i) = y i
  smooth : ∃ S1 : ℝ → ℝ, (∀ t, HasDerivAt S (S1 t) t) ∧ Continuous S1 ∧ ∀ i : ℕ, i < n → S1 (x i) = m i
  cubic : ∀ k : ℕ, k + 1 < n → ∃ a b c d : ℝ, ∀ t, (k = 0 ∨ x k ≤ t) → (k + 2 = n ∨ t ≤ x (k + 1)) → S t = a + b * t + c * t ^ 2 + d * t ^ 3

/-- Slopes: the mean of the slopes of both neighbouring chords, at the ends the slope of the only chord. -/
noncomputable def chordSlopes (n : ℕ) (x y : ℕ → ℝ) (i : ℕ) : ℝ :=
  let s := fun k => (y (k + 1) - y k) / (x (k + 1) - x k)
  if i = 0 then s 0 else if i + 1 = n then s (i - 1) else (s (i - 1) + s i) / 2

end DSP.Spec
