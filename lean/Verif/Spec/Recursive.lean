import Mathlib.Data.Real.Basic
import Mathlib.Algebra.BigOperators.Group.Finset.Basic
import Mathlib.Algebra.BigOperators.Ring.Finset

/-!
# What the recursive filters compute
-/

namespace DSP.Spec

/-- The exponentially weighted average of the inputs so far, with `p` before the first input. -/
noncomputable def expAverage (a p : ℝ) (x : ℕ → ℝ) (n : ℕ) : ℝ := (1 - a) ^ (n + 1) * p + ∑ k ∈ Finset.range (n + 1), a * (1 - a) ^ (n - k) * x k

/-- The differences of the inputs, nothing before the first. -/
def differences (x : ℕ → ℝ) : ℕ → ℝ
  | 0 => x 0
  | n + 1 => x (n + 1) - x n

/-- The leaky sum of the differences. -/
noncomputable def leakyDifference (a b : ℝ) (x : ℕ → ℝ) (n : ℕ) : ℝ := ∑ k ∈ Finset.range (n + 1), a ^ (n - k) * (b * differences x k)

/-- An output of `n` samples ago, zero before the first. -/
def ago (x : ℕ → ℝ) (d n : ℕ) : ℝ := if d ≤ n then x (n - d) else 0

/-- The difference equation of a filter of second order that starts at rest. -/
def SecondOrder (b0 b1 b2 a1 a2 : ℝ) (x y : ℕ → ℝ) : Prop := ∀ n, y n = b0 * x n + b1 * ago x 1 n + b2 * ago x 2 n - a1 * ago y 1 n - a2 * ago y 2 n

end DSP.Spec
