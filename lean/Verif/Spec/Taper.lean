import Mathlib.Data.Real.Basic

/-!
# What a window function has to be like
-/

namespace DSP.Spec

/-- Weights between zero and one for `N` places, the same from both ends, one in the middle (if there is a middle). -/
structure IsTaper (N : ℤ) (w : ℤ → ℝ) : Prop where
  symmetric : ∀ n, 0 ≤ n → n < N → w (N - 1 - n) = w n
  nonneg : ∀ n, 0 ≤ n → n < N → 0 ≤ w n
  le_one : ∀ n, 0 ≤ n → n < N → w n ≤ 1
  peak : ∀ n, N = 2 * n + 1 → w n = 1

end DSP.Spec
