import Mathlib.Algebra.BigOperators.Group.Finset.Basic
import Mathlib.Data.Complex.Basic

/-!
# Convolution with a finite impulse response
-/

namespace DSP.Spec

/-- The signal, silent before it starts. -/
def past {A : Type} [Zero A] (x : ℕ → A) (j : ℤ) : A := if 0 ≤ j then x j.toNat else 0

/-- The answer at time `j` of the filter with the `N` taps `h`. -/
def fir {A : Type} [AddCommMonoid A] [Mul A] (N : ℕ) (h : ℕ → A) (x : ℤ → A) (j : ℤ) : A := ∑ k ∈ Finset.range N, h k * x (j - k)

/-- Mixing with an oscillator at minus a quarter of the sampling rate, starting at `i`. -/
def quarterRate (x : ℕ → ℝ) (j : ℕ) : ℂ := Complex.I * (-Complex.I) ^ j * x j

end DSP.Spec
