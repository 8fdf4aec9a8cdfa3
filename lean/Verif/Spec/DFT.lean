import Mathlib.Analysis.SpecialFunctions.Complex.Circle

/-!
# Specification: discrete Fourier transform
-/

namespace DSP
namespace Spec

/-- `exp(s * 2 π i k / N)`, a power of an `N`-th root of unity -/
noncomputable def unit (s : ℤ) (N k : ℕ) : ℂ := Complex.exp ((s : ℂ) * (2 * Real.pi * Complex.I * k / N))

/-- Bin `k` of the discrete Fourier transform of `x 0, …, x (N - 1)`; `s = -1` is the forward transform and `s = 1` the backward one, both
without scaling. -/
noncomputable def dft (s : ℤ) (N : ℕ) (x : ℕ → ℂ) (k : ℕ) : ℂ := ∑ n ∈ Finset.range N, x n * unit s N (n * k)

/-- The trigonometric interpolant of `N` samples taken at the times `0, 1/N, …, (N - 1)/N`: bins below `N / 2` are positive frequencies, those above
negative ones, and the one in the middle of an even number of bins is shared equally by both signs. -/
noncomputable def interp (N : ℕ) (x : ℕ → ℂ) (t : ℝ) : ℂ :=
  1 / N * (dft (-1) N x 0
    + ∑ k ∈ Finset.range ((N - 1) / 2), (dft (-1) N x (k + 1) * Complex.exp (2 * Real.pi * Complex.I * (k + 1 : ℕ) * t)
      + dft (-1) N x (N - (k + 1)) * Complex.exp (-(2 * Real.pi * Complex.I * (k + 1 : ℕ) * t)))
    + if N % 2 = 0 then dft (-1) N x (N / 2) * Complex.cos (2 * Real.pi * (N / 2 : ℕ) * t) else 0)

end Spec
end DSP
