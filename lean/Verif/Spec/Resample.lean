import Verif.Spec.Convolution
import Mathlib.Data.Real.Basic
import Mathlib.Algebra.Module.Defs

/-!
# Resampling of a stream
-/

namespace DSP.Spec

/-- What several calls wrote, given the arrays and the counts. -/
def produced {A : Type} (ys : List (List A × ℕ)) : List A := ys.flatMap fun y => y.1.take y.2

/-- `out` is the stream `x`, of which `T` samples are known, filtered by `L` around the positions `P`. The output `o` uses `TAPS` samples up to the sample `N o`, which is
nearest to the position, and the next position depends on the difference in rates at that time. -/
structure Resampled {A : Type} [AddCommGroup A] [Module ℝ A] (TAPS : ℕ) (L : ℝ → ℝ) (delta : ℕ → ℝ) (x : ℕ → A) (T : ℕ) (out : List A) (N : ℕ → ℕ) (P : ℕ → ℝ) : Prop where
  start : P 0 = 0
  next : ∀ o < out.length, P (o + 1) = P o + (1 - delta (N o))
  near : ∀ o < out.length, N o < T ∧ |(N o : ℝ) - P o| ≤ 1 / 2
  out : ∀ o < out.length, out[o]? = some (∑ s ∈ Finset.range TAPS, L (s + (N o - P o)) • past x ((N o : ℤ) - (TAPS - 1) + s))

/-- The places of outputs on the time axis of the inputs, given the offsets that the calls use: an offset of `x` in the call number `t` means the place `t - x`. -/
def places : ℕ → List (List ℚ) → List ℚ
  | _, [] => []
  | t, xs :: ys => xs.map (fun x => (t : ℚ) - x) ++ places (t + 1) ys

end DSP.Spec
