import Mathlib.Topology.Algebra.InfiniteSum.Real
import Mathlib.Data.Nat.Factorial.Basic

/-!
# The modified Bessel function of the first kind of order zero
-/

namespace DSP.Spec

/-- Its power series. -/
noncomputable def besselI0 (x : ℝ) : ℝ := ∑' m : ℕ, ((x / 2) ^ m / m.factorial) ^ 2

end DSP.Spec
