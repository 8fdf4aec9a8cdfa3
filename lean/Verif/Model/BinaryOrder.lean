import Verif.Model.Binary
import Mathlib.Order.Basic

/-!
# Comparisons of floating point numbers

The operators `<` and `!=` of `float` and `double`, used in theil_sen.hh:26, repeated_median.hh:27,35,74 and quick.hh: without NaN and signed zeros they compare the numbers.
-/

namespace DSP.Binary

theorem val_injective (p : ℕ) : Function.Injective (Binary.val (p := p)) := by
  intro a b h
  cases a; cases b
  simp only at h
  subst h
  rfl

instance (p : ℕ) : LinearOrder (Binary p) := LinearOrder.lift' Binary.val (val_injective p)

end DSP.Binary
