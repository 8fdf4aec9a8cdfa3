import Verif.Model.Base

/-!
# Filters that forget
-/

namespace DSP.Spec

/-- The filter accepts every endless input, and its answer depends on the last `N` inputs only (and on when it is asked): two inputs that agree there get the same answer, whatever came before. -/
def Memory {σ ι ω : Type} (step : σ → ι → M (σ × ω)) (s : σ) (N : Nat) : Prop :=
  ∀ x x' : Nat → ι, ∃ y y' : Nat → ω,
    (∀ T, ∃ t, run step s ((List.range T).map x) = .ok (t, (List.range T).map y)) ∧
    (∀ T, ∃ t, run step s ((List.range T).map x') = .ok (t, (List.range T).map y')) ∧
    ∀ n, (∀ j, j ≤ n → n < j + N → x j = x' j) → y n = y' n

end DSP.Spec
