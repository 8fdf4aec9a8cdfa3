/-! Orders and sortedness, as a specification. -/

namespace DSP.Spec

/-- A strict weak order, given as a decision procedure: asymmetric, and "not less" is transitive. -/
structure StrictWeakOrder {α : Type} (lt : α → α → Bool) : Prop where
  irr : ∀ x, lt x x = false
  asymm : ∀ x y, lt x y = true → lt y x = false
  neg : ∀ x y z, lt x y = false → lt y z = false → lt x z = false

/-- No element is less than an earlier one. -/
def Ordered {α : Type} (lt : α → α → Bool) (xs : List α) : Prop := xs.Pairwise (fun x y => lt y x = false)

end DSP.Spec
