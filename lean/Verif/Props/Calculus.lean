import Verif.Model.Calculus
import Mathlib.Algebra.BigOperators.Group.List.Basic

/-! Property C18: integrator and differentiator. -/

namespace DSP
variable {α : Type}

/-- **C18.** The integrator outputs the initial value plus all prefix sums. -/
theorem C18_integrator [AddMonoid α] (s : α) (xs : List α) :
    outputs integrator s xs = (List.range xs.length).map (fun n => s + (xs.take (n + 1)).sum) := by
  induction xs generalizing s with
  | nil => rfl
  | cons x xs ih =>
    simp only [outputs, integrator, ih, List.length_cons, List.range_succ_eq_map, List.map_cons, List.map_map]
    simp [Function.comp_def, add_assoc]

/-- **C18.** The differentiator outputs all first differences. -/
theorem C18_differentiator [Sub α] (p : α) (xs : List α) :
    outputs differentiator p xs = List.zipWith (fun before now => now - before) (p :: xs) xs := by
  induction xs generalizing p with
  | nil => rfl
  | cons x xs ih => simp [outputs, differentiator, ih]

/-- **C18.** Integrating the differences gives the signal back. -/
theorem C18_int_diff [AddCommGroup α] (s : α) (xs : List α) :
    outputs integrator s (outputs differentiator s xs) = xs := by
  induction xs generalizing s with
  | nil => rfl
  | cons x xs ih => simp [outputs, integrator, differentiator, ih]

/-- **C18.** Differentiating the integral gives the signal back. -/
theorem C18_diff_int [AddCommGroup α] (s : α) (xs : List α) :
    outputs differentiator s (outputs integrator s xs) = xs := by
  induction xs generalizing s with
  | nil => rfl
  | cons x xs ih => simp [outputs, integrator, differentiator, ih]

example : outputs integrator (5 : Int) [1, 2, -7] = [6, 8, 1] ∧ outputs differentiator (5 : Int) [6, 8, 1] = [1, 2, -7] := by
  decide

end DSP
