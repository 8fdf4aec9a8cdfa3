import Verif.Model.Kahan
import Mathlib.Algebra.BigOperators.Group.List.Basic
import Mathlib.Tactic.Abel

/-! Property C14: Kahan summation in exact arithmetic. -/

namespace DSP
variable {α : Type}

namespace Kahan

theorem call_exact [AddCommGroup α] (k : Kahan α) (h : k.low = 0) (x : α) :
    k.call x = ({ high := k.high + x, low := 0 }, k.high + x) := by
  simp [call, h]

theorem feed_exact [AddCommGroup α] (k : Kahan α) (h : k.low = 0) (xs : List α) :
    k.feed xs = { high := k.high + xs.sum, low := 0 } := by
  induction xs generalizing k with
  | nil => cases k; simp_all [feed]
  | cons x xs ih =>
    simp only [feed, call_exact k h, List.sum_cons]
    rw [ih _ rfl]; simp [add_assoc]

end Kahan

/-- **C14.** In exact arithmetic each output of the accumulator is the initial value plus the sum of the inputs so
far. -/
theorem C14_kahan_outputs [AddCommGroup α] (x0 : α) (xs : List α) :
    outputs Kahan.call (Kahan.init x0) xs = (List.range xs.length).map (fun n => x0 + (xs.take (n + 1)).sum) := by
  suffices h : ∀ (k : Kahan α), k.low = 0 →
      outputs Kahan.call k xs = (List.range xs.length).map (fun n => k.high + (xs.take (n + 1)).sum) from
    h (Kahan.init x0) rfl
  induction xs with
  | nil => intro k _; rfl
  | cons x xs ih =>
    intro k hk
    simp only [outputs, Kahan.call_exact k hk, List.length_cons, List.range_succ_eq_map, List.map_cons, List.map_map]
    rw [ih _ rfl]
    simp [Function.comp_def, add_assoc]

/-- **C14**: `kahan_sum` is the sum. -/
theorem C14_kahan_sum [AddCommGroup α] (xs : List α) (x0 : α) : Kahan.sum xs x0 = x0 + xs.sum := by
  rw [Kahan.sum, Kahan.feed_exact (Kahan.init x0) rfl xs]; rfl

/-- **C14**: `same(x)` performs the addition, and answers whether the state is unchanged; after any history in exact
arithmetic that is the case exactly for `x = 0`. -/
theorem C14_kahan_same [AddCommGroup α] [DecidableEq α] (x0 : α) (xs : List α) (x : α) :
    ((Kahan.init x0).feed xs).same x = ((Kahan.init x0).feed (xs ++ [x]), decide (x = 0)) := by
  rw [Kahan.feed_exact _ rfl, Kahan.feed_exact _ rfl, Kahan.same, Kahan.call_exact _ rfl]
  simp only [Kahan.eq, Kahan.init, List.sum_append, List.sum_cons, List.sum_nil, add_zero, ← add_assoc, Prod.mk.injEq,
    true_and, beq_self_eq_true, Bool.true_and]
  rw [Bool.eq_iff_iff]
  simp

/-- **C14**: with any arithmetic (rounded or not), `same(x)` does the addition and reports whether the state compares
equal to the one before. -/
theorem C14_kahan_same_any [Add α] [Sub α] [DecidableEq α] (k : Kahan α) (x : α) :
    k.same x = ((k.call x).1, decide ((k.call x).1 = k)) := by
  simp only [Kahan.same, Kahan.eq, Prod.mk.injEq, true_and]
  cases h : (k.call x).1
  cases k
  rw [Bool.eq_iff_iff]
  simp only [Bool.and_eq_true, beq_iff_eq, decide_eq_true_eq, Kahan.mk.injEq]
  constructor
  · rintro ⟨rfl, rfl⟩; exact ⟨rfl, rfl⟩
  · rintro ⟨rfl, rfl⟩; exact ⟨rfl, rfl⟩

example : Kahan.sum [1, 2, 3, -10] (5 : Int) = 1 ∧ ((Kahan.init (5 : Int)).feed [1, 2]).same 0 = (⟨8, 0⟩, true) ∧
    ((Kahan.init (5 : Int)).feed [1, 2]).same 4 = (⟨12, 0⟩, false) := by decide

end DSP
