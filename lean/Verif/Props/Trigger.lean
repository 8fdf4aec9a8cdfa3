import Verif.Model.Trigger
import Mathlib.Order.Defs.LinearOrder
import Mathlib.Data.List.Basic
import Mathlib.Tactic.Ring

/-! Properties C16 and C17: triggers. -/

namespace DSP

/-- Decision of a hysteresis element: the most recent sample outside `[low, high]` decides. -/
def Spec.hysteresis {α : Type} [LinearOrder α] (low high : α) (start : Bool) (h : List α) : Bool :=
  match h.reverse.find? (fun x => decide (x < low) || decide (high < x)) with
  | none => start
  | some x => decide (high < x)

/-- **C16.** With `low ≤ high` every output of the Schmitt trigger is decided by the most recent decisive sample. -/
theorem C16_schmitt {α : Type} [LinearOrder α] (low high : α) (hle : low ≤ high) (start : Bool) (xs : List α) :
    outputs SchmittTrigger.call (SchmittTrigger.init2 low high start) xs =
      (List.range xs.length).map (fun n => Spec.hysteresis low high start (xs.take (n + 1))) := by
  suffices h : ∀ (g : List α), outputs SchmittTrigger.call
      (SchmittTrigger.init2 low high (Spec.hysteresis low high start g)) xs =
      (List.range xs.length).map (fun n => Spec.hysteresis low high start (g ++ xs.take (n + 1))) by
    simpa [Spec.hysteresis] using h []
  induction xs with
  | nil => intro g; rfl
  | cons x xs ih =>
    intro g
    have hstep : SchmittTrigger.call (SchmittTrigger.init2 low high (Spec.hysteresis low high start g)) x =
        (SchmittTrigger.init2 low high (Spec.hysteresis low high start (g ++ [x])),
          Spec.hysteresis low high start (g ++ [x])) := by
      have hnew : Spec.hysteresis low high start (g ++ [x]) =
          if x < low then false else if high < x then true else Spec.hysteresis low high start g := by
        simp only [Spec.hysteresis, List.reverse_append, List.reverse_cons, List.reverse_nil, List.nil_append,
          List.singleton_append, List.find?_cons]
        by_cases h1 : x < low
        · have h2 : ¬ high < x := not_lt.2 (le_trans (le_of_lt h1) hle)
          simp [h1, h2]
        · by_cases h2 : high < x <;> simp [h1, h2]
      rw [hnew]
      simp only [SchmittTrigger.call, SchmittTrigger.init2]
      cases hb : Spec.hysteresis low high start g
      · by_cases h1 : x < low
        · have h2 : ¬ high < x := not_lt.2 (le_trans (le_of_lt h1) hle)
          simp [h1, h2]
        · by_cases h2 : high < x <;> simp [h1, h2]
      · by_cases h1 : x < low <;> by_cases h2 : high < x <;> simp [h1, h2]
    simp only [outputs, hstep]
    rw [ih (g ++ [x])]
    simp only [List.length_cons, List.range_succ_eq_map, List.map_cons, List.map_map, List.take_succ_cons,
      List.take_zero]
    congr 1
    apply List.map_congr_left
    intro n _
    simp

/-- **C16**: samples inside `[low, high]` never change the output. -/
theorem C16_schmitt_hold {α : Type} [LinearOrder α] (t : SchmittTrigger α) (x : α) (h1 : t.low ≤ x) (h2 : x ≤ t.high) :
    t.call x = (t, t.previous) := by
  cases t with
  | mk l h p => cases p <;> simp_all [SchmittTrigger.call]

example : (1 : Int) ≤ 3 ∧ outputs SchmittTrigger.call (SchmittTrigger.init2 1 3 false) [2, 4, 2, 1, 0, 3, 5] =
    [false, true, true, true, false, false, true] := by decide

/-- With thresholds in the wrong order the claim fails: the last decisive sample `2` is above `high = 1`, yet the output
is false. -/
theorem C16_schmitt_needs_order :
    outputs SchmittTrigger.call (SchmittTrigger.init2 (3 : Int) 1 true) [2] = [false] ∧
      Spec.hysteresis (3 : Int) 1 true [2] = true := by decide

/-- **C17.** The rising edge trigger fires exactly at `false → true` transitions, the level before the first input being
the constructor argument. -/
theorem C17_rising (start : Bool) (xs : List Bool) :
    outputs risingEdge start xs = List.zipWith (fun before now => !before && now) (start :: xs) xs := by
  induction xs generalizing start with
  | nil => rfl
  | cons x xs ih => simp [outputs, risingEdge, ih]

/-- **C17.** The falling edge trigger fires exactly at `true → false` transitions. -/
theorem C17_falling (start : Bool) (xs : List Bool) :
    outputs fallingEdge start xs = List.zipWith (fun before now => before && !now) (start :: xs) xs := by
  induction xs generalizing start with
  | nil => rfl
  | cons x xs ih => simp [outputs, fallingEdge, ih]

/-- **C17.** Rising minus falling edges is the final level minus the initial level. -/
theorem C17_balance (start : Bool) (xs : List Bool) :
    ((outputs risingEdge start xs).count true : Int) - (outputs fallingEdge start xs).count true =
      (if xs.getLast?.getD start then 1 else 0) - (if start then 1 else 0) := by
  induction xs generalizing start with
  | nil => cases start <;> rfl
  | cons x xs ih =>
    have := ih x
    have hl : (x :: xs).getLast?.getD start = xs.getLast?.getD x := by
      rw [List.getLast?_cons]; simp
    rw [hl]
    cases start <;> cases x <;> simp [outputs, risingEdge, fallingEdge] at this ⊢ <;> omega

example : outputs risingEdge false [true, true, false, true] = [true, false, false, true] ∧
    outputs fallingEdge true [true, false, false, true, false] = [false, true, false, false, true] := by decide

end DSP
