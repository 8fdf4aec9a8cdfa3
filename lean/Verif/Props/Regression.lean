import Verif.Model.Regression
import Verif.Lemmas.Base
import Mathlib.Algebra.Order.Field.Basic
import Mathlib.Algebra.BigOperators.Group.List.Basic
import Mathlib.Algebra.BigOperators.Ring.List
import Mathlib.Algebra.Order.BigOperators.Group.List
import Mathlib.Tactic.Ring
import Mathlib.Tactic.FieldSimp
import Mathlib.Tactic.Linarith
import Mathlib.Tactic.LinearCombination
import Mathlib.Data.Rat.Defs
import Mathlib.Data.List.Induction
import Mathlib.Algebra.Order.Ring.Rat
import Mathlib.Algebra.Field.Rat

/-! Property C29: simple linear regression. -/

set_option linter.unusedSectionVars false

namespace DSP
variable {K : Type} [Field K]

/-- The sum of the squared vertical distances of the points from the line `y = c + m x`. -/
def Spec.squaredError (c m : K) (ps : List (K × K)) : K := (ps.map (fun p => (p.2 - (c + m * p.1)) ^ 2)).sum

/-- The centroid. -/
def Spec.meanX (ps : List (K × K)) : K := (ps.map Prod.fst).sum / (ps.length : K)
@[inherit_doc Spec.meanX] def Spec.meanY (ps : List (K × K)) : K := (ps.map Prod.snd).sum / (ps.length : K)

open Spec
namespace Regression

/-- Sums of squared and mixed deviations. -/
def sxx (X : K) (ps : List (K × K)) : K := (ps.map (fun p => (p.1 - X) * (p.1 - X))).sum
@[inherit_doc sxx] def sxy (X Y : K) (ps : List (K × K)) : K := (ps.map (fun p => (p.1 - X) * (p.2 - Y))).sum

theorem rd_at {α : Type} {xs ys : List α} {v : α} : rd (xs ++ v :: ys) (xs.length : Nat) = .ok v :=
  rd_of_getElem? (by omega) (by simp)

theorem avgLoop_ok (ps qs : List (K × K)) (xr yr : List K) (sx sy : K) :
    avgLoop (qs.map Prod.fst ++ (ps.map Prod.fst ++ xr)) (qs.map Prod.snd ++ (ps.map Prod.snd ++ yr)) ps.length (qs.length : Nat) sx sy =
      .ok (sx + (ps.map Prod.fst).sum, sy + (ps.map Prod.snd).sum) := by
  induction ps generalizing qs sx sy with
  | nil => simp [avgLoop, pure, Except.pure]
  | cons p ps ih =>
    have h1 : rd (qs.map Prod.fst ++ (p.1 :: (ps.map Prod.fst ++ xr))) (qs.length : Nat) = .ok p.1 := by
      have := rd_at (xs := qs.map Prod.fst) (ys := ps.map Prod.fst ++ xr) (v := p.1); simpa using this
    have h2 : rd (qs.map Prod.snd ++ (p.2 :: (ps.map Prod.snd ++ yr))) (qs.length : Nat) = .ok p.2 := by
      have := rd_at (xs := qs.map Prod.snd) (ys := ps.map Prod.snd ++ yr) (v := p.2); simpa using this
    have := ih (qs ++ [p]) (sx + p.1) (sy + p.2)
    simp only [List.map_append, List.map_cons, List.map_nil, List.append_assoc, List.singleton_append, List.length_append,
      List.length_singleton, Nat.cast_add, Nat.cast_one] at this
    simp only [List.map_cons, List.cons_append, List.length_cons, avgLoop, h1, h2, bind, Except.bind, this, List.sum_cons, add_assoc]

theorem varLoop_ok (X Y : K) (ps qs : List (K × K)) (xr yr : List K) (sx sy : K) :
    varLoop (qs.map Prod.fst ++ (ps.map Prod.fst ++ xr)) (qs.map Prod.snd ++ (ps.map Prod.snd ++ yr)) X Y ps.length (qs.length : Nat) sx sy =
      .ok (sx + sxx X ps, sy + sxy X Y ps) := by
  induction ps generalizing qs sx sy with
  | nil => simp [varLoop, pure, Except.pure, sxx, sxy]
  | cons p ps ih =>
    have h1 : rd (qs.map Prod.fst ++ (p.1 :: (ps.map Prod.fst ++ xr))) (qs.length : Nat) = .ok p.1 := by
      have := rd_at (xs := qs.map Prod.fst) (ys := ps.map Prod.fst ++ xr) (v := p.1); simpa using this
    have h2 : rd (qs.map Prod.snd ++ (p.2 :: (ps.map Prod.snd ++ yr))) (qs.length : Nat) = .ok p.2 := by
      have := rd_at (xs := qs.map Prod.snd) (ys := ps.map Prod.snd ++ yr) (v := p.2); simpa using this
    have := ih (qs ++ [p]) (sx + (p.1 - X) * (p.1 - X)) (sy + (p.1 - X) * (p.2 - Y))
    simp only [List.map_append, List.map_cons, List.map_nil, List.append_assoc, List.singleton_append, List.length_append,
      List.length_singleton, Nat.cast_add, Nat.cast_one] at this
    simp only [List.map_cons, List.cons_append, List.length_cons, varLoop, h1, h2, bind, Except.bind, this]
    simp only [sxx, sxy, List.map_cons, List.sum_cons, add_assoc]

theorem general_eq (ps : List (K × K)) (xr yr : List K) :
    general (ps.map Prod.fst ++ xr) (ps.map Prod.snd ++ yr) ps.length =
      .ok (finish (meanX ps) (meanY ps) (sxx (meanX ps) ps) (sxy (meanX ps) (meanY ps) ps)) := by
  have h1 := avgLoop_ok ps [] xr yr 0 0
  have h2 := varLoop_ok (meanX ps) (meanY ps) ps [] xr yr 0 0
  simp only [List.map_nil, List.nil_append, List.length_nil, zero_add, Nat.cast_zero] at h1 h2
  simp only [general, Int.toNat_natCast, h1, bind, Except.bind, pure, Except.pure, Int.cast_natCast]
  simp only [meanX, meanY] at h2 ⊢
  simp only [h2]

/-- Expansion of the squared error around the centroid. -/
theorem error_expand (c m X Y : K) (ps : List (K × K)) :
    squaredError c m ps = (ps.map (fun p => (p.2 - Y) ^ 2)).sum - 2 * m * sxy X Y ps + m ^ 2 * sxx X ps
      + (ps.length : K) * (Y - c - m * X) ^ 2
      + 2 * (Y - c - m * X) * (((ps.map Prod.snd).sum - (ps.length : K) * Y) - m * ((ps.map Prod.fst).sum - (ps.length : K) * X)) := by
  induction ps with
  | nil => simp [squaredError, sxx, sxy]
  | cons p ps ih =>
    simp only [squaredError, sxx, sxy, List.map_cons, List.sum_cons, List.length_cons, Nat.cast_add, Nat.cast_one] at ih ⊢
    rw [ih]; ring

section ordered
variable [LinearOrder K] [IsStrictOrderedRing K]

theorem mean_zero {ps : List (K × K)} (h : ps ≠ []) :
    (ps.map Prod.fst).sum - (ps.length : K) * meanX ps = 0 ∧ (ps.map Prod.snd).sum - (ps.length : K) * meanY ps = 0 := by
  have : (ps.length : K) ≠ 0 := by
    have := List.length_pos_of_ne_nil h
    exact_mod_cast (by omega : ps.length ≠ 0)
  constructor
  · rw [meanX, mul_div_cancel₀ _ this, sub_self]
  · rw [meanY, mul_div_cancel₀ _ this, sub_self]

theorem sxx_nonneg (X : K) (ps : List (K × K)) : 0 ≤ sxx X ps := by
  apply List.sum_nonneg
  intro a ha
  obtain ⟨p, -, rfl⟩ := List.mem_map.1 ha
  exact mul_self_nonneg _

theorem sxx_pos (X : K) (ps : List (K × K)) (p q : K × K) (hp : p ∈ ps) (hq : q ∈ ps) (h : p.1 ≠ q.1) : 0 < sxx X ps := by
  have key : ∀ p ∈ ps, p.1 - X ≠ 0 → 0 < sxx X ps := by
    intro p hp hne
    obtain ⟨s, t, rfl⟩ := List.append_of_mem hp
    have h1 := sxx_nonneg X s
    have h2 := sxx_nonneg X t
    have h3 : 0 < (p.1 - X) * (p.1 - X) := mul_self_pos.2 hne
    simp only [sxx, List.map_append, List.map_cons, List.sum_append, List.sum_cons] at *
    linarith
  by_cases hpX : p.1 - X = 0
  · exact key q hq fun hqX => h (by rw [sub_eq_zero.1 hpX, sub_eq_zero.1 hqX])
  · exact key p hp hpX

end ordered
end Regression

section
variable [LinearOrder K] [IsStrictOrderedRing K]
open Regression

/-- **C29**: the line found has the least squared error among all lines, it is the only one, it passes through the centroid and
`xint` is its zero. -/
theorem C29_least_squares (ps : List (K × K)) (xr yr : List K) (p q : K × K) (hp : p ∈ ps) (hq : q ∈ ps) (hpq : p.1 ≠ q.1) :
    ∃ l, Regression.general (ps.map Prod.fst ++ xr) (ps.map Prod.snd ++ yr) ps.length = .ok l ∧
      (∀ c m, squaredError l.yint l.slope ps ≤ squaredError c m ps) ∧
      (∀ c m, squaredError c m ps = squaredError l.yint l.slope ps → c = l.yint ∧ m = l.slope) ∧
      l.eval (meanX ps) = meanY ps ∧ (l.slope ≠ 0 → l.eval l.xint = 0) := by
  refine ⟨_, Regression.general_eq ps xr yr, ?_⟩
  have hne : ps ≠ [] := List.ne_nil_of_mem hp
  have hn : (0 : K) < (ps.length : K) := by
    have := List.length_pos_of_ne_nil hne
    exact_mod_cast this
  obtain ⟨z1, z2⟩ := mean_zero hne
  have hpos := sxx_pos (meanX ps) ps p q hp hq hpq
  have hexp : ∀ c m, squaredError c m ps = (ps.map (fun p => (p.2 - meanY ps) ^ 2)).sum - 2 * m * sxy (meanX ps) (meanY ps) ps
      + m ^ 2 * sxx (meanX ps) ps + (ps.length : K) * (meanY ps - c - m * meanX ps) ^ 2 := by
    intro c m
    rw [error_expand c m (meanX ps) (meanY ps), z1, z2]; ring
  generalize sxx (meanX ps) ps = V at *
  generalize sxy (meanX ps) (meanY ps) ps = C at *
  simp only [finish, Line.eval]
  have hdiff : ∀ c m, squaredError c m ps - squaredError (meanY ps - C / V * meanX ps) (C / V) ps =
      V * (m - C / V) ^ 2 + (ps.length : K) * (meanY ps - c - m * meanX ps) ^ 2 := by
    intro c m
    rw [hexp, hexp]
    field_simp
    ring
  refine ⟨?_, ?_, ?_, ?_⟩
  · intro c m
    have := hdiff c m
    nlinarith [mul_nonneg hpos.le (sq_nonneg (m - C / V)), mul_nonneg hn.le (sq_nonneg (meanY ps - c - m * meanX ps))]
  · intro c m h
    have h1 := hdiff c m
    rw [h, sub_self] at h1
    have a1 := mul_nonneg hpos.le (sq_nonneg (m - C / V))
    have a2 := mul_nonneg hn.le (sq_nonneg (meanY ps - c - m * meanX ps))
    have b1 : V * (m - C / V) ^ 2 = 0 := by linarith
    have b2 : (ps.length : K) * (meanY ps - c - m * meanX ps) ^ 2 = 0 := by linarith
    have c1 : m - C / V = 0 := by
      rcases mul_eq_zero.1 b1 with h | h
      · exact absurd h hpos.ne'
      · exact pow_eq_zero_iff (two_ne_zero) |>.1 h
    have c2 : meanY ps - c - m * meanX ps = 0 := by
      rcases mul_eq_zero.1 b2 with h | h
      · exact absurd h hn.ne'
      · exact pow_eq_zero_iff (two_ne_zero) |>.1 h
    have hm : m = C / V := sub_eq_zero.1 c1
    refine ⟨?_, hm⟩
    rw [← hm]; linear_combination -c2
  · ring
  · intro h
    have hC : C ≠ 0 := by rintro rfl; simp at h
    field_simp
    ring

/-- **C29**: collinear data is recovered. -/
theorem C29_line (ps : List (K × K)) (xr yr : List K) (p q : K × K) (hp : p ∈ ps) (hq : q ∈ ps) (hpq : p.1 ≠ q.1) (c m : K)
    (hline : ∀ r ∈ ps, r.2 = c + m * r.1) :
    ∃ l, Regression.general (ps.map Prod.fst ++ xr) (ps.map Prod.snd ++ yr) ps.length = .ok l ∧ l.yint = c ∧ l.slope = m := by
  obtain ⟨l, e, h1, h2, -⟩ := C29_least_squares ps xr yr p q hp hq hpq
  have h0 : squaredError c m ps = 0 := by
    unfold squaredError
    apply List.sum_eq_zero
    intro a ha
    obtain ⟨r, hr, rfl⟩ := List.mem_map.1 ha
    rw [hline r hr]; ring
  have hge : 0 ≤ squaredError l.yint l.slope ps := by
    apply List.sum_nonneg
    intro a ha
    obtain ⟨r, -, rfl⟩ := List.mem_map.1 ha
    exact sq_nonneg _
  obtain ⟨e1, e2⟩ := h2 c m (le_antisymm (by rw [h0]; exact hge) (h1 c m))
  exact ⟨l, e, e1.symm, e2.symm⟩

theorem Regression.avgLoop'_ok (ys qs yr : List K) (s : K) :
    avgLoop' (qs ++ (ys ++ yr)) ys.length (qs.length : Nat) s = .ok (s + ys.sum) := by
  induction ys generalizing qs s with
  | nil => simp [avgLoop', pure, Except.pure]
  | cons y ys ih =>
    have := ih (qs ++ [y]) (s + y)
    simp only [List.append_assoc, List.singleton_append, List.length_append, List.length_singleton, Nat.cast_add, Nat.cast_one] at this
    have h := rd_at (xs := qs) (ys := ys ++ yr) (v := y)
    simp only [List.length_cons, List.cons_append, avgLoop', h, bind, Except.bind, this, List.sum_cons, add_assoc]

theorem Regression.varLoop'_ok (dx mid x0 Y : K) (ys qs yr : List K) (s t : K) :
    varLoop' (qs ++ (ys ++ yr)) dx mid Y ys.length (qs.length : Nat) s t =
      .ok (s + sxx (x0 + dx * mid) (ys.mapIdx (fun i y => (x0 + dx * ((qs.length + i : Nat) : K), y))),
           t + sxy (x0 + dx * mid) Y (ys.mapIdx (fun i y => (x0 + dx * ((qs.length + i : Nat) : K), y)))) := by
  induction ys generalizing qs s t with
  | nil => simp [varLoop', pure, Except.pure, sxx, sxy]
  | cons y ys ih =>
    have := fun s t => ih (qs ++ [y]) s t
    simp only [List.append_assoc, List.singleton_append, List.length_append, List.length_singleton] at this
    have h := rd_at (xs := qs) (ys := ys ++ yr) (v := y)
    simp only [List.length_cons, List.cons_append, varLoop', h, bind, Except.bind]
    have e := this (s + dx * (((qs.length : Int) : K) - mid) * (dx * (((qs.length : Int) : K) - mid)))
      (t + dx * (((qs.length : Int) : K) - mid) * (y - Y))
    rw [show ((qs.length : Nat) : Int) + 1 = ((qs.length + 1 : Nat) : Int) by push_cast; rfl, e, List.mapIdx_cons]
    have hf : (fun i y => (x0 + dx * ((qs.length + (i + 1) : Nat) : K), y)) = (fun (i : Nat) (y : K) => (x0 + dx * ((qs.length + 1 + i : Nat) : K), y)) := by
      funext i y; rw [show qs.length + (i + 1) = qs.length + 1 + i by omega]
    rw [hf]
    generalize List.mapIdx _ ys = r
    simp only [sxx, sxy, List.map_cons, List.sum_cons, Nat.add_zero, Int.cast_natCast]
    generalize (List.map (fun p : K × K => (p.1 - (x0 + dx * mid)) * (p.1 - (x0 + dx * mid))) r).sum = A
    generalize (List.map (fun p : K × K => (p.1 - (x0 + dx * mid)) * (p.2 - Y)) r).sum = B
    congr 2 <;> ring

theorem Regression.sum_grid (x0 dx : K) (ys : List K) :
    2 * ((ys.mapIdx (fun i y => (x0 + dx * (i : K), y))).map Prod.fst).sum = (ys.length : K) * (2 * x0 + dx * ((ys.length : K) - 1)) := by
  induction ys using List.reverseRecOn with
  | nil => simp
  | append_singleton ys y ih =>
    simp only [List.mapIdx_append, List.map_append, List.sum_append, mul_add, ih, List.mapIdx_cons, List.mapIdx_nil, List.map_cons, List.map_nil,
      List.sum_singleton, List.length_append, List.length_singleton]
    push_cast
    ring

/-- **C29**: the constructor for a uniform grid agrees with the general one (at least one sample, any `x0` and `dx`). -/
theorem C29_uniform (ys yr xr yr' : List K) (hys : ys ≠ []) (x0 dx : K) :
    Regression.uniform (ys ++ yr) ys.length x0 dx =
      Regression.general ((ys.mapIdx (fun i y => (x0 + dx * (i : K), y))).map Prod.fst ++ xr)
        ((ys.mapIdx (fun i y => (x0 + dx * (i : K), y))).map Prod.snd ++ yr') ys.length := by
  have hl : (ys.mapIdx (fun i y => (x0 + dx * (i : K), y))).length = ys.length := by simp
  have h := Regression.general_eq (ys.mapIdx (fun i y => (x0 + dx * (i : K), y))) xr yr'
  rw [hl] at h
  rw [h]
  have hn : (ys.length : K) ≠ 0 := by
    have := List.length_pos_of_ne_nil hys
    exact_mod_cast (by omega : ys.length ≠ 0)
  have hX : meanX (ys.mapIdx (fun i y => (x0 + dx * (i : K), y))) = x0 + dx * (((ys.length : K) - 1) / 2) := by
    have := Regression.sum_grid x0 dx ys
    rw [meanX, hl, div_eq_iff hn]
    linear_combination this / 2
  have hsnd : (ys.mapIdx (fun i y => (x0 + dx * (i : K), y))).map Prod.snd = ys := by
    apply List.ext_getElem <;> simp
  have hY : meanY (ys.mapIdx (fun i y => (x0 + dx * (i : K), y))) = ys.sum / (ys.length : K) := by
    rw [meanY, hl, hsnd]
  have h1 := Regression.avgLoop'_ok ys [] yr 0
  have h2 := Regression.varLoop'_ok dx (((ys.length : K) - 1) / 2) x0 (ys.sum / (ys.length : K)) ys [] yr 0 0
  simp only [List.nil_append, List.length_nil, zero_add, Nat.cast_zero] at h1 h2
  have hc : (((ys.length : Int) - 1 : Int) : K) = (ys.length : K) - 1 := by push_cast; ring
  simp only [uniform, Int.toNat_natCast, h1, bind, Except.bind, pure, Except.pure, Int.cast_natCast, hc, h2, hX, hY]

example : (Regression.general [0, 1, 2, (4 : ℚ)] [1, 3, 4, 10] 4).map (fun l => (l.slope, l.yint, l.xint)) = .ok (78 / 35, 3 / 5, -7 / 26) ∧
    ((0 : ℚ), (1 : ℚ)) ∈ [((0 : ℚ), (1 : ℚ)), (1, 3), (2, 4), (4, 10)] ∧
    (Regression.uniform [5, 3, (1 : ℚ)] 3 2 1).map (fun l => (l.slope, l.yint, l.xint)) = .ok (-2, 9, 9 / 2) := by decide +kernel

end
end DSP
