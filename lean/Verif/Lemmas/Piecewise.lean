import Mathlib.Analysis.Calculus.Deriv.Basic
import Mathlib.Analysis.Calculus.Deriv.Add
import Mathlib.Analysis.Calculus.Deriv.Mul
import Mathlib.Analysis.Calculus.Deriv.Pow
import Mathlib.Analysis.Calculus.Deriv.Comp
import Mathlib.Topology.Order.OrderClosed

/-!
# Gluing functions at knots
-/

namespace DSP

/-- Two functions glued at `a` where they and their derivatives agree. -/
theorem glue_deriv {f g f' g' : ℝ → ℝ} (hf : ∀ x, HasDerivAt f (f' x) x) (hg : ∀ x, HasDerivAt g (g' x) x) (a : ℝ) (h0 : f a = g a)
    (h1 : f' a = g' a) (x : ℝ) : HasDerivAt (fun x => if x < a then f x else g x) (if x < a then f' x else g' x) x := by
  rcases lt_trichotomy x a with h | h | h
  · rw [if_pos h]
    refine (hf x).congr_of_eventuallyEq ?_
    filter_upwards [Iio_mem_nhds h] with y hy
    exact if_pos hy
  · subst h
    rw [if_neg (lt_irrefl _)]
    have l : HasDerivWithinAt (fun y => if y < x then f y else g y) (g' x) (Set.Iic x) x := by
      rw [← h1]
      refine (hf x).hasDerivWithinAt.congr (fun y hy => ?_) (by rw [if_neg (lt_irrefl _), h0])
      rcases lt_or_eq_of_le (Set.mem_Iic.mp hy) with h | h
      · rw [if_pos h]
      · rw [h, if_neg (lt_irrefl _), h0]
    have r : HasDerivWithinAt (fun y => if y < x then f y else g y) (g' x) (Set.Ici x) x := by
      refine (hg x).hasDerivWithinAt.congr (fun y hy => ?_) (by rw [if_neg (lt_irrefl _)])
      exact if_neg (not_lt.mpr (Set.mem_Ici.mp hy))
    have := l.union r
    rw [Set.Iic_union_Ici] at this
    exact hasDerivWithinAt_univ.mp this
  · rw [if_neg (not_lt.mpr h.le)]
    refine (hg x).congr_of_eventuallyEq ?_
    filter_upwards [Ioi_mem_nhds h] with y hy
    exact if_neg (not_lt.mpr (le_of_lt (Set.mem_Ioi.mp hy)))

theorem glue_continuous {f g : ℝ → ℝ} (hf : Continuous f) (hg : Continuous g) (a : ℝ) (h0 : f a = g a) :
    Continuous (fun x => if x < a then f x else g x) := by
  have e : (fun x => if x < a then f x else g x) = fun x => if a ≤ x then g x else f x := by
    funext x
    by_cases h : x < a
    · rw [if_pos h, if_neg (not_le.mpr h)]
    · rw [if_neg h, if_pos (not_lt.mp h)]
  rw [e]
  exact Continuous.if_le hg hf continuous_const continuous_id (fun x hx => by rw [← hx]; exact h0.symm)

/-- Piece `0` before knot 1, piece `k` from knot `k` to knot `k + 1`, piece `m` from knot `m` on. -/
noncomputable def pieces (X : ℕ → ℝ) (p : ℕ → ℝ → ℝ) : ℕ → ℝ → ℝ
  | 0 => p 0
  | m + 1 => fun x => if x < X (m + 1) then pieces X p m x else p (m + 1) x

theorem pieces_last (X : ℕ → ℝ) (p : ℕ → ℝ → ℝ) (m : ℕ) (x : ℝ) (h : m = 0 ∨ X m ≤ x) : pieces X p m x = p m x := by
  cases m with
  | zero => rfl
  | succ m =>
    rcases h with h | h
    · omega
    · simp only [pieces]; rw [if_neg (not_lt.mpr h)]

/-- Which piece is used. -/
theorem pieces_eq (X : ℕ → ℝ) (p : ℕ → ℝ → ℝ) (m : ℕ) (hX : ∀ i j, i ≤ j → j ≤ m → X i ≤ X j) (k : ℕ) (hk : k ≤ m) (x : ℝ) (h0 : k = 0 ∨ X k ≤ x)
    (h1 : k = m ∨ x < X (k + 1)) : pieces X p m x = p k x := by
  induction m with
  | zero => have : k = 0 := by omega
            subst this; rfl
  | succ m ih =>
    by_cases c : k = m + 1
    · subst c; exact pieces_last X p _ x h0
    · have hlt : x < X (k + 1) := by rcases h1 with h1 | h1; exact absurd h1 c; exact h1
      have : x < X (m + 1) := lt_of_lt_of_le hlt (hX _ _ (by omega) le_rfl)
      simp only [pieces]
      rw [if_pos this]
      refine ih (fun i j h1 h2 => hX i j h1 (by omega)) (by omega) ?_
      by_cases c2 : k = m
      · exact Or.inl c2
      · exact Or.inr hlt

/-- At a knot where the pieces agree either may be taken. -/
theorem pieces_closed (X : ℕ → ℝ) (p : ℕ → ℝ → ℝ) (m : ℕ) (hX : ∀ i j, i < j → j ≤ m → X i < X j)
    (hm : ∀ k, k < m → p k (X (k + 1)) = p (k + 1) (X (k + 1))) (k : ℕ) (hk : k ≤ m) (x : ℝ) (h0 : k = 0 ∨ X k ≤ x)
    (h1 : k = m ∨ x ≤ X (k + 1)) : pieces X p m x = p k x := by
  have hX' : ∀ i j, i ≤ j → j ≤ m → X i ≤ X j := fun i j h1 h2 => by
    rcases lt_or_eq_of_le h1 with h | h
    · exact (hX i j h h2).le
    · rw [h]
  by_cases c : k = m
  · exact pieces_eq X p m hX' k hk x h0 (Or.inl c)
  · have h1 : x ≤ X (k + 1) := by rcases h1 with h1 | h1; exact absurd h1 c; exact h1
    rcases lt_or_eq_of_le h1 with h2 | h2
    · exact pieces_eq X p m hX' k hk x h0 (Or.inr h2)
    · rw [h2, hm k (by omega)]
      refine pieces_eq X p m hX' (k + 1) (by omega) _ (Or.inr le_rfl) ?_
      by_cases c2 : k + 1 = m
      · exact Or.inl c2
      · exact Or.inr (hX _ _ (by omega) (by omega))

theorem pieces_deriv (X : ℕ → ℝ) (p p' : ℕ → ℝ → ℝ) (m : ℕ) (hd : ∀ k x, HasDerivAt (p k) (p' k x) x)
    (h0 : ∀ k, k < m → p k (X (k + 1)) = p (k + 1) (X (k + 1))) (h1 : ∀ k, k < m → p' k (X (k + 1)) = p' (k + 1) (X (k + 1)))
    (hX : ∀ i j, i ≤ j → j ≤ m → X i ≤ X j) (x : ℝ) : HasDerivAt (pieces X p m) (pieces X p' m x) x := by
  induction m generalizing x with
  | zero => exact hd 0 x
  | succ m ih =>
    have ih := ih (fun k hk => h0 k (by omega)) (fun k hk => h1 k (by omega)) (fun i j a b => hX i j a (by omega))
    have hm : m = 0 ∨ X m ≤ X (m + 1) := Or.inr (hX _ _ (by omega) le_rfl)
    exact glue_deriv ih (hd (m + 1)) (X (m + 1)) (by rw [pieces_last X p m _ hm]; exact h0 m (by omega))
      (by rw [pieces_last X p' m _ hm]; exact h1 m (by omega)) x

theorem pieces_continuous (X : ℕ → ℝ) (p : ℕ → ℝ → ℝ) (m : ℕ) (hc : ∀ k, Continuous (p k))
    (h0 : ∀ k, k < m → p k (X (k + 1)) = p (k + 1) (X (k + 1)))
    (hX : ∀ i j, i ≤ j → j ≤ m → X i ≤ X j) : Continuous (pieces X p m) := by
  induction m with
  | zero => exact hc 0
  | succ m ih =>
    have ih := ih (fun k hk => h0 k (by omega)) (fun i j a b => hX i j a (by omega))
    have hm : m = 0 ∨ X m ≤ X (m + 1) := Or.inr (hX _ _ (by omega) le_rfl)
    exact glue_continuous ih (hc (m + 1)) (X (m + 1)) (by rw [pieces_last X p m _ hm]; exact h0 m (by omega))

end DSP
