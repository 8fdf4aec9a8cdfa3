import Verif.Model.Hilbert
import Verif.Lemmas.Loops
import Mathlib.Tactic.Ring
import Mathlib.Tactic.Abel
import Mathlib.Algebra.BigOperators.Intervals
import Mathlib.Algebra.BigOperators.Fin

/-!
# Shift registers
-/

namespace DSP

/-- A machine whose states are known in advance. -/
theorem run_known {σ ι ω : Type} (step : σ → ι → M (σ × ω)) (x : ℕ → ι) (st : ℕ → σ) (y : ℕ → ω) (h : ∀ t, step (st t) (x t) = .ok (st (t + 1), y t)) (T : ℕ) :
    run step (st 0) ((List.range T).map x) = .ok (st T, (List.range T).map y) := by
  have key : ∀ T k, run step (st k) ((List.range' k T).map x) = .ok (st (k + T), (List.range' k T).map y) := by
    intro T
    induction T with
    | zero => intro k; rfl
    | succ T ih =>
      intro k
      rw [List.range'_succ, List.map_cons, run, h k]
      simp only [ih (k + 1)]
      rw [show k + 1 + T = k + (T + 1) by ring, List.map_cons]
  have := key T 0
  rwa [Nat.zero_add, ← List.range_eq_range'] at this

theorem shiftIn_ok {A : Type} (f : ℕ → A) (L : ℕ) (hL : 1 ≤ L) (r : List A) (hr : r = (List.range L).map f) :
    shiftIn r L (f L) = .ok ((List.range L).map fun j => f (j + 1)) := by
  obtain ⟨b, e, hb, hb2⟩ := foldlM_inv (fun k (b : List A) => b.length = L ∧ ∀ j, j < L → b[j]? = some (if j < k then f (j + 1) else f j))
    (fun r (i : ℕ) => do
      let u ← rd r (i + 1)
      wr r i u) (L - 1) r ⟨by simp [hr], fun j hj => by simp [hr, hj]⟩ (by
    rintro i hi b ⟨hb, hb2⟩
    have h1 : b[i + 1]? = some (f (i + 1)) := by rw [hb2 _ (by omega), if_neg (by omega)]
    refine ⟨b.set i (f (i + 1)), ?_, by simp [hb], fun j hj => ?_⟩
    · have h2 : rd b ((i : ℤ) + 1) = .ok (f (i + 1)) := by
        refine rd_of_getElem? (by omega) ?_
        rw [show ((i : ℤ) + 1).toNat = i + 1 by omega, h1]
      simp only [h2, bind, Except.bind]
      exact wr_nat (by omega)
    · rw [List.getElem?_set]
      by_cases c : i = j
      · subst c
        rw [if_pos rfl, if_pos (by omega), if_pos (by omega)]
      · rw [if_neg c, hb2 _ hj]
        by_cases c2 : j < i
        · rw [if_pos c2, if_pos (by omega)]
        · rw [if_neg c2, if_neg (by omega)])
  rw [shiftIn, e]
  simp only [bind, Except.bind]
  rw [wr_ok (by omega) (by omega)]
  congr 1
  apply List.ext_getElem?
  intro j
  rw [List.getElem?_set, show ((L : ℤ) - 1).toNat = L - 1 by omega]
  by_cases c : L - 1 = j
  · subst c
    rw [if_pos rfl, if_pos (by omega), List.getElem?_map, List.getElem?_range (by omega), Option.map_some]
    congr 2
    omega
  · rw [if_neg c]
    by_cases c2 : j < L
    · rw [hb2 _ c2, if_pos (by omega), List.getElem?_map, List.getElem?_range c2, Option.map_some]
    · rw [List.getElem?_eq_none (by omega), List.getElem?_eq_none (by simp; omega)]

theorem clear_ok {A : Type} [Zero A] (r : List A) (L : ℕ) (hr : r.length = L) : clear r L = .ok ((List.range L).map fun _ => 0) := by
  refine update_loop _ _ _ _ hr (by simp) fun b i u v hi hb _ _ hv => ?_
  rw [List.getElem?_map, List.getElem?_range hi, Option.map_some, Option.some.injEq] at hv
  subst hv
  exact wr_nat (by omega)

/-- An array filled with computed values. -/
theorem fill_ok {A : Type} (r : List A) (L : ℕ) (hr : r.length = L) (g : ℕ → M A) (f : ℕ → A) (h : ∀ i < L, g i = .ok (f i)) :
    (List.range L).foldlM (fun r (i : ℕ) => do
      let v ← g i
      wr r i v) r = .ok ((List.range L).map f) := by
  refine update_loop _ _ _ _ hr (by simp) fun b i u v hi hb _ _ hv => ?_
  rw [List.getElem?_map, List.getElem?_range hi, Option.map_some, Option.some.injEq] at hv
  subst hv
  simp only [h i hi, bind, Except.bind]
  exact wr_nat (by omega)

/-- A sum whose first term is outside of the loop. -/
theorem sum_rest {A : Type} [AddCommMonoid A] (g : ℕ → M A) (f : ℕ → A) (m : ℕ) (hm : 1 ≤ m) (h : ∀ i < m, g i = .ok (f i)) :
    (List.range (m - 1)).foldlM (fun s (i : ℕ) => do
      let t ← g (i + 1)
      return s + t) (f 0) = .ok (∑ i ∈ Finset.range m, f i) := by
  obtain ⟨b, e, hb⟩ := foldlM_inv (fun k s => s = ∑ i ∈ Finset.range (k + 1), f i) (fun s (i : ℕ) => do
      let t ← g (i + 1)
      return s + t) (m - 1) (f 0) (by simp) (by
    rintro i hi s rfl
    refine ⟨_, ?_, (Finset.sum_range_succ _ _).symm⟩
    simp only [h (i + 1) (by omega), bind, Except.bind, pure, Except.pure])
  rw [e, hb, Nat.sub_add_cancel hm]

theorem rd_map_range {A : Type} (f : ℕ → A) (L i : ℕ) (k : ℤ) (hk : k = i) (hi : i < L) : rd ((List.range L).map f) k = .ok (f i) := by
  subst hk
  rw [rd_nat (by simpa using hi)]
  simp

/-- A sum over an odd number of places, of which all but those at odd distance from the centre vanish. -/
theorem sum_odd {A : Type} [AddCommMonoid A] (F : ℕ → A) (m : ℕ) (h : ∀ i, 1 ≤ i → i < m + 1 → F (2 * m + 2 * i) = 0 ∧ F (2 * m - 2 * i) = 0) :
    ∑ k ∈ Finset.range (4 * m + 1), F k = F (2 * m) + ∑ i ∈ Finset.range m, (F (2 * m + (2 * i + 1)) + F (2 * m - (2 * i + 1))) := by
  have key : ∀ n, n ≤ m → ∑ k ∈ Finset.range (4 * n + 1), F (2 * m - 2 * n + k) =
      F (2 * m) + ∑ i ∈ Finset.range n, (F (2 * m + (2 * i + 1)) + F (2 * m - (2 * i + 1))) := by
    intro n
    induction n with
    | zero => intro _; simp
    | succ n ih =>
      intro hn
      have ih := ih (by omega)
      have e1 : ∀ k, F (2 * m - 2 * (n + 1) + (k + 1 + 1)) = F (2 * m - 2 * n + k) := fun k => by congr 1; omega
      have five : ∀ G : ℕ → A, ∑ k ∈ Finset.range (4 * (n + 1) + 1), G k =
          ∑ k ∈ Finset.range (4 * n + 1), G (k + 1 + 1) + G 1 + G 0 + G (4 * n + 3) + G (4 * n + 4) := by
        intro G
        rw [show 4 * (n + 1) + 1 = (4 * n + 1 + 1 + 1) + 1 + 1 by ring, Finset.sum_range_succ, Finset.sum_range_succ, Finset.sum_range_succ', Finset.sum_range_succ']
      rw [five]
      simp only [e1]
      rw [ih, Finset.sum_range_succ, show 2 * m - 2 * (n + 1) + 0 = 2 * m - 2 * (n + 1) by omega, (h (n + 1) (by omega) (by omega)).2,
        show 2 * m - 2 * n + (4 * n + 2) = 2 * m + 2 * (n + 1) by omega, (h (n + 1) (by omega) (by omega)).1,
        show 2 * m - 2 * n + (4 * n + 1) = 2 * m + (2 * n + 1) by omega,
        show 2 * m - 2 * (n + 1) + 1 = 2 * m - (2 * n + 1) by omega]
      abel
  have := key m le_rfl
  simpa using this

end DSP
