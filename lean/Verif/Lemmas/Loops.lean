import Verif.Lemmas.Base
import Mathlib.Algebra.BigOperators.Group.List.Basic

/-!
# Loops over arrays
-/

namespace DSP

theorem foldlM_inv {β : Type} (P : ℕ → β → Prop) (f : β → ℕ → M β) (n : ℕ) (b : β) (h0 : P 0 b)
    (h : ∀ a < n, ∀ b, P a b → ∃ b', f b a = .ok b' ∧ P (a + 1) b') : ∃ b', (List.range n).foldlM f b = .ok b' ∧ P n b' := by
  induction n with
  | zero => exact ⟨b, rfl, h0⟩
  | succ n ih =>
    obtain ⟨b', e, hb⟩ := ih (fun a ha => h a (by omega))
    obtain ⟨b'', e2, hb2⟩ := h n (by omega) b' hb
    refine ⟨b'', ?_, hb2⟩
    rw [List.range_succ, List.foldlM_append, e]
    simp [List.foldlM_cons, bind, Except.bind, e2, pure, Except.pure]

/-- `for (i = 0; i < n; ++i) acc += l[i];` for whatever computes the terms. -/
theorem sum_loop {A : Type} [AddCommMonoid A] (f : A → ℕ → M A) (l : List A) (n : ℕ) (hn : l.length = n)
    (h : ∀ acc i v, l[i]? = some v → f acc i = .ok (acc + v)) : (List.range n).foldlM f 0 = .ok l.sum := by
  obtain ⟨b, e, hb⟩ := foldlM_inv (fun k acc => acc = (l.take k).sum) f n 0 (by simp) (by
    rintro i hi acc rfl
    have hv : l[i]? = some l[i] := List.getElem?_eq_getElem (by omega)
    exact ⟨_, h _ i _ hv, by rw [List.take_add_one, hv, Option.toList_some, List.sum_append, List.sum_singleton]⟩)
  rw [e, hb, List.take_of_length_le (by omega)]

/-- `for (i = 0; i < n; ++i) a[i] = ...;` -/
theorem update_loop {A : Type} (f : List A → ℕ → M (List A)) (a l : List A) (n : ℕ) (ha : a.length = n) (hl : l.length = n)
    (h : ∀ (b : List A) i (u v : A), i < n → b.length = n → b[i]? = some u → a[i]? = some u → l[i]? = some v → f b i = .ok (b.set i v)) :
    (List.range n).foldlM f a = .ok l := by
  obtain ⟨b, e, hb, hb2⟩ := foldlM_inv (fun k b => b.length = n ∧ ∀ i, b[i]? = if i < k then l[i]? else a[i]?) f n a
    ⟨ha, by simp⟩ (by
    rintro i hi b ⟨hb, hb2⟩
    have h1 : b[i]? = a[i]? := by rw [hb2, if_neg (by omega)]
    have hu : a[i]? = some a[i] := List.getElem?_eq_getElem (by omega)
    have hv : l[i]? = some l[i] := List.getElem?_eq_getElem (by omega)
    refine ⟨_, h b i _ _ hi hb (h1.trans hu) hu hv, by simp [hb], fun j => ?_⟩
    rw [List.getElem?_set]
    by_cases c : i = j
    · subst c
      rw [if_pos rfl, if_pos (by omega), if_pos (by omega), hv]
    · rw [if_neg c, hb2]
      by_cases c2 : j < i
      · rw [if_pos c2, if_pos (by omega)]
      · rw [if_neg c2, if_neg (by omega)])
  rw [e]
  congr 1
  apply List.ext_getElem?
  intro i
  rw [hb2]
  by_cases c : i < n
  · rw [if_pos c]
  · rw [if_neg c, List.getElem?_eq_none (by omega), List.getElem?_eq_none (by omega)]

end DSP
