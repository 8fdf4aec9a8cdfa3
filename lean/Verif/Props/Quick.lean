import Verif.Lemmas.Quick
import Mathlib.Order.Defs.LinearOrder
import Mathlib.Data.List.Sort

/-! Properties C11, C12 and C13: sorting and selecting. -/

namespace DSP
variable {α : Type}
open Quick Spec

/-- An update of the first cells only. -/
theorem Upd.split {xs rest a' : List α} (u : Upd 0 ((xs.length : Int) - 1) (xs ++ rest) a') :
    ∃ ys, a' = ys ++ rest ∧ ys.Perm xs ∧ ∀ i : Nat, i < xs.length → ix a' i = ys[i]? := by
  have hl := u.len
  rw [List.length_append] at hl
  have hd : a'.drop xs.length = rest := by
    apply List.ext_getElem?
    intro i
    have := u.out ((xs.length + i : Nat) : Int) (by omega)
    rw [ix_nat, ix_nat, List.getElem?_append_right (by omega)] at this
    rw [List.getElem?_drop, this]
    congr 1; omega
  have he : a' = a'.take xs.length ++ rest := by conv_lhs => rw [← List.take_append_drop xs.length a', hd]
  refine ⟨a'.take xs.length, he, ?_, ?_⟩
  · have hp := u.perm
    rw [he] at hp
    exact (List.perm_append_right_iff _).1 hp
  · intro i hi
    rw [ix_nat, List.getElem?_take_of_lt hi]

/-- **C13** for sorting: any irreflexive comparison whatsoever gives a terminating, memory-safe permutation that touches
nothing outside of the first `n` cells. -/
theorem C13_sort_safe (lt : α → α → Bool) (hirr : ∀ x, lt x x = false) (xs rest : List α) :
    ∃ ys, quickSort lt (xs ++ rest) xs.length = .ok (ys ++ rest) ∧ ys.Perm xs := by
  obtain ⟨a', e, u, -⟩ := sort_ok lt hirr xs.length (xs ++ rest) 0 ((xs.length : Int) - 1) (by omega) (by simp; omega) (by omega)
  obtain ⟨ys, rfl, hp, -⟩ := u.split
  exact ⟨ys, by simpa [quickSort] using e, hp⟩

/-- **C11.** -/
theorem C11_sort (lt : α → α → Bool) (hw : StrictWeakOrder lt) (xs rest : List α) :
    ∃ ys, quickSort lt (xs ++ rest) xs.length = .ok (ys ++ rest) ∧ ys.Perm xs ∧ Ordered lt ys := by
  obtain ⟨a', e, u, s⟩ := sort_ok lt hw.irr xs.length (xs ++ rest) 0 ((xs.length : Int) - 1) (by omega) (by simp; omega) (by omega)
  obtain ⟨ys, rfl, hp, hi⟩ := u.split
  have hlen := hp.length_eq
  refine ⟨ys, by simpa [quickSort] using e, hp, ?_⟩
  rw [Ordered, List.pairwise_iff_getElem]
  intro i j hi' hj' hij
  refine s hw i j _ _ (by omega) (by omega) (by omega) ((hi i (by omega)).trans (List.getElem?_eq_getElem _))
    ((hi j (by omega)).trans (List.getElem?_eq_getElem _))

/-- **C11** for a total order: the result is *the* sorted list. -/
theorem C11_sort_unique {β : Type} [LinearOrder β] (xs rest zs : List β) (h1 : zs.Perm xs) (h2 : zs.Pairwise (· ≤ ·)) :
    quickSort (fun x y => decide (x < y)) (xs ++ rest) xs.length = .ok (zs ++ rest) := by
  have hw : StrictWeakOrder (fun x y : β => decide (x < y)) := ⟨by simp, by simpa using fun x y h => le_of_lt h,
    by simpa using fun x y z h1 h2 => le_trans h2 h1⟩
  obtain ⟨ys, e, hp, ho⟩ := C11_sort _ hw xs rest
  rw [e, List.Perm.eq_of_pairwise' (r := fun a b : β => a ≤ b) (by simpa [Ordered] using ho) h2 (hp.trans h1.symm)]

/-- **C13** for selecting. -/
theorem C13_select_safe (lt : α → α → Bool) (hirr : ∀ x, lt x x = false) (xs rest : List α) (k : Nat) (hk : k < xs.length) :
    ∃ ys y, quickSelect lt (xs ++ rest) k xs.length = .ok (ys ++ rest, y) ∧ ys.Perm xs ∧ ys[k]? = some y := by
  obtain ⟨a', e, u, -⟩ := select_ok lt hirr k xs.length (xs ++ rest) 0 ((xs.length : Int) - 1) (by omega) (by simp; omega) (by omega)
  obtain ⟨ys, rfl, hp, hi⟩ := u.split
  have hlen := hp.length_eq
  have hy : ys[k]? = some (ys[k]'(by omega)) := List.getElem?_eq_getElem _
  refine ⟨ys, _, ?_, hp, hy⟩
  have ha : assert (decide ((xs.length : Int) ≠ 0 ∧ (k : Int) < xs.length)) = .ok () := by
    rw [decide_eq_true (by omega)]; rfl
  have hr := rd_iff.2 ((hi k hk).trans hy)
  simp only [quickSelect, ha, bind, Except.bind, Int.toNat_natCast, e, hr, pure, Except.pure]

/-- **C12.** -/
theorem C12_select (lt : α → α → Bool) (hw : StrictWeakOrder lt) (xs rest : List α) (k : Nat) (hk : k < xs.length) :
    ∃ ys y, quickSelect lt (xs ++ rest) k xs.length = .ok (ys ++ rest, y) ∧ ys.Perm xs ∧ ys[k]? = some y ∧
      (∀ x ∈ ys.take k, lt y x = false) ∧ (∀ x ∈ ys.drop (k + 1), lt x y = false) := by
  obtain ⟨a', e, u, s⟩ := select_ok lt hw.irr k xs.length (xs ++ rest) 0 ((xs.length : Int) - 1) (by omega) (by simp; omega) (by omega)
  obtain ⟨ys, rfl, hp, hi⟩ := u.split
  have hlen := hp.length_eq
  have hy : ys[k]? = some (ys[k]'(by omega)) := List.getElem?_eq_getElem _
  have ha : assert (decide ((xs.length : Int) ≠ 0 ∧ (k : Int) < xs.length)) = .ok () := by
    rw [decide_eq_true (by omega)]; rfl
  have hr := rd_iff.2 ((hi k hk).trans hy)
  obtain ⟨q1, q2⟩ := s hw (by omega) (by omega) _ ((hi k hk).trans hy)
  refine ⟨ys, _, ?_, hp, hy, ?_, ?_⟩
  · simp only [quickSelect, ha, bind, Except.bind, Int.toNat_natCast, e, hr, pure, Except.pure]
  · intro x hx
    obtain ⟨i, hi1, rfl⟩ := List.mem_iff_getElem.1 hx
    simp only [List.length_take] at hi1
    rw [List.getElem_take]
    exact q1 i (by omega) (by omega) _ ((hi i (by omega)).trans (List.getElem?_eq_getElem _))
  · intro x hx
    obtain ⟨i, hi1, rfl⟩ := List.mem_iff_getElem.1 hx
    simp only [List.length_drop] at hi1
    rw [List.getElem_drop]
    exact q2 ((k + 1 + i : Nat) : Int) (by omega) (by omega) _ ((hi _ (by omega)).trans (List.getElem?_eq_getElem _))

/-- **C12** for a total order: the answer is element `k` of *the* sorted list. -/
theorem C12_select_unique {β : Type} [LinearOrder β] (xs rest zs : List β) (h1 : zs.Perm xs) (h2 : zs.Pairwise (· ≤ ·))
    (k : Nat) (hk : k < xs.length) :
    ∃ ys y, quickSelect (fun x y => decide (x < y)) (xs ++ rest) k xs.length = .ok (ys ++ rest, y) ∧ ys.Perm xs ∧
      zs[k]? = some y := by
  have hw : StrictWeakOrder (fun x y : β => decide (x < y)) := ⟨by simp, by simpa using fun x y h => le_of_lt h,
    by simpa using fun x y z h1 h2 => le_trans h2 h1⟩
  obtain ⟨ys, y, e, hp, hy, q1, q2⟩ := C12_select _ hw xs rest k hk
  refine ⟨ys, y, e, hp, ?_⟩
  simp only [decide_eq_false_iff_not, not_lt] at q1 q2
  obtain ⟨hb, hyk⟩ := List.getElem?_eq_some_iff.1 hy
  have hsplit : ys = ys.take k ++ y :: ys.drop (k + 1) := by
    conv_lhs => rw [← List.take_append_drop k ys, List.drop_eq_getElem_cons hb, hyk]
  have p1 := List.mergeSort_perm (ys.take k) (fun a b => decide (a ≤ b))
  have p2 := List.mergeSort_perm (ys.drop (k + 1)) (fun a b => decide (a ≤ b))
  have s1 := List.pairwise_mergeSort (le := fun a b : β => decide (a ≤ b)) (by simpa using fun a b c => le_trans)
    (by simpa using le_total) (ys.take k)
  have s2 := List.pairwise_mergeSort (le := fun a b : β => decide (a ≤ b)) (by simpa using fun a b c => le_trans)
    (by simpa using le_total) (ys.drop (k + 1))
  simp only [decide_eq_true_eq] at s1 s2
  have hs : ((ys.take k).mergeSort (fun a b => decide (a ≤ b)) ++ y :: (ys.drop (k + 1)).mergeSort (fun a b => decide (a ≤ b))).Pairwise (· ≤ ·) := by
    rw [List.pairwise_append, List.pairwise_cons]
    refine ⟨s1, ⟨fun x hx => q2 x (p2.mem_iff.1 hx), s2⟩, ?_⟩
    intro a ha b hb'
    have h1 := q1 a (p1.mem_iff.1 ha)
    rcases List.mem_cons.1 hb' with rfl | hb'
    · exact h1
    · exact le_trans h1 (q2 b (p2.mem_iff.1 hb'))
  have hperm : ((ys.take k).mergeSort (fun a b => decide (a ≤ b)) ++ y :: (ys.drop (k + 1)).mergeSort (fun a b => decide (a ≤ b))).Perm zs := by
    refine ((p1.append (p2.cons y)).trans ?_).trans (hp.trans h1.symm)
    rw [← hsplit]
  rw [← List.Perm.eq_of_pairwise' (r := fun a b : β => a ≤ b) hs h2 hperm, List.getElem?_append_right (by simp)]
  have : k - min k ys.length = 0 := by omega
  simp [this]

/-- **C12**: what fails. The assertion catches an empty array and `k >= n`. -/
theorem C12_select_assert (lt : α → α → Bool) (a : List α) (k n : Int) (h : n = 0 ∨ n ≤ k) :
    quickSelect lt a k n = .error .assertion := by
  have : assert (decide (n ≠ 0 ∧ k < n)) = .error .assertion := by
    rw [decide_eq_false (by omega)]; rfl
  simp only [quickSelect, this, bind, Except.bind]

/-- The assertion does *not* catch a negative `k`: the array is sorted and then read in front of its first cell. -/
theorem C12_negative_k (lt : α → α → Bool) (hirr : ∀ x, lt x x = false) (xs : List α) (hx : xs ≠ []) (k : Int) (hk : k < 0) :
    quickSelect lt xs k xs.length = .error .bounds := by
  have hn : 0 < xs.length := List.length_pos_of_ne_nil hx
  obtain ⟨a', e, u, -⟩ := select_ok lt hirr k xs.length xs 0 ((xs.length : Int) - 1) (by omega) (by omega) (by omega)
  have ha : assert (decide ((xs.length : Int) ≠ 0 ∧ k < xs.length)) = .ok () := by
    rw [decide_eq_true (by omega)]; rfl
  simp only [quickSelect, ha, bind, Except.bind, Int.toNat_natCast, e, rd_error (a := a') (.inl hk)]

example : StrictWeakOrder (fun x y : Int × Int => decide (x.1 < y.1)) :=
  ⟨by simp, by simp; omega, by simp; omega⟩

/-- A case that goes through the partition. -/
example : quickSort (fun x y => decide (x < y)) ((List.range 40).map (fun i => i * 7 % 13) ++ [99, 0]) 40 =
    .ok ([0, 0, 0, 0, 1, 1, 1, 2, 2, 2, 3, 3, 3, 4, 4, 4, 5, 5, 5, 6, 6, 6, 7, 7, 7, 8, 8, 8, 9, 9, 9, 10, 10, 10, 11, 11,
      11, 12, 12, 12] ++ [99, 0]) := by decide +kernel

/-- Not an order at all (rock, paper, scissors), still safe. -/
example : (quickSort (fun x y => decide ((x + 1) % 3 = y)) ((List.range 40).map (· % 3)) 40).map List.length = .ok 40 ∧
    ∀ x, decide ((x + 1) % 3 = x) = false := by
  refine ⟨by decide +kernel, ?_⟩
  intro x; simp; omega

example : (quickSelect (fun x y => decide (x < y)) ((List.range 40).map (fun i => i * 7 % 40)) 17 40).map Prod.snd = .ok 17 := by
  decide +kernel

end DSP
