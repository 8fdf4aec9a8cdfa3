import Verif.Model.Estimators
import Verif.Spec.Robust
import Verif.Props.Quick
import Mathlib.Algebra.Order.Field.Basic

set_option linter.unusedSectionVars false

namespace DSP
variable {α : Type}

/-- A work array of `size` cells whose first `count` cells are the list `L`, cut at `size`. -/
structure Fill (size : Nat) (temp : List α) (count : Int) (L : List α) : Prop where
  len : temp.length = size
  count : count = min size L.length
  cells : temp.take (min size L.length) = L.take size

namespace Fill

theorem nil {temp : List α} : Fill temp.length temp 0 [] := ⟨rfl, by simp, by simp⟩

theorem push {size : Nat} {temp L : List α} {count : Int} (h : Fill size temp count L) (hc : count < size) (v : α) :
    ∃ temp', wr temp count v = .ok temp' ∧ Fill size temp' (count + 1) (L ++ [v]) := by
  obtain ⟨h1, h2, h3⟩ := h
  have hL : L.length < size := by omega
  have hm : min size L.length = L.length := by omega
  rw [hm] at h2 h3
  rw [List.take_of_length_le (l := L) (by omega)] at h3
  refine ⟨_, wr_ok (by omega) (by omega), by simp [h1], by simp; omega, ?_⟩
  have e1 : min size (L ++ [v]).length = L.length + 1 := by simp; omega
  have e2 : count.toNat = L.length := by omega
  rw [e1, List.take_of_length_le (l := L ++ [v]) (by simp; omega), e2, List.take_add_one, List.take_set_of_le (by omega), h3]
  simp [h1, hL]

theorem full {size : Nat} {temp L : List α} {count : Int} (h : Fill size temp count L) (hc : ¬ count < size) (L' : List α) :
    Fill size temp count (L ++ L') := by
  obtain ⟨h1, h2, h3⟩ := h
  have hm : min size L.length = size := by omega
  have hm2 : min size (L ++ L').length = size := by simp; omega
  rw [hm] at h2 h3
  refine ⟨h1, by omega, ?_⟩
  rw [hm2, h3, List.take_append_of_le_length (by omega)]

theorem nonneg {size : Nat} {temp L : List α} {count : Int} (h : Fill size temp count L) : 0 ≤ count := by
  have := h.count; omega

/-- Selecting from the filled part. -/
theorem select {size : Nat} {temp L : List α} {count : Int} (h : Fill size temp count L) :
    ∃ rest, temp = L.take size ++ rest ∧ count = ((L.take size).length : Int) := by
  refine ⟨temp.drop (min size L.length), ?_, ?_⟩
  · conv_lhs => rw [← List.take_append_drop (min size L.length) temp, h.cells]
  · rw [h.count, List.length_take]

end Fill

theorem rd_getElem? {a : List α} {i : Nat} {v : α} (h : a[i]? = some v) : rd a (i : Int) = .ok v :=
  rd_of_getElem? (by omega) (by simpa using h)

namespace TheilSen
variable [Sub α] [Mul α] [Div α] [Neg α]

/-- The slopes as the code computes them. -/
def from' (ne : α → α → Bool) (p : α × α) (qs : List (α × α)) : List α :=
  (qs.filter (fun q => ne q.1 p.1)).map (fun q => (q.2 - p.2) / (q.1 - p.1))

theorem pairLoop_ok (ne : α → α → Bool) (ps : List (α × α)) (xr yr : List α) (size : Nat) (i : Nat) (p : α × α) (hp : ps[i]? = some p)
    (fuel : Nat) (temp L : List α) (count : Int) (j : Nat) (hf : ps.length - j ≤ fuel) (h : Fill size temp count L) :
    ∃ temp' count', pairLoop ne (ps.map Prod.fst ++ xr) (ps.map Prod.snd ++ yr) size i ps.length fuel temp count j = .ok (temp', count') ∧
      Fill size temp' count' (L ++ from' ne p (ps.drop j)) := by
  induction fuel generalizing temp L count j with
  | zero =>
    unfold pairLoop
    rw [if_neg (by omega), List.drop_eq_nil_of_le (by omega)]
    exact ⟨temp, count, rfl, by simpa [from'] using h⟩
  | succ fuel ih =>
    unfold pairLoop
    by_cases hc : count < size ∧ (j : Int) < ps.length
    · rw [if_pos hc]
      have hj : j < ps.length := by omega
      have hi : i < ps.length := (List.getElem?_eq_some_iff.1 hp).1
      have r1 : rd (ps.map Prod.fst ++ xr) (j : Int) = .ok ps[j].1 := rd_getElem? (by simp [List.getElem?_append, hj])
      have r2 : rd (ps.map Prod.snd ++ yr) (j : Int) = .ok ps[j].2 := rd_getElem? (by simp [List.getElem?_append, hj])
      have r3 : rd (ps.map Prod.fst ++ xr) (i : Int) = .ok p.1 := rd_getElem? (by rw [List.getElem?_append_left (by simpa using hi), List.getElem?_map, hp]; rfl)
      have r4 : rd (ps.map Prod.snd ++ yr) (i : Int) = .ok p.2 := rd_getElem? (by rw [List.getElem?_append_left (by simpa using hi), List.getElem?_map, hp]; rfl)
      simp only [r1, r2, r3, r4, bind, Except.bind]
      rw [List.drop_eq_getElem_cons hj]
      by_cases hne : ne ps[j].1 p.1 = true
      · rw [if_pos hne]
        obtain ⟨t1, e1, h1⟩ := h.push hc.1 ((ps[j].2 - p.2) / (ps[j].1 - p.1))
        rw [e1]; simp only
        obtain ⟨t2, c2, e2, h2⟩ := ih t1 _ _ (j + 1) (by omega) h1
        refine ⟨t2, c2, by exact_mod_cast e2, ?_⟩
        simpa [from', List.filter_cons, hne, -List.getElem_cons_drop] using h2
      · rw [if_neg hne]
        obtain ⟨t2, c2, e2, h2⟩ := ih temp _ _ (j + 1) (by omega) h
        refine ⟨t2, c2, by exact_mod_cast e2, ?_⟩
        simpa [from', List.filter_cons, hne, -List.getElem_cons_drop] using h2
    · rw [if_neg hc]
      refine ⟨temp, count, rfl, ?_⟩
      by_cases hc1 : count < size
      · rw [List.drop_eq_nil_of_le (by omega)]; simpa [from'] using h
      · exact h.full hc1 _

/-- All slopes as the code computes them. -/
def all' (ne : α → α → Bool) : List (α × α) → List α
  | [] => []
  | p :: ps => from' ne p ps ++ all' ne ps

theorem slopeLoop_ok (ne : α → α → Bool) (ps : List (α × α)) (xr yr : List α) (size : Nat)
    (fuel : Nat) (temp L : List α) (count : Int) (i : Nat) (hf : ps.length - i ≤ fuel) (h : Fill size temp count L) :
    ∃ temp' count', slopeLoop ne (ps.map Prod.fst ++ xr) (ps.map Prod.snd ++ yr) size ps.length fuel temp count i = .ok (temp', count') ∧
      Fill size temp' count' (L ++ all' ne (ps.drop i)) := by
  induction fuel generalizing temp L count i with
  | zero =>
    unfold slopeLoop
    rw [if_neg (by omega), List.drop_eq_nil_of_le (by omega)]
    exact ⟨temp, count, rfl, by simpa [all'] using h⟩
  | succ fuel ih =>
    unfold slopeLoop
    by_cases hc : count < size ∧ (i : Int) < ps.length
    · rw [if_pos hc]
      have hi : i < ps.length := by omega
      obtain ⟨t1, c1, e1, h1⟩ := pairLoop_ok ne ps xr yr size i ps[i] (List.getElem?_eq_getElem hi) ps.length temp L count (i + 1) (by omega) h
      push_cast at e1
      simp only [Int.toNat_natCast, e1, bind, Except.bind]
      obtain ⟨t2, c2, e2, h2⟩ := ih t1 _ _ (i + 1) (by omega) h1
      refine ⟨t2, c2, by exact_mod_cast e2, ?_⟩
      rw [List.drop_eq_getElem_cons hi, all', ← List.append_assoc]
      exact h2
    · rw [if_neg hc]
      refine ⟨temp, count, rfl, ?_⟩
      by_cases hc1 : count < size
      · rw [List.drop_eq_nil_of_le (by omega)]; simpa [all'] using h
      · exact h.full hc1 _

omit [Div α] [Neg α] in
theorem resLoop_ok (m : α) (ps : List (α × α)) (xr yr : List α) (size : Nat)
    (fuel : Nat) (temp L : List α) (count : Int) (i : Nat) (hf : ps.length - i ≤ fuel) (h : Fill size temp count L) :
    ∃ temp' count', resLoop (ps.map Prod.fst ++ xr) (ps.map Prod.snd ++ yr) m size ps.length fuel temp count i = .ok (temp', count') ∧
      Fill size temp' count' (L ++ (ps.drop i).map (fun p => p.2 - m * p.1)) := by
  induction fuel generalizing temp L count i with
  | zero =>
    unfold resLoop
    rw [if_neg (by omega), List.drop_eq_nil_of_le (by omega)]
    exact ⟨temp, count, rfl, by simpa using h⟩
  | succ fuel ih =>
    unfold resLoop
    by_cases hc : count < size ∧ (i : Int) < ps.length
    · rw [if_pos hc]
      have hi : i < ps.length := by omega
      have r1 : rd (ps.map Prod.fst ++ xr) (i : Int) = .ok ps[i].1 := rd_getElem? (by simp [List.getElem?_append, hi])
      have r2 : rd (ps.map Prod.snd ++ yr) (i : Int) = .ok ps[i].2 := rd_getElem? (by simp [List.getElem?_append, hi])
      obtain ⟨t1, e1, h1⟩ := h.push hc.1 (ps[i].2 - m * ps[i].1)
      simp only [r1, r2, e1, bind, Except.bind]
      obtain ⟨t2, c2, e2, h2⟩ := ih t1 _ _ (i + 1) (by omega) h1
      refine ⟨t2, c2, by exact_mod_cast e2, ?_⟩
      rw [List.drop_eq_getElem_cons hi, List.map_cons]
      simpa using h2
    · rw [if_neg hc]
      refine ⟨temp, count, rfl, ?_⟩
      by_cases hc1 : count < size
      · rw [List.drop_eq_nil_of_le (by omega)]; simpa using h
      · exact h.full hc1 _

end TheilSen

/-- `quick_select(temp, count/2, count)` of a filled work array. -/
theorem Fill.median_any {size : Nat} {temp L : List α} {count : Int} (h : Fill size temp count L) (lt : α → α → Bool)
    (hirr : ∀ x, lt x x = false) (hL : L.take size ≠ []) :
    ∃ temp' y, Quick.quickSelect lt temp (count / 2) count = .ok (temp', y) ∧ temp'.length = size := by
  obtain ⟨rest, rfl, hc⟩ := h.select
  have hpos : 0 < (L.take size).length := List.length_pos_of_ne_nil hL
  obtain ⟨ys, y, e, hp, -⟩ := C13_select_safe lt hirr (L.take size) rest ((L.take size).length / 2) (by omega)
  refine ⟨ys ++ rest, y, ?_, ?_⟩
  · rw [hc]; exact_mod_cast e
  · rw [← h.len]; simp [hp.length_eq]

theorem Fill.median_empty {size : Nat} {temp L : List α} {count : Int} (h : Fill size temp count L) (lt : α → α → Bool)
    (hL : L.take size = []) : Quick.quickSelect lt temp (count / 2) count = .error .assertion := by
  obtain ⟨rest, rfl, hc⟩ := h.select
  apply C12_select_assert
  rw [hL] at hc; left; simpa using hc

theorem select_median {K : Type} [LinearOrder K] (L rest : List K) (hL : L ≠ []) :
    ∃ ys y, Quick.quickSelect (fun a b => decide (a < b)) (L ++ rest) ((L.length : Int) / 2) L.length = .ok (ys ++ rest, y) ∧
      ys.length = L.length ∧ Spec.IsUpperMedian y L := by
  have hpos : 0 < L.length := List.length_pos_of_ne_nil hL
  have p1 := List.mergeSort_perm L (fun a b => decide (a ≤ b))
  have s1 := List.pairwise_mergeSort (le := fun a b : K => decide (a ≤ b)) (by simpa using fun a b c => le_trans)
    (by simpa using le_total) L
  simp only [decide_eq_true_eq] at s1
  obtain ⟨ys, y, e, hp, hz⟩ := C12_select_unique L rest _ p1 s1 (L.length / 2) (by omega)
  exact ⟨ys, y, by exact_mod_cast e, hp.length_eq, _, p1, s1, hz⟩

theorem Fill.median {K : Type} [LinearOrder K] {size : Nat} {temp L : List K} {count : Int} (h : Fill size temp count L)
    (hL : L ≠ []) (hs : L.length ≤ size) :
    ∃ temp' y, Quick.quickSelect (fun a b => decide (a < b)) temp (count / 2) count = .ok (temp', y) ∧ temp'.length = size ∧
      Spec.IsUpperMedian y L := by
  obtain ⟨rest, rfl, hc⟩ := h.select
  rw [List.take_of_length_le hs] at hc
  have hlen := h.len
  rw [List.take_of_length_le hs] at hlen ⊢
  obtain ⟨ys, y, e, hl, hm⟩ := select_median L rest hL
  refine ⟨ys ++ rest, y, ?_, by rw [← hlen]; simp [hl], hm⟩
  rw [hc]; exact e

namespace Spec
variable {K : Type} [LinearOrder K]

/-- A value taken by more than half of the list is its median. -/
theorem IsUpperMedian.majority {v w : K} {L : List K} (h : IsUpperMedian v L) (hw : L.length < 2 * L.count w) : v = w := by
  obtain ⟨zs, hp, hs, hk⟩ := h
  obtain ⟨hb, hv⟩ := List.getElem?_eq_some_iff.1 hk
  have hlen := hp.length_eq
  have hc : zs.count w = L.count w := hp.count_eq w
  have hsplit : zs.count w = (zs.take (L.length / 2)).count w + (zs.drop (L.length / 2)).count w := by
    rw [← List.count_append, List.take_append_drop]
  have hsplit' : zs.drop (L.length / 2) = v :: zs.drop (L.length / 2 + 1) := by
    rw [List.drop_eq_getElem_cons hb, hv]
  rcases lt_trichotomy v w with hlt | heq | hgt
  · have h0 : (zs.take (L.length / 2)).count w = 0 := by
      rw [List.count_eq_zero]
      intro hm
      obtain ⟨i, hi, he⟩ := List.mem_iff_getElem.1 hm
      simp only [List.length_take] at hi
      rw [List.getElem_take] at he
      have := List.pairwise_iff_getElem.1 hs i (L.length / 2) (by omega) hb (by omega)
      rw [he, hv] at this
      exact absurd hlt (not_lt.2 this)
    have h1 : (zs.drop (L.length / 2)).count w = (zs.drop (L.length / 2 + 1)).count w := by
      rw [hsplit', List.count_cons_of_ne (by exact ne_of_lt hlt)]
    have h2 := List.count_le_length (a := w) (l := zs.drop (L.length / 2 + 1))
    simp only [List.length_drop] at h2
    omega
  · exact heq
  · have h0 : (zs.drop (L.length / 2)).count w = 0 := by
      rw [List.count_eq_zero, hsplit']
      intro hm
      rcases List.mem_cons.1 hm with rfl | hm
      · exact lt_irrefl _ hgt
      · obtain ⟨i, hi, he⟩ := List.mem_iff_getElem.1 hm
        simp only [List.length_drop] at hi
        rw [List.getElem_drop] at he
        have := List.pairwise_iff_getElem.1 hs (L.length / 2) (L.length / 2 + 1 + i) hb (by omega) (by omega)
        rw [he, hv] at this
        exact absurd hgt (not_lt.2 this)
    have h2 := List.count_le_length (a := w) (l := zs.take (L.length / 2))
    simp only [List.length_take] at h2
    omega

theorem IsUpperMedian.unique {v w : K} {L : List K} (h : IsUpperMedian v L) (h' : IsUpperMedian w L) : v = w := by
  obtain ⟨zs, hp, hs, hk⟩ := h
  obtain ⟨zs', hp', hs', hk'⟩ := h'
  rw [List.Perm.eq_of_pairwise' (r := fun a b : K => a ≤ b) hs hs' (hp.trans hp'.symm), hk'] at hk
  exact (Option.some.inj hk).symm

end Spec

namespace RepeatedMedian

/-- The values one inner loop collects. -/
def from' (ne : α → α → Bool) (f : α → α → α → α → α) (p : α × α) (qs : List (α × α)) : List α :=
  (qs.filter (fun q => ne q.1 p.1)).map (fun q => f q.2 p.2 q.1 p.1)

theorem innerLoop_ok (ne : α → α → Bool) (f : α → α → α → α → α) (ps : List (α × α)) (xr yr : List α) (size : Nat) (i : Nat)
    (p : α × α) (hp : ps[i]? = some p) (fuel : Nat) (inner L : List α) (count : Int) (j : Nat) (hf : ps.length - j ≤ fuel)
    (h : Fill size inner count L) (hcap : L.length + (from' ne f p (ps.drop j)).length ≤ size) :
    ∃ inner' count', innerLoop ne f (ps.map Prod.fst ++ xr) (ps.map Prod.snd ++ yr) i ps.length fuel inner count j = .ok (inner', count') ∧
      Fill size inner' count' (L ++ from' ne f p (ps.drop j)) := by
  induction fuel generalizing inner L count j with
  | zero =>
    unfold innerLoop
    rw [if_neg (by omega), List.drop_eq_nil_of_le (by omega)]
    exact ⟨inner, count, rfl, by simpa [from'] using h⟩
  | succ fuel ih =>
    unfold innerLoop
    by_cases hc : (j : Int) < ps.length
    · rw [if_pos hc]
      have hj : j < ps.length := by omega
      have hi : i < ps.length := (List.getElem?_eq_some_iff.1 hp).1
      have r1 : rd (ps.map Prod.fst ++ xr) (j : Int) = .ok ps[j].1 := rd_getElem? (by simp [List.getElem?_append, hj])
      have r2 : rd (ps.map Prod.snd ++ yr) (j : Int) = .ok ps[j].2 := rd_getElem? (by simp [List.getElem?_append, hj])
      have r3 : rd (ps.map Prod.fst ++ xr) (i : Int) = .ok p.1 := rd_getElem? (by rw [List.getElem?_append_left (by simpa using hi), List.getElem?_map, hp]; rfl)
      have r4 : rd (ps.map Prod.snd ++ yr) (i : Int) = .ok p.2 := rd_getElem? (by rw [List.getElem?_append_left (by simpa using hi), List.getElem?_map, hp]; rfl)
      simp only [r1, r2, r3, r4, bind, Except.bind]
      rw [List.drop_eq_getElem_cons hj] at hcap ⊢
      by_cases hne : ne ps[j].1 p.1 = true
      · rw [if_pos hne]
        simp only [from', List.filter_cons, hne, if_true, List.map_cons, List.length_cons] at hcap
        obtain ⟨t1, e1, h1⟩ := h.push (by have := h.count; omega) (f ps[j].2 p.2 ps[j].1 p.1)
        rw [e1]; simp only
        obtain ⟨t2, c2, e2, h2⟩ := ih t1 _ _ (j + 1) (by omega) h1 (by simp only [from', List.length_append, List.length_singleton]; omega)
        refine ⟨t2, c2, by exact_mod_cast e2, ?_⟩
        simpa [from', List.filter_cons, hne, -List.getElem_cons_drop] using h2
      · rw [if_neg hne]
        simp only [from', List.filter_cons, hne] at hcap
        obtain ⟨t2, c2, e2, h2⟩ := ih inner _ _ (j + 1) (by omega) h (by simpa [from'] using hcap)
        refine ⟨t2, c2, by exact_mod_cast e2, ?_⟩
        simpa [from', List.filter_cons, hne, -List.getElem_cons_drop] using h2
    · rw [if_neg hc]
      rw [List.drop_eq_nil_of_le (by omega)]
      exact ⟨inner, count, rfl, by simpa [from'] using h⟩

theorem from'_length (ne : α → α → Bool) (hne : ∀ x, ne x x = false) (f : α → α → α → α → α) (p : α × α) (ps : List (α × α))
    (hp : p ∈ ps) : (from' ne f p ps).length < ps.length := by
  rw [from', List.length_map, List.length_filter_lt_length_iff_exists]
  exact ⟨p, hp, by simp [hne]⟩

/-- What the outer loop leaves behind. -/
def Medians [LE α] (ne : α → α → Bool) (f : α → α → α → α → α) (ps : List (α × α)) (ms : List α) : Prop :=
  ∀ (i : Nat) m p, ms[i]? = some m → ps[i]? = some p → Spec.IsUpperMedian m (from' ne f p ps)

theorem outerLoop_ok {K : Type} [LinearOrder K] (ne : K → K → Bool) (hne : ∀ x, ne x x = false) (f : K → K → K → K → K) (ps : List (K × K))
    (xr yr : List K) (size : Nat) (hs : ps.length ≤ size + 1) (hps : ∀ p ∈ ps, from' ne f p ps ≠ [])
    (fuel : Nat) (inner ms r : List K) (hin : inner.length = size) (hr : ps.length ≤ ms.length + r.length) (hms : ms.length ≤ ps.length)
    (hf : ps.length - ms.length ≤ fuel) (hM : Medians ne f ps ms) :
    ∃ inner' ms', outerLoop (fun a b => decide (a < b)) ne f (ps.map Prod.fst ++ xr) (ps.map Prod.snd ++ yr) ps.length fuel inner (ms ++ r)
        (ms.length : Nat) = .ok (inner', ms' ++ r.drop (ps.length - ms.length)) ∧
      inner'.length = size ∧ ms'.length = ps.length ∧ Medians ne f ps ms' := by
  induction fuel generalizing inner ms r with
  | zero =>
    unfold outerLoop
    rw [if_neg (by omega)]
    have : ps.length - ms.length = 0 := by omega
    exact ⟨inner, ms, by rw [this]; rfl, hin, by omega, hM⟩
  | succ fuel ih =>
    unfold outerLoop
    by_cases hc : (ms.length : Int) < ps.length
    · rw [if_pos hc]
      have hi : ms.length < ps.length := by omega
      have hmem : ps[ms.length] ∈ ps := List.getElem_mem hi
      have hlen := from'_length ne hne f ps[ms.length] ps hmem
      subst hin
      obtain ⟨t1, c1, e1, h1⟩ := innerLoop_ok ne f ps xr yr inner.length ms.length ps[ms.length] (List.getElem?_eq_getElem hi) ps.length inner []
        0 0 (by omega) .nil (by simp; omega)
      simp only [List.drop_zero, List.nil_append] at h1
      obtain ⟨t2, m, e2, h2, hm⟩ := h1.median (hps _ hmem) (by omega)
      simp only [Int.toNat_natCast]
      rw [show ((0 : Nat) : Int) = 0 from rfl] at e1
      simp only [e1, e2, bind, Except.bind]
      rw [wr_ok (by omega) (by simp; omega)]
      obtain ⟨a, r', rfl⟩ : ∃ a r', r = a :: r' := by
        cases r with
        | nil => simp at hr; omega
        | cons a r' => exact ⟨a, r', rfl⟩
      have hset : (ms ++ a :: r').set ((ms.length : Int)).toNat m = (ms ++ [m]) ++ r' := by
        rw [Int.toNat_natCast, List.set_append_right _ _ (le_refl _)]; simp
      simp only [hset]
      obtain ⟨t3, ms3, e3, h3, h4, h5⟩ := ih t2 (ms ++ [m]) r' h2 (by simp at hr ⊢; omega) (by simp; omega) (by simp; omega) (by
        intro i m' p' hm' hp'
        by_cases hil : i < ms.length
        · rw [List.getElem?_append_left hil] at hm'
          exact hM i m' p' hm' hp'
        · have : i = ms.length := by
            have := (List.getElem?_eq_some_iff.1 hm').1
            simp at this; omega
          subst this
          rw [List.getElem?_append_right (le_refl _)] at hm'
          simp at hm'
          subst hm'
          rw [List.getElem?_eq_getElem hi] at hp'
          cases hp'
          exact hm)
      refine ⟨t3, ms3, ?_, h3, h4, h5⟩
      have : (a :: r').drop (ps.length - ms.length) = r'.drop (ps.length - (ms ++ [m]).length) := by
        have : ps.length - ms.length = (ps.length - (ms ++ [m]).length) + 1 := by simp; omega
        rw [this, List.drop_succ_cons]
      rw [this, ← e3]
      simp
    · rw [if_neg hc]
      have : ps.length - ms.length = 0 := by omega
      exact ⟨inner, ms, by rw [this]; rfl, hin, by omega, hM⟩

theorem resLoop_ok [Sub α] [Mul α] (ps : List (α × α)) (xr yr : List α) (m : α) (fuel : Nat) (i : Nat) (r : List α)
    (hi : i ≤ ps.length) (hr : ps.length ≤ i + r.length) (hf : ps.length - i ≤ fuel) :
    resLoop (ps.map Prod.fst ++ xr) (ps.map Prod.snd ++ yr) m ps.length fuel ((ps.take i).map (fun p => p.2 - m * p.1) ++ r) i =
      .ok (ps.map (fun p => p.2 - m * p.1) ++ r.drop (ps.length - i)) := by
  induction fuel generalizing i r with
  | zero =>
    unfold resLoop
    have : ps.length - i = 0 := by omega
    rw [if_neg (by omega), this, List.take_of_length_le (by omega)]; rfl
  | succ fuel ih =>
    unfold resLoop
    by_cases hc : (i : Int) < ps.length
    · rw [if_pos hc]
      have hi : i < ps.length := by omega
      have r1 : rd (ps.map Prod.fst ++ xr) (i : Int) = .ok ps[i].1 := rd_getElem? (by simp [List.getElem?_append, hi])
      have r2 : rd (ps.map Prod.snd ++ yr) (i : Int) = .ok ps[i].2 := rd_getElem? (by simp [List.getElem?_append, hi])
      simp only [r1, r2, bind, Except.bind]
      rw [wr_ok (by omega) (by simp; omega)]
      obtain ⟨a, r', rfl⟩ : ∃ a r', r = a :: r' := by
        cases r with
        | nil => simp at hr; omega
        | cons a r' => exact ⟨a, r', rfl⟩
      have hset : ((ps.take i).map (fun p => p.2 - m * p.1) ++ a :: r').set ((i : Int)).toNat (ps[i].2 - m * ps[i].1) =
          (ps.take (i + 1)).map (fun p => p.2 - m * p.1) ++ r' := by
        rw [Int.toNat_natCast, List.set_append_right _ _ (by simp), List.take_succ_eq_append_getElem hi]
        have : i - min i ps.length = 0 := by omega
        rw [List.length_map, List.length_take, this, List.map_append, List.append_assoc]; rfl
      simp only [hset]
      have := ih (i + 1) r' (by omega) (by simp at hr; omega) (by omega)
      push_cast at this
      rw [this]
      have : ps.length - i = (ps.length - (i + 1)) + 1 := by omega
      rw [this, List.drop_succ_cons]
    · rw [if_neg hc]
      have : ps.length - i = 0 := by omega
      rw [this, List.take_of_length_le (by omega)]; rfl

end RepeatedMedian
end DSP
