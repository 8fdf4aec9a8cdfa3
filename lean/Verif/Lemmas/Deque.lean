import Verif.Model.Deque
import Verif.Lemmas.Base

namespace DSP.Deque
variable {α : Type _}

/-- `d` represents the list `l` (front first). -/
structure Rep (SIZE : Nat) (d : Deque α) (l : List α) : Prop where
  size : d.size = SIZE
  len : d.buf.length = SIZE
  head0 : 0 ≤ d.head
  head1 : d.head < SIZE
  tail0 : 0 ≤ d.tail
  tail1 : d.tail < SIZE
  count : d.count = l.length
  cap : l.length ≤ SIZE
  link : d.tail + l.length = d.head + 1 ∨ d.tail + l.length = d.head + 1 + SIZE ∨
    d.tail + l.length + SIZE = d.head + 1
  cells : ∀ j i : Nat, j < l.length → i < SIZE → ((i : Int) = d.head - j ∨ (i : Int) = d.head - j + SIZE) →
    d.buf[i]? = l[j]?

theorem Rep.init {SIZE : Nat} {junk : List α} (hS : 0 < SIZE) (h : junk.length = SIZE) :
    Rep SIZE (init SIZE junk) [] := by
  refine ⟨rfl, h, ?_, ?_, ?_, ?_, rfl, ?_, ?_, ?_⟩ <;> simp only [Deque.init, List.length_nil] <;> first | omega | (intros; omega)

theorem Rep.clear {SIZE : Nat} {d : Deque α} {l : List α} (h : Rep SIZE d l) : Rep SIZE d.clear [] := by
  have := h.head0; have := h.head1
  refine ⟨h.size, h.len, ?_, ?_, ?_, ?_, rfl, ?_, ?_, ?_⟩ <;> simp only [Deque.clear, List.length_nil, h.size] <;>
    first | omega | (intros; omega)

theorem Rep.pushFront_ok {SIZE : Nat} {d : Deque α} {l : List α} (h : Rep SIZE d l) (x : α) (hl : l.length < SIZE) :
    ∃ d', d.pushFront x = .ok d' ∧ Rep SIZE d' (x :: l) := by
  obtain ⟨hs, hlen, hh0, hh1, ht0, ht1, hc, hcap, hlink, hcells⟩ := h
  have hcnt : d.count < (d.size : Int) := by omega
  generalize hH : (if d.head + 1 ≥ (d.size : Int) then 0 else d.head + 1) = H
  have H0 : 0 ≤ H := by split at hH <;> omega
  have H1 : H < SIZE := by split at hH <;> omega
  have hw : wr d.buf H x = .ok (d.buf.set H.toNat x) := wr_ok H0 (by omega)
  refine ⟨{ d with buf := d.buf.set H.toNat x, head := H, count := d.count + 1 }, ?_, ?_⟩
  · simp [Deque.pushFront, hcnt, bind, Except.bind, pure, Except.pure, hH, hw]
  · refine ⟨hs, by simp [hlen], H0, H1, ht0, ht1, by simp [hc], by simp; omega, ?_, ?_⟩
    · simp only [List.length_cons]; split at hH <;> omega
    · intro j i hj hi hij
      simp only [List.length_cons] at hj hij
      cases j with
      | zero =>
        have : i = H.toNat := by omega
        subst this
        simp [hlen, hi]
      | succ j =>
        have hne : H.toNat ≠ i := by omega
        simp only [List.getElem?_set_ne hne, List.getElem?_cons_succ]
        refine hcells j i (by omega) hi ?_
        split at hH <;> omega

theorem Rep.pushBack_ok {SIZE : Nat} {d : Deque α} {l : List α} (h : Rep SIZE d l) (x : α) (hl : l.length < SIZE) :
    ∃ d', d.pushBack x = .ok d' ∧ Rep SIZE d' (l ++ [x]) := by
  obtain ⟨hs, hlen, hh0, hh1, ht0, ht1, hc, hcap, hlink, hcells⟩ := h
  have hcnt : d.count < (d.size : Int) := by omega
  generalize hT : (if d.tail - 1 < 0 then (d.size : Int) - 1 else d.tail - 1) = T
  have T0 : 0 ≤ T := by split at hT <;> omega
  have T1 : T < SIZE := by split at hT <;> omega
  have hw : wr d.buf T x = .ok (d.buf.set T.toNat x) := wr_ok T0 (by omega)
  refine ⟨{ d with buf := d.buf.set T.toNat x, tail := T, count := d.count + 1 }, ?_, ?_⟩
  · simp [Deque.pushBack, hcnt, bind, Except.bind, pure, Except.pure, hT, hw]
  · refine ⟨hs, by simp [hlen], hh0, hh1, T0, T1, by simp [hc], by simp; omega, ?_, ?_⟩
    · simp only [List.length_append, List.length_cons, List.length_nil]; split at hT <;> omega
    · intro j i hj hi hij
      simp only [List.length_append, List.length_cons, List.length_nil] at hj hij
      by_cases hjl : j = l.length
      · have : i = T.toNat := by split at hT <;> omega
        subst this
        subst hjl
        simp [hlen, hi]
      · have hne : T.toNat ≠ i := by split at hT <;> omega
        simp only [List.getElem?_set_ne hne]
        rw [List.getElem?_append_left (by omega)]
        exact hcells j i (by omega) hi hij

theorem Rep.push_fail {SIZE : Nat} {d : Deque α} {l : List α} (h : Rep SIZE d l) (x : α) (hl : ¬ l.length < SIZE) :
    d.pushFront x = .error .assertion ∧ d.pushBack x = .error .assertion := by
  have : ¬ d.count < (d.size : Int) := by rw [h.size, h.count]; omega
  simp [pushFront, pushBack, this, bind, Except.bind]

theorem Rep.popFront_ok {SIZE : Nat} {d : Deque α} {l : List α} {x : α} (h : Rep SIZE d (x :: l)) :
    ∃ d', d.popFront = .ok d' ∧ Rep SIZE d' l := by
  obtain ⟨hs, hlen, hh0, hh1, ht0, ht1, hc, hcap, hlink, hcells⟩ := h
  simp only [List.length_cons] at *
  have hcnt : 0 < d.count := by omega
  generalize hH : (if d.head - 1 < 0 then (d.size : Int) - 1 else d.head - 1) = H
  refine ⟨{ d with head := H, count := d.count - 1 }, ?_, ?_⟩
  · simp [Deque.popFront, hcnt, bind, Except.bind, pure, Except.pure, hH]
  · refine ⟨hs, hlen, ?_, ?_, ht0, ht1, by simp [hc], by omega, ?_, ?_⟩
    · simp only; split at hH <;> omega
    · simp only; split at hH <;> omega
    · simp only; split at hH <;> omega
    · intro j i hj hi hij
      simp only at hij ⊢
      rw [hcells (j + 1) i (by omega) hi (by split at hH <;> omega)]
      simp

theorem Rep.popBack_ok {SIZE : Nat} {d : Deque α} {l : List α} (h : Rep SIZE d l) (hl : l ≠ []) :
    ∃ d', d.popBack = .ok d' ∧ Rep SIZE d' l.dropLast := by
  obtain ⟨hs, hlen, hh0, hh1, ht0, ht1, hc, hcap, hlink, hcells⟩ := h
  have hl0 : 0 < l.length := List.length_pos_iff.2 hl
  have hcnt : 0 < d.count := by omega
  generalize hT : (if d.tail + 1 ≥ (d.size : Int) then 0 else d.tail + 1) = T
  refine ⟨{ d with tail := T, count := d.count - 1 }, ?_, ?_⟩
  · simp [Deque.popBack, hcnt, bind, Except.bind, pure, Except.pure, hT]
  · refine ⟨hs, hlen, hh0, hh1, ?_, ?_, ?_, ?_, ?_, ?_⟩
    · simp only; split at hT <;> omega
    · simp only; split at hT <;> omega
    · simp only [List.length_dropLast]; omega
    · simp only [List.length_dropLast]; omega
    · simp only [List.length_dropLast]; split at hT <;> omega
    · intro j i hj hi hij
      simp only [List.length_dropLast] at hj
      rw [List.getElem?_dropLast, if_pos hj]
      exact hcells j i (by omega) hi hij

theorem Rep.front_ok {SIZE : Nat} {d : Deque α} {l : List α} {x : α} (h : Rep SIZE d l) (hx : l.head? = some x) :
    d.front = .ok x := by
  obtain ⟨hs, hlen, hh0, hh1, ht0, ht1, hc, hcap, hlink, hcells⟩ := h
  have hl0 : 0 < l.length := by cases l <;> simp_all
  have hcnt : 0 < d.count := by omega
  have : rd d.buf d.head = .ok x := by
    apply rd_of_getElem? hh0
    rw [hcells 0 _ hl0 (by omega) (by omega), ← hx, List.head?_eq_getElem?]
  simp [front, hcnt, this, bind, Except.bind]

theorem Rep.back_ok {SIZE : Nat} {d : Deque α} {l : List α} {x : α} (h : Rep SIZE d l) (hx : l.getLast? = some x) :
    d.back = .ok x := by
  obtain ⟨hs, hlen, hh0, hh1, ht0, ht1, hc, hcap, hlink, hcells⟩ := h
  have hl0 : 0 < l.length := by cases l <;> simp_all
  have hcnt : 0 < d.count := by omega
  have : rd d.buf d.tail = .ok x := by
    apply rd_of_getElem? ht0
    rw [hcells (l.length - 1) _ (by omega) (by omega) (by omega), ← hx, List.getLast?_eq_getElem?]
  simp [back, hcnt, this, bind, Except.bind]

theorem Rep.empty_fail {SIZE : Nat} {d : Deque α} (h : Rep SIZE d ([] : List α)) :
    d.popFront = .error .assertion ∧ d.popBack = .error .assertion ∧
    d.front = .error .assertion ∧ d.back = .error .assertion := by
  have hp : d.count = 0 := by simpa using h.count
  simp [popFront, popBack, front, back, hp, bind, Except.bind]

theorem sim {SIZE : Nat} (d : Deque α) (l : List α) (op : Spec.DequeOp α) (h : Rep SIZE d l) :
    Sim (Rep SIZE) (Spec.dequeStep SIZE l op) (d.call op) := by
  unfold Sim
  cases op with
  | pushFront x =>
    by_cases hl : l.length < SIZE
    · obtain ⟨s', e, r⟩ := h.pushFront_ok x hl
      simp only [Spec.dequeStep, hl, if_true]
      exact ⟨s', by simp [call, e, bind, Except.bind, pure, Except.pure], r⟩
    · simp [Spec.dequeStep, hl, call, (h.push_fail x hl).1, bind, Except.bind]
  | pushBack x =>
    by_cases hl : l.length < SIZE
    · obtain ⟨s', e, r⟩ := h.pushBack_ok x hl
      simp only [Spec.dequeStep, hl, if_true]
      exact ⟨s', by simp [call, e, bind, Except.bind, pure, Except.pure], r⟩
    · simp [Spec.dequeStep, hl, call, (h.push_fail x hl).2, bind, Except.bind]
  | popFront =>
    cases l with
    | nil => simp [Spec.dequeStep, call, h.empty_fail.1, bind, Except.bind]
    | cons a l =>
      obtain ⟨s', e, r⟩ := h.popFront_ok
      exact ⟨s', by simp [call, e, bind, Except.bind, pure, Except.pure], r⟩
  | popBack =>
    cases l with
    | nil => simp [Spec.dequeStep, call, h.empty_fail.2.1, bind, Except.bind]
    | cons a l =>
      obtain ⟨s', e, r⟩ := h.popBack_ok (by simp)
      exact ⟨s', by simp [call, e, bind, Except.bind, pure, Except.pure], r⟩
  | front =>
    cases hl : l.head? with
    | none =>
      have : l = [] := by simpa using hl
      subst this
      simp [Spec.dequeStep, call, h.empty_fail.2.2.1, bind, Except.bind]
    | some x =>
      simp only [Spec.dequeStep, hl]
      exact ⟨d, by simp [call, h.front_ok hl, bind, Except.bind, pure, Except.pure], h⟩
  | back =>
    cases hl : l.getLast? with
    | none =>
      have : l = [] := by simpa using hl
      subst this
      simp [Spec.dequeStep, call, h.empty_fail.2.2.2, bind, Except.bind]
    | some x =>
      simp only [Spec.dequeStep, hl]
      exact ⟨d, by simp [call, h.back_ok hl, bind, Except.bind, pure, Except.pure], h⟩
  | clear => exact ⟨_, rfl, h.clear⟩
  | empty =>
    refine ⟨d, ?_, h⟩
    have : (d.count == 0) = l.isEmpty := by rw [h.count]; cases l <;> simp; omega
    simp [call, Deque.empty, pure, Except.pure, this]
  | full =>
    refine ⟨d, ?_, h⟩
    have : (d.count == (d.size : Int)) = (l.length == SIZE) := by
      rw [Bool.eq_iff_iff]; simp [h.size, h.count]; omega
    simp [call, Deque.full, pure, Except.pure, this]
  | size => exact ⟨d, by simp [call, Deque.length, pure, Except.pure, h.count], h⟩
  | maxSize => exact ⟨d, by simp [call, Deque.maxSize, pure, Except.pure, h.size], h⟩

end DSP.Deque
