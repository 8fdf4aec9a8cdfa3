import Verif.Model.Stack
import Verif.Lemmas.Base

namespace DSP.Stack
variable {α : Type _}

/-- `s` represents the list `l` (newest first). -/
structure Rep (SIZE : Nat) (s : Stack α) (l : List α) : Prop where
  size : s.size = SIZE
  len : s.buf.length = SIZE
  pos : s.pos = (l.length : Int) - 1
  cap : l.length ≤ SIZE
  cells : s.buf.take l.length = l.reverse

theorem Rep.init {SIZE : Nat} {junk : List α} (h : junk.length = SIZE) : Rep SIZE (init SIZE junk) [] :=
  ⟨rfl, h, rfl, by simp, by simp⟩

theorem Rep.getElem? {SIZE : Nat} {s : Stack α} {l : List α} (h : Rep SIZE s l) {j : Nat} (hj : j < l.length) :
    s.buf[j]? = l[l.length - 1 - j]? := by
  have := congrArg (fun x => x[j]?) h.cells
  simp only [List.getElem?_take, hj, if_true] at this
  rw [this, List.getElem?_reverse hj]

theorem Rep.clear {SIZE : Nat} {s : Stack α} {l : List α} (h : Rep SIZE s l) : Rep SIZE s.clear [] :=
  ⟨h.size, h.len, rfl, by simp, by simp⟩

theorem Rep.push_ok {SIZE : Nat} {s : Stack α} {l : List α} (h : Rep SIZE s l) (x : α) (hl : l.length < SIZE) :
    ∃ s', s.push x = .ok s' ∧ Rep SIZE s' (x :: l) := by
  have hp := h.pos
  have h1 : wr s.buf (s.pos + 1) x = .ok (s.buf.set l.length x) := by
    rw [wr_ok (by omega) (by rw [h.len]; omega)]; congr; omega
  refine ⟨{ s with buf := s.buf.set l.length x, pos := s.pos + 1 }, ?_, ?_⟩
  · have : s.pos < (s.size : Int) - 1 := by rw [h.size]; omega
    simp [push, this, h1, bind, Except.bind, pure, Except.pure]
  · refine ⟨h.size, by simp [h.len], by simp; omega, by simp; omega, ?_⟩
    simp only [List.length_cons, List.reverse_cons]
    rw [List.take_add_one, List.take_set_of_le (by omega), h.cells]
    simp [h.len, hl]

theorem Rep.push_fail {SIZE : Nat} {s : Stack α} {l : List α} (h : Rep SIZE s l) (x : α) (hl : ¬ l.length < SIZE) :
    s.push x = .error .assertion := by
  have hp := h.pos
  have : ¬ s.pos < (s.size : Int) - 1 := by rw [h.size]; omega
  simp [push, this, bind, Except.bind]

theorem Rep.pop_ok {SIZE : Nat} {s : Stack α} {l : List α} {x : α} (h : Rep SIZE s (x :: l)) :
    ∃ s', s.pop = .ok s' ∧ Rep SIZE s' l := by
  have hp := h.pos
  simp only [List.length_cons] at hp
  refine ⟨{ s with pos := s.pos - 1 }, ?_, h.size, h.len, by simp; omega, ?_, ?_⟩
  · have : 0 ≤ s.pos := by omega
    simp [pop, this, bind, Except.bind, pure, Except.pure]
  · have := h.cap; simp at this; omega
  · have := congrArg (List.take l.length) h.cells
    simpa [List.take_take, List.take_append] using this

theorem Rep.top_ok {SIZE : Nat} {s : Stack α} {l : List α} {x : α} (h : Rep SIZE s (x :: l)) :
    s.top = .ok x := by
  have hp := h.pos
  simp only [List.length_cons] at hp
  have h0 : 0 ≤ s.pos := by omega
  have : rd s.buf s.pos = .ok x := by
    apply rd_of_getElem? h0
    have e : s.pos.toNat = l.length := by omega
    rw [e, h.getElem? (by simp)]; simp
  simp [top, h0, this, bind, Except.bind]

theorem Rep.first_ok {SIZE : Nat} {s : Stack α} {l : List α} {x : α} (h : Rep SIZE s l)
    (hx : l.getLast? = some x) : s.first = .ok x := by
  have hp := h.pos
  have hl : 0 < l.length := by cases l <;> simp_all
  have h0 : 0 ≤ s.pos := by omega
  have : rd s.buf 0 = .ok x := by
    apply rd_of_getElem? (by omega)
    rw [Int.toNat_zero, h.getElem? hl, ← hx, List.getLast?_eq_getElem?]; simp
  simp [first, h0, this, bind, Except.bind]

theorem Rep.empty_fail {SIZE : Nat} {s : Stack α} (h : Rep SIZE s ([] : List α)) :
    s.pop = .error .assertion ∧ s.top = .error .assertion ∧ s.first = .error .assertion := by
  have hp := h.pos
  simp at hp
  simp [pop, top, first, hp, bind, Except.bind]

theorem Rep.empty {SIZE : Nat} {s : Stack α} {l : List α} (h : Rep SIZE s l) : s.empty = l.isEmpty := by
  have hp := h.pos
  cases l with
  | nil => simp at hp; simp [Stack.empty, hp]
  | cons a l => simp only [List.length_cons] at hp; simp [Stack.empty]; omega

theorem sim {SIZE : Nat} (s : Stack α) (l : List α) (op : Spec.StackOp α) (h : Rep SIZE s l) :
    Sim (Rep SIZE) (Spec.stackStep SIZE l op) (s.call op) := by
  unfold Sim
  cases op with
  | push x =>
    simp only [Spec.stackStep]
    split
    · rename_i e
      split at e
      · simp at e
      · rename_i hl; cases e; simp [call, h.push_fail x hl, bind, Except.bind]
    · rename_i e
      split at e
      · rename_i hl; cases e; obtain ⟨s', e, r⟩ := h.push_ok x hl
        exact ⟨s', by simp [call, e, bind, Except.bind, pure, Except.pure], r⟩
      · simp at e
  | pop =>
    cases l with
    | nil => simp [Spec.stackStep, call, h.empty_fail.1, bind, Except.bind]
    | cons a l =>
      obtain ⟨s', e, r⟩ := h.pop_ok
      exact ⟨s', by simp [call, e, bind, Except.bind, pure, Except.pure], r⟩
  | top =>
    cases l with
    | nil => simp [Spec.stackStep, call, h.empty_fail.2.1, bind, Except.bind]
    | cons a l => exact ⟨s, by simp [call, h.top_ok, bind, Except.bind, pure, Except.pure], h⟩
  | first =>
    cases hl : l.getLast? with
    | none =>
      have : l = [] := by simpa using hl
      subst this
      simp [Spec.stackStep, call, h.empty_fail.2.2, bind, Except.bind]
    | some x =>
      simp only [Spec.stackStep, hl]
      exact ⟨s, by simp [call, h.first_ok hl, bind, Except.bind, pure, Except.pure], h⟩
  | clear => exact ⟨_, rfl, h.clear⟩
  | empty => exact ⟨s, by simp [call, h.empty, pure, Except.pure], h⟩
  | full =>
    refine ⟨s, ?_, h⟩
    have hp := h.pos
    have : (s.pos == (s.size : Int) - 1) = (l.length == SIZE) := by
      rw [Bool.eq_iff_iff]; simp [h.size, hp]; omega
    simp [call, Stack.full, pure, Except.pure, this]
  | size =>
    refine ⟨s, ?_, h⟩
    have hp := h.pos
    simp [call, Stack.count, pure, Except.pure, hp]
  | maxSize => exact ⟨s, by simp [call, Stack.maxSize, pure, Except.pure, h.size], h⟩

end DSP.Stack
