import Verif.Lemmas.Stack
import Verif.Lemmas.Deque
import Verif.Lemmas.Delay

/-! Properties C01 to C04: the containers. -/

namespace DSP
variable {α : Type _}

/-- **C01.** Every call sequence on a fresh `Stack` gives the answers (and the assertion failures) of a bounded list,
whatever the uninitialised buffer held; no access is out of bounds. -/
theorem C01_stack (SIZE : Nat) (junk : List α) (hj : junk.length = SIZE) (ops : List (Spec.StackOp α)) :
    trace Stack.call (Stack.init SIZE junk) ops = trace (Spec.stackStep SIZE) [] ops :=
  trace_eq_of_sim (Stack.Rep SIZE) Stack.sim (Stack.Rep.init hj) ops

example : trace Stack.call (Stack.init 2 [7, 7])
    [.push 1, .push 2, .full, .first, .top, .pop, .top, .size, .push 3, .push 4, .top] =
    ([.unit, .unit, .bool true, .val 1, .val 2, .unit, .val 1, .int 1, .unit], some .assertion) := by
  decide

/-- **C02.** Every call sequence on a fresh `Deque` gives the answers (and the assertion failures) of a bounded list,
whatever the uninitialised buffer held; no access is out of bounds. -/
theorem C02_deque (SIZE : Nat) (hS : 0 < SIZE) (junk : List α) (hj : junk.length = SIZE)
    (ops : List (Spec.DequeOp α)) :
    trace Deque.call (Deque.init SIZE junk) ops = trace (Spec.dequeStep SIZE) [] ops :=
  trace_eq_of_sim (Deque.Rep SIZE) Deque.sim (Deque.Rep.init hS hj) ops

example : trace Deque.call (Deque.init 3 [9, 9, 9])
    [.pushBack 1, .pushBack 2, .pushFront 0, .full, .front, .back, .popBack, .popFront, .front, .back, .popBack, .back] =
    ([.unit, .unit, .unit, .bool true, .val 0, .val 2, .unit, .unit, .val 1, .val 1, .unit], some .assertion) := by
  decide

/-- **C03.** `Delay` outputs its initial value `NUM` times and then the inputs in order; it never leaves its buffer. -/
theorem C03_delay (NUM : Nat) (hN : 0 < NUM) (x0 : α) (xs : List α) :
    trace Delay.call (Delay.init NUM x0) xs = ((List.replicate NUM x0 ++ xs).take xs.length, none) := by
  rw [trace_eq_outputs (Delay.Rep NUM) (Delay.sim hN) (Delay.Rep.init hN x0), Delay.outputs_queue]

/-- **C03**, sample by sample. -/
theorem C03_delay_sample (NUM : Nat) (hN : 0 < NUM) (x0 : α) (xs : List α) (n : Nat) (hn : n < xs.length) :
    (trace Delay.call (Delay.init NUM x0) xs).1[n]? = if n < NUM then some x0 else xs[n - NUM]? := by
  rw [C03_delay NUM hN]
  simp only [List.getElem?_take, hn, if_true]
  split
  · rename_i h; rw [List.getElem?_append_left (by simpa using h)]; simp [h]
  · rename_i h; rw [List.getElem?_append_right (by simp; omega)]; simp

example : trace Delay.call (Delay.init 2 0) [1, 2, 3, 4, 5] = ([0, 0, 1, 2, 3], none) := by decide

/-- The inputs among the first `k+1` calls of a `BipBuffer`. -/
def Spec.inputsUpTo (calls : List (Option α)) (k : Nat) : List α := (calls.take (k + 1)).filterMap id

theorem BipBuffer.trace_aux {NUM : Nat} (calls : List (Option α)) (b : BipBuffer α) (w : List α) (r : Nat)
    (h : BipBuffer.Rep NUM b w r) :
    trace BipBuffer.call b calls =
      ((List.range calls.length).map (fun k => (w ++ Spec.inputsUpTo calls k).drop (Spec.inputsUpTo calls k).length),
        none) := by
  induction calls generalizing b w r with
  | nil => rfl
  | cons c cs ih =>
    have key : ∃ b' r', BipBuffer.call b c = .ok (b', (w ++ c.toList).drop c.toList.length) ∧
        BipBuffer.Rep NUM b' ((w ++ c.toList).drop c.toList.length) r' := by
      cases c with
      | none => exact ⟨b, r, by simp [call, h.read, bind, Except.bind, pure, Except.pure], by simpa using h⟩
      | some x =>
        obtain ⟨b', r', e, h'⟩ := h.put x
        have hw := h.wlen
        have hr := h.rlt
        have e2 : (w ++ [x]).drop 1 = w.tail ++ [x] := by cases w <;> simp at hw ⊢; omega
        refine ⟨b', r', ?_, ?_⟩
        · simp only [call, e, bind, Except.bind, pure, Except.pure, h'.read, Option.toList_some, List.length_cons,
            List.length_nil, Nat.zero_add, e2]
        · simpa [e2] using h'
    obtain ⟨b', r', e, h'⟩ := key
    unfold trace
    rw [e]
    simp only [ih b' _ r' h', List.length_cons, List.range_succ_eq_map, List.map_cons, List.map_map, Prod.mk.injEq,
      and_true, List.cons.injEq]
    constructor
    · cases c <;> simp [Spec.inputsUpTo]
    · apply List.map_congr_left
      intro k hk
      have : Spec.inputsUpTo (c :: cs) (k + 1) = c.toList ++ Spec.inputsUpTo cs k := by
        cases c <;> simp [Spec.inputsUpTo]
      simp only [Function.comp, Nat.succ_eq_add_one, this]
      rw [List.length_append, ← List.drop_drop, ← List.append_assoc, List.drop_append (l₁ := w ++ c.toList)]
      have : c.toList.length - (w ++ c.toList).length = 0 := by simp
      rw [this, List.drop_zero]

/-- **C04.** After any mix of `operator () ()` and `operator () (input)` calls, the `NUM` cells behind the returned
pointer are in bounds and hold the last `NUM` inputs (preceded by zeros), oldest first. -/
theorem C04_bip_buffer (NUM : Nat) (hN : 0 < NUM) (zero : α) (calls : List (Option α)) :
    trace BipBuffer.call (BipBuffer.init NUM zero) calls =
      ((List.range calls.length).map (fun k =>
        let seen := Spec.inputsUpTo calls k
        (List.replicate NUM zero ++ seen).drop seen.length), none) :=
  BipBuffer.trace_aux calls _ _ 0 (BipBuffer.Rep.init hN zero)

/-- **C04**: the newest value is the last of the `NUM` cells. -/
theorem C04_newest_last (NUM : Nat) (hN : 0 < NUM) (zero x : α) (xs : List α) :
    ∃ b v, trace BipBuffer.call (BipBuffer.init NUM zero) ((xs ++ [x]).map some) = (b ++ [v], none) ∧
      v.length = NUM ∧ v.getLast? = some x := by
  rw [C04_bip_buffer NUM hN]
  rw [List.length_map, List.length_append, List.length_singleton, List.range_succ, List.map_append, List.map_singleton]
  refine ⟨_, _, rfl, ?_⟩
  · have hs : Spec.inputsUpTo ((xs ++ [x]).map some) xs.length = xs ++ [x] := by
      unfold Spec.inputsUpTo
      rw [List.take_of_length_le (by simp)]
      simp [List.filterMap_map]
    simp only [hs]
    constructor
    · simp
    · rw [List.getLast?_drop, if_neg (by simp; omega), ← List.append_assoc, List.getLast?_append]; simp

example : trace BipBuffer.call (BipBuffer.init 3 0) [some 1, some 2, none, some 3, some 4, some 5] =
    ([[0, 0, 1], [0, 1, 2], [0, 1, 2], [1, 2, 3], [2, 3, 4], [3, 4, 5]], none) := by decide

end DSP
