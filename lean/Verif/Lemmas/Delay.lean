import Verif.Model.Delay
import Verif.Model.BipBuffer
import Verif.Lemmas.Base

namespace DSP
variable {α : Type _}

namespace Delay

/-- The ring holds the queue `w`, oldest first. -/
structure Rep (NUM : Nat) (d : Delay α) (w : List α) : Prop where
  num : d.num = NUM
  len : d.buf.length = NUM
  wlen : w.length = NUM
  pos0 : 0 ≤ d.pos
  pos1 : d.pos < NUM
  cells : ∀ j i : Nat, j < NUM → i < NUM → ((i : Int) = d.pos + j ∨ (i : Int) + NUM = d.pos + j) → d.buf[i]? = w[j]?

theorem Rep.init {NUM : Nat} (h : 0 < NUM) (x : α) : Rep NUM (Delay.init NUM x) (List.replicate NUM x) := by
  refine ⟨rfl, by simp [Delay.init], by simp, by simp [Delay.init], by simp [Delay.init]; omega, ?_⟩
  intro j i hj hi _
  simp [Delay.init, hj, hi]

theorem Rep.call {NUM : Nat} {d : Delay α} {w : List α} {y : α} (h : Rep NUM d (y :: w)) (x : α) :
    ∃ d', d.call x = .ok (d', y) ∧ Rep NUM d' (w ++ [x]) := by
  obtain ⟨hn, hlen, hw, hp0, hp1, hcells⟩ := h
  simp only [List.length_cons] at hw
  have h1 : rd d.buf d.pos = .ok y := by
    apply rd_of_getElem? hp0
    rw [hcells 0 _ (by omega) (by omega) (by omega)]; simp
  have h2 : wr d.buf d.pos x = .ok (d.buf.set d.pos.toNat x) := wr_ok hp0 (by omega)
  generalize hP : (if d.pos + 1 ≥ (d.num : Int) then 0 else d.pos + 1) = P
  refine ⟨{ d with buf := d.buf.set d.pos.toNat x, pos := P }, ?_, ?_⟩
  · simp [Delay.call, h1, h2, hP, bind, Except.bind, pure, Except.pure]
  · refine ⟨hn, by simp [hlen], by simp; omega, ?_, ?_, ?_⟩
    · simp only; split at hP <;> omega
    · simp only; split at hP <;> omega
    · intro j i hj hi hij
      simp only at hij
      by_cases hjl : j = w.length
      · have : i = d.pos.toNat := by split at hP <;> omega
        subst this; subst hjl
        simp [hlen, hi]
      · have hne : d.pos.toNat ≠ i := by split at hP <;> omega
        simp only [List.getElem?_set_ne hne]
        rw [List.getElem?_append_left (by omega), hcells (j + 1) i (by omega) hi (by split at hP <;> omega)]
        simp

/-- A queue of fixed length as a machine. -/
def queueStep (w : List α) (x : α) : List α × α := ((w ++ [x]).tail, (w ++ [x]).head (by simp))

theorem outputs_queue (w xs : List α) : outputs queueStep w xs = (w ++ xs).take xs.length := by
  induction xs generalizing w with
  | nil => simp [outputs]
  | cons x xs ih =>
    unfold outputs
    rw [ih]
    cases w <;> simp [queueStep]

theorem sim {NUM : Nat} (hN : 0 < NUM) (d : Delay α) (w : List α) (x : α) (h : Rep NUM d w) :
    ∃ d', d.call x = .ok (d', (queueStep w x).2) ∧ Rep NUM d' (queueStep w x).1 := by
  cases w with
  | nil => have := h.wlen; simp at this; omega
  | cons y w => simpa [queueStep] using h.call x

end Delay

namespace BipBuffer

/-- Both halves hold the window `w`, oldest first, rotated by `r`. -/
structure Rep (NUM : Nat) (b : BipBuffer α) (w : List α) (r : Nat) : Prop where
  num : b.num = NUM
  len : b.buf.length = 2 * NUM
  wlen : w.length = NUM
  rlt : r < NUM
  pos : (b.pos0 = r ∧ b.pos1 = r + NUM) ∨ (b.pos1 = r ∧ b.pos0 = r + NUM)
  dup : ∀ i : Nat, i < NUM → b.buf[i]? = b.buf[i + NUM]?
  cells : ∀ j : Nat, j < NUM → b.buf[r + j]? = w[j]?

theorem Rep.init {NUM : Nat} (h : 0 < NUM) (x : α) : Rep NUM (BipBuffer.init NUM x) (List.replicate NUM x) 0 := by
  refine ⟨rfl, by simp [BipBuffer.init], by simp, h, .inl (by simp [BipBuffer.init]), ?_, ?_⟩
  · intro i hi
    simp only [BipBuffer.init, List.getElem?_replicate]
    rw [if_pos (by omega), if_pos (by omega)]
  · intro i hi
    simp only [BipBuffer.init, List.getElem?_replicate]
    rw [if_pos (by omega), if_pos (by omega)]

theorem Rep.put {NUM : Nat} {b : BipBuffer α} {w : List α} {r : Nat} (h : Rep NUM b w r) (x : α) :
    ∃ b' r', b.put x = .ok b' ∧ Rep NUM b' (w.tail ++ [x]) r' := by
  obtain ⟨hn, hlen, hw, hr, hp, hdup, hcells⟩ := h
  generalize hP0 : (if b.pos0 + 1 ≥ 2 * (b.num : Int) then 0 else b.pos0 + 1) = P0
  generalize hP1 : (if b.pos1 + 1 ≥ 2 * (b.num : Int) then 0 else b.pos1 + 1) = P1
  have hw1 : wr b.buf b.pos1 x = .ok (b.buf.set b.pos1.toNat x) := wr_ok (by omega) (by omega)
  have hw2 : wr (b.buf.set b.pos1.toNat x) b.pos0 x = .ok ((b.buf.set b.pos1.toNat x).set b.pos0.toNat x) :=
    wr_ok (by omega) (by simp; omega)
  have hset : ((b.buf.set b.pos1.toNat x).set b.pos0.toNat x) = (b.buf.set r x).set (r + NUM) x := by
    rcases hp with ⟨h0, h1⟩ | ⟨h1, h0⟩
    · rw [List.set_comm _ _ (by omega)]; congr 2 <;> omega
    · congr 2 <;> omega
  rw [hset] at hw2
  have hget : ∀ i : Nat, i < 2 * NUM → ((b.buf.set r x).set (r + NUM) x)[i]? =
      if i = r ∨ i = r + NUM then some x else b.buf[i]? := by
    intro i hi
    simp only [List.getElem?_set, List.length_set, hlen]
    by_cases h1 : r + NUM = i
    · simp [h1, hi]
    · by_cases h2 : r = i
      · subst h2; simp [hi]; omega
      · simp [h1, h2, Ne.symm h1, Ne.symm h2]
  refine ⟨{ b with buf := (b.buf.set r x).set (r + NUM) x, pos0 := P0, pos1 := P1 },
    if r + 1 < NUM then r + 1 else 0, ?_, hn, by simp [hlen], by simp; omega, by split <;> omega, ?_, ?_, ?_⟩
  · simp [BipBuffer.put, hw1, hw2, hP0, hP1, bind, Except.bind, pure, Except.pure]
  · simp only
    split at hP0 <;> split at hP1 <;> split <;> omega
  · intro i hi
    simp only
    rw [hget i (by omega), hget (i + NUM) (by omega), hdup i hi]
    have : (i = r ∨ i = r + NUM) ↔ (i + NUM = r ∨ i + NUM = r + NUM) := by omega
    simp only [this]
  · intro j hj
    simp only
    rw [hget _ (by split <;> omega)]
    by_cases hj' : j = NUM - 1
    · rw [if_pos (by split <;> omega)]
      have : j = w.tail.length := by simp; omega
      rw [this]; simp
    · rw [if_neg (by split <;> omega), List.getElem?_append_left (by simp; omega), List.getElem?_tail,
        ← hcells (j + 1) (by omega)]
      split
      · congr 1; omega
      · have := hdup j hj
        have e : r + (j + 1) = j + NUM := by omega
        rw [e, ← this]; simp

theorem readN_ok (buf : List α) (n p : Nat) (h : p + n ≤ buf.length) :
    readN buf n p = .ok ((buf.drop p).take n) := by
  induction n generalizing p with
  | zero => simp [readN, pure, Except.pure]
  | succ n ih =>
    have h1 : rd buf (p : Int) = .ok buf[p] := rd_nat (by omega)
    have h2 := ih (p + 1) (by omega)
    rw [Int.natCast_add] at h2
    simp only [readN, h1, bind, Except.bind, pure, Except.pure]
    rw [show ((p : Int) + 1) = (p : Int) + ((1 : Nat) : Int) from rfl, h2]
    rw [List.drop_eq_getElem_cons (show p < buf.length by omega), List.take_succ_cons]

theorem Rep.read {NUM : Nat} {b : BipBuffer α} {w : List α} {r : Nat} (h : Rep NUM b w r) :
    readN b.buf b.num b.ptr = .ok w := by
  obtain ⟨hn, hlen, hw, hr, hp, hdup, hcells⟩ := h
  have : b.ptr = (r : Int) := by unfold ptr; omega
  rw [this, hn, readN_ok _ _ _ (by omega)]
  congr 1
  apply List.ext_getElem?
  intro j
  by_cases hj : j < NUM
  · rw [List.getElem?_take_of_lt hj, List.getElem?_drop, hcells j hj]
  · rw [List.getElem?_eq_none (by simp; omega), List.getElem?_eq_none (by omega)]

end BipBuffer
end DSP
