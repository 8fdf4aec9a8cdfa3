import Verif.Spec.Window

namespace DSP.Spec
variable {α : Type}

theorem window_length (NUM : Nat) (e : α) (h : List α) : (window NUM e h).length = NUM := by
  simp [window, lastN]

theorem window_nil (NUM : Nat) (e : α) : window NUM e [] = List.replicate NUM e := by
  simp [window, lastN]

theorem window_append (NUM : Nat) (hN : 0 < NUM) (e : α) (h : List α) (x : α) :
    window NUM e (h ++ [x]) = (window NUM e h).tail ++ [x] := by
  unfold window lastN
  have h1 : (List.replicate NUM e ++ (h ++ [x])).length - NUM = h.length + 1 := by simp
  have h2 : (List.replicate NUM e ++ h).length - NUM = h.length := by simp
  rw [h1, h2, List.tail_drop, ← List.append_assoc, List.drop_append_of_le_length (by simp; omega)]

/-- The window is some fill values and the real inputs. -/
theorem window_eq (NUM : Nat) (e : α) (h : List α) : window NUM e h = List.replicate (NUM - h.length) e ++ lastN NUM h := by
  unfold window lastN
  have h2 : (List.replicate NUM e ++ h).length - NUM = h.length := by simp
  rw [h2, List.drop_append]
  simp

theorem lastN_append (NUM : Nat) (h : List α) (x : α) (o : α) (w : List α)
    (e : lastN NUM h = o :: w) (hl : (lastN NUM h).length = NUM) : lastN NUM (h ++ [x]) = w ++ [x] := by
  unfold lastN at *
  have h3 : 0 < NUM := by rw [← hl, e]; simp
  have h1 : NUM ≤ h.length := by rw [List.length_drop] at hl; omega
  have h2 : (h ++ [x]).length - NUM = (h.length - NUM) + 1 := by simp; omega
  rw [h2, ← List.drop_drop, List.drop_append_of_le_length (by omega), e]
  simp

end DSP.Spec
