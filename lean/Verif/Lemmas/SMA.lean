import Verif.Lemmas.SWA
import Verif.Lemmas.Window
import Verif.Props.Kahan

namespace DSP
variable {α : Type}
open Spec (window)

/-- The delay line holds the window. -/
theorem Delay.Rep.step {NUM : Nat} (hN : 0 < NUM) {e : α} {d : Delay α} {h : List α}
    (hr : Delay.Rep NUM d (window NUM e h)) (x : α) :
    ∃ d' y, d.call x = .ok (d', y) ∧ Delay.Rep NUM d' (window NUM e (h ++ [x])) ∧
      window NUM e h = y :: (window NUM e h).tail ∧ window NUM e (h ++ [x]) = (window NUM e h).tail ++ [x] := by
  have hl := Spec.window_length NUM e h
  have ha := Spec.window_append NUM hN e h x
  cases hw : window NUM e h with
  | nil => rw [hw] at hl; simp at hl; omega
  | cons y w =>
    rw [hw] at hr
    obtain ⟨d', e1, h1⟩ := hr.call x
    refine ⟨d', y, e1, ?_, by simp, by rw [ha, hw]⟩
    rw [ha, hw]; exact h1

theorem window_sum_step [AddCommGroup α] {w : List α} {y x : α} (h : w = y :: w.tail) :
    (w.tail ++ [x]).sum = w.sum + (x - y) := by
  have : w.sum = y + w.tail.sum := by conv_lhs => rw [h, List.sum_cons]
  rw [this, List.sum_append, List.sum_singleton]; abel

namespace SMA1

theorem sumLoop_ok {β : Type} [AddCommMonoid β] (f : α → β) (a : List α) (n i : Nat) (s : β) (h : i + n = a.length) :
    sumLoop f a n i s = .ok (s + ((a.drop i).map f).sum) := by
  induction n generalizing i s with
  | zero =>
    rw [List.drop_eq_nil_of_le (by omega)]
    simp [sumLoop, pure, Except.pure]
  | succ n ih =>
    have h1 : rd a (i : Int) = .ok a[i] := rd_nat (by omega)
    have h2 := ih (i + 1) (s + f a[i]) (by omega)
    push_cast at h2
    simp only [sumLoop, h1, bind, Except.bind, h2]
    rw [List.drop_eq_getElem_cons (show i < a.length by omega), List.map_cons, List.sum_cons, add_assoc]

theorem sum_all {β : Type} [AddCommMonoid β] (f : α → β) (a : List α) (x : α) (h : rd a 0 = .ok x) :
    sumLoop f a (a.length - 1) 1 (f x) = .ok ((a.map f).sum) := by
  obtain ⟨-, h0⟩ := rd_eq_ok_iff.1 h
  cases a with
  | nil => simp at h0
  | cons y a =>
    simp only [Int.toNat_zero, List.getElem?_cons_zero, Option.some.injEq] at h0
    subst h0
    have := sumLoop_ok f (y :: a) a.length 1 (f y) (by simp; omega)
    simpa using this

/-- The history as a delay line. -/
def ring (s : SMA1 α) : Delay α := { num := s.num, buf := s.histInp, pos := s.histPos }

theorem _root_.DSP.Delay.call_inv {d d' : Delay α} {x y : α} (h : d.call x = .ok (d', y)) :
    ∃ buf, wr d.buf d.pos x = .ok buf ∧
      d' = { d with buf := buf, pos := if d.pos + 1 ≥ (d.num : Int) then 0 else d.pos + 1 } := by
  unfold Delay.call at h
  cases h1 : rd d.buf d.pos with
  | error e => simp [h1, bind, Except.bind] at h
  | ok t =>
    cases h2 : wr d.buf d.pos x with
    | error e => simp [h1, h2, bind, Except.bind] at h
    | ok b =>
      simp only [h1, h2, bind, Except.bind, pure, Except.pure, Except.ok.injEq, Prod.mk.injEq] at h
      exact ⟨b, rfl, h.1.symm⟩

theorem call_ok [AddCommGroup α] {NUM : Nat} (hN : 0 < NUM) (divN : α → α) {s : SMA1 α} {h : List α}
    (hr : Delay.Rep NUM s.ring (window NUM 0 h)) (x : α) :
    ∃ s', s.call divN x = .ok (s', divN (window NUM 0 (h ++ [x])).sum) ∧
      Delay.Rep NUM s'.ring (window NUM 0 (h ++ [x])) ∧ s'.histAvg = divN (window NUM 0 (h ++ [x])).sum := by
  obtain ⟨d', y, e1, h1, -, -⟩ := hr.step hN x
  obtain ⟨buf, ew, rfl⟩ := Delay.call_inv e1
  simp only [ring] at ew h1
  have hsum : buf.sum = (window NUM 0 (h ++ [x])).sum := h1.perm.sum_eq.symm
  have hlen : buf.length = NUM := h1.len
  have hnum : s.num = NUM := hr.num
  obtain ⟨v, h0⟩ : ∃ v, rd buf 0 = .ok v := ⟨buf[0], rd_nat (i := 0) (by omega)⟩
  have hall := sum_all id buf _ h0
  rw [hlen] at hall
  simp only [List.map_id_fun, id_eq] at hall
  refine ⟨SMA1.mk s.num buf (divN buf.sum) (if s.histPos + 1 ≥ (s.num : Int) then 0 else s.histPos + 1), ?_, h1, by rw [hsum]⟩
  simp only [SMA1.call, ew, bind, Except.bind, h0, hnum, hall, pure, Except.pure, hsum]

end SMA1
end DSP
