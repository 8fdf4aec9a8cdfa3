import Verif.Model.LMSRounded
import Verif.Lemmas.Delay
import Verif.Lemmas.Loops
import Verif.Props.LMS

/-!
# The adaptive filters in rounded arithmetic as machines on lists

Both filters are instances of one machine whose state is the list of the last inputs, oldest first, and the list of the coefficients.
-/

namespace DSP

theorem fold_loop {A B : Type} (f : A → ℕ → M A) (g : A → B → A) (a : A) (l : List B) (n : ℕ) (hn : l.length = n)
    (h : ∀ acc i v, l[i]? = some v → f acc i = .ok (g acc v)) : (List.range n).foldlM f a = .ok (l.foldl g a) := by
  obtain ⟨b, e, hb⟩ := foldlM_inv (fun k acc => acc = (l.take k).foldl g a) f n a (by simp) (by
    rintro i hi acc rfl
    have hv : l[i]? = some l[i] := List.getElem?_eq_getElem (by omega)
    exact ⟨_, h _ i _ hv, by rw [List.take_add_one, hv, Option.toList_some, List.foldl_append]; rfl⟩)
  rw [e, hb, List.take_of_length_le (by omega)]

namespace LMS.Rounded

/-- What differs between the filters: how an input is stored, how a product is added to the estimate, the error, how a sample adds to the power, and how a coefficient changes. -/
structure Parts (E V : Type) where
  store : E → E
  zero : E
  sum : E → E × E → E
  error : E → E → E
  power : V → E → V
  change : V → E → E → E → E

/-- The estimate. -/
def estimate {E V : Type} (P : Parts E V) (g u : List E) : E := (g.zip u).foldl P.sum P.zero

/-- The power. -/
def power {E V : Type} [Zero V] (P : Parts E V) (u : List E) : V := u.foldl P.power 0

/-- One call: stored inputs, coefficients; input, desired output, mu. -/
def step {E V : Type} [Zero V] [Div V] [BEq V] (P : Parts E V) (s : List E × List E) (a : E × E × V) : (List E × List E) × E :=
  let u := s.1.tail ++ [P.store a.1]
  let e := P.error a.2.1 (estimate P s.2 u)
  ((u, if power P u == 0 then s.2 else List.zipWith (P.change (a.2.2 / power P u) e) s.2 u), e)

/-- For real numbers. -/
def real (V : Type) [Zero V] [Add V] [Sub V] [Mul V] : Parts V V where
  store x := x
  zero := 0
  sum acc ch := acc + ch.1 * ch.2
  error d y := d - y
  power acc h := acc + h * h
  change rate e c h := c + rate * e * h

/-- For complex numbers. -/
def cplx (V : Type) [Zero V] [Add V] [Sub V] [Neg V] [Mul V] : Parts (Cplx V) V where
  store x := x.conj
  zero := Cplx.ofReal 0
  sum acc ch := acc.addAssign (ch.1.conj * ch.2)
  error d y := (d.conj - y).conj
  power acc h := acc + h.norm
  change rate e c h := c.addAssign (rate • e * h)

end LMS.Rounded

namespace NLMS.Rounded

open LMS.Rounded

variable {V : Type} [Zero V] [Add V] [Sub V] [Mul V] [Div V] [BEq V]

/-- Buffer and coefficients are those of the machine. -/
def Agrees (SIZE : ℕ) (f : NLMS.Rounded V) (s : List V × List V) : Prop := f.filter = s.2 ∧ s.2.length = SIZE ∧ ∃ r, BipBuffer.Rep SIZE f.history s.1 r

omit [Add V] [Sub V] [Mul V] [Div V] [BEq V] in
theorem agrees_init (SIZE : ℕ) (h : 0 < SIZE) : Agrees SIZE (init SIZE : NLMS.Rounded V) (List.replicate SIZE 0, List.replicate SIZE 0) := ⟨rfl, by simp, 0, BipBuffer.Rep.init h 0⟩

theorem agrees_call (SIZE : ℕ) (f : NLMS.Rounded V) (s : List V × List V) (h : Agrees SIZE f s) (a : V × V × V) :
    ∃ f', f.call a = .ok (f', (step (real V) s a).2) ∧ Agrees SIZE f' (step (real V) s a).1 := by
  obtain ⟨h1, h2, r, h3⟩ := h
  obtain ⟨x, d, mu⟩ := a
  obtain ⟨b, r', e, hr⟩ := h3.put x
  have hw := hr.wlen
  have hn := hr.num
  have c := hr.cell
  set u := s.1.tail ++ [x] with hu
  have es : step (real V) s (x, d, mu) =
      ((u, if power (real V) u == 0 then s.2 else List.zipWith ((real V).change (mu / power (real V) u) (d - estimate (real V) s.2 u)) s.2 u), d - estimate (real V) s.2 u) := rfl
  rw [es]
  have l1 : (List.range b.num).foldlM (fun acc (i : ℕ) => do
      let c ← rd f.filter i
      let h ← rd b.buf (b.ptr + i)
      return acc + c * h) (0 : V) = .ok (estimate (real V) s.2 u) := by
    refine fold_loop _ (real V).sum _ (s.2.zip u) _ (by simp [hn, h2, hw]) (fun acc i v hv => ?_)
    rw [List.getElem?_zip_eq_some] at hv
    rw [h1, rd_of_getElem? (by omega) (by simpa using hv.1), c i _ hv.2]
    rfl
  have l2 : (List.range b.num).foldlM (fun acc (i : ℕ) => do
      let h ← rd b.buf (b.ptr + i)
      let h' ← rd b.buf (b.ptr + i)
      return acc + h * h') (0 : V) = .ok (power (real V) u) := by
    refine fold_loop _ (real V).power _ u _ (by simp [hn, hw]) (fun acc i v hv => ?_)
    rw [c i _ hv]
    rfl
  simp only [bind, Except.bind, pure, Except.pure] at l1 l2
  cases c0 : power (real V) u == 0 with
  | true =>
    refine ⟨{ f with history := b }, ?_, ?_, ?_, r', hr⟩
    · simp only [call, e, l1, l2, bind, Except.bind, pure, Except.pure, c0, M.ite]; rfl
    · exact h1
    · exact h2
  | false =>
    have l3 : (List.range b.num).foldlM (fun filter (i : ℕ) => do
        let c ← rd filter i
        let h ← rd b.buf (b.ptr + i)
        wr filter i (c + (mu / power (real V) u) * (d - estimate (real V) s.2 u) * h)) f.filter = .ok (List.zipWith ((real V).change (mu / power (real V) u) (d - estimate (real V) s.2 u)) s.2 u) := by
      rw [h1]
      apply update_loop
      · rw [h2, hn]
      · simp [hn, h2, hw]
      · intro g i p v hi hg hp hp2 hv
        rw [List.getElem?_zipWith, hp2] at hv
        cases hq : u[i]? with
        | none => rw [hq] at hv; simp at hv
        | some q =>
          rw [hq] at hv
          simp only [Option.some.injEq] at hv
          rw [rd_of_getElem? (by omega) (by simpa using hp), c i q hq]
          simp only [bind, Except.bind]
          rw [wr_nat (by omega), ← hv]
          rfl
    refine ⟨⟨b, List.zipWith ((real V).change (mu / power (real V) u) (d - estimate (real V) s.2 u)) s.2 u⟩, ?_, ?_, ?_, r', hr⟩
    · simp only [bind, Except.bind] at l3
      simp only [call, e, l1, l2, bind, Except.bind, pure, Except.pure, c0, M.ite, l3]; rfl
    · rfl
    · show (List.zipWith _ _ _).length = _; simp [h2, hw]

/-- All calls. -/
theorem run_call (SIZE : ℕ) (calls : List (V × V × V)) : ∀ (f : NLMS.Rounded V) (s : List V × List V), Agrees SIZE f s →
    ∃ f', run call f calls = .ok (f', outputs (step (real V)) s calls) ∧ Agrees SIZE f' (final (step (real V)) s calls) := by
  induction calls with
  | nil => exact fun f s h => ⟨f, rfl, h⟩
  | cons a calls ih =>
    intro f s h
    obtain ⟨f1, e1, h1⟩ := agrees_call SIZE f s h a
    obtain ⟨f2, e2, h2⟩ := ih f1 _ h1
    exact ⟨f2, by simp only [run, e1, e2, outputs], h2⟩

end NLMS.Rounded

namespace NCLMS.Rounded

open LMS.Rounded

variable {V : Type} [Zero V] [Add V] [Sub V] [Neg V] [Mul V] [Div V] [BEq V]

/-- Buffer and coefficients are those of the machine. -/
def Agrees (SIZE : ℕ) (f : NCLMS.Rounded V) (s : List (Cplx V) × List (Cplx V)) : Prop := f.filter = s.2 ∧ s.2.length = SIZE ∧ ∃ r, BipBuffer.Rep SIZE f.history s.1 r

omit [Add V] [Sub V] [Neg V] [Mul V] [Div V] [BEq V] in
theorem agrees_init (SIZE : ℕ) (h : 0 < SIZE) : Agrees SIZE (init SIZE : NCLMS.Rounded V) (List.replicate SIZE (Cplx.ofReal 0), List.replicate SIZE (Cplx.ofReal 0)) :=
  ⟨rfl, by simp, 0, BipBuffer.Rep.init h _⟩

theorem agrees_call (SIZE : ℕ) (f : NCLMS.Rounded V) (s : List (Cplx V) × List (Cplx V)) (h : Agrees SIZE f s) (a : Cplx V × Cplx V × V) :
    ∃ f', f.call a = .ok (f', (step (cplx V) s a).2) ∧ Agrees SIZE f' (step (cplx V) s a).1 := by
  obtain ⟨h1, h2, r, h3⟩ := h
  obtain ⟨x, d, mu⟩ := a
  obtain ⟨b, r', e, hr⟩ := h3.put x.conj
  have hw := hr.wlen
  have hn := hr.num
  have c := hr.cell
  set u := s.1.tail ++ [x.conj] with hu
  have es : step (cplx V) s (x, d, mu) =
      ((u, if power (cplx V) u == 0 then s.2 else List.zipWith ((cplx V).change (mu / power (cplx V) u) ((d.conj - estimate (cplx V) s.2 u).conj)) s.2 u), (d.conj - estimate (cplx V) s.2 u).conj) := rfl
  rw [es]
  have l1 : (List.range b.num).foldlM (fun (acc : Cplx V) (i : ℕ) => do
      let c ← rd f.filter i
      let h ← rd b.buf (b.ptr + i)
      return acc.addAssign (c.conj * h)) (Cplx.ofReal 0) = .ok (estimate (cplx V) s.2 u) := by
    refine fold_loop _ (cplx V).sum _ (s.2.zip u) _ (by simp [hn, h2, hw]) (fun acc i v hv => ?_)
    rw [List.getElem?_zip_eq_some] at hv
    rw [h1, rd_of_getElem? (by omega) (by simpa using hv.1), c i _ hv.2]
    rfl
  have l2 : (List.range b.num).foldlM (fun acc (i : ℕ) => do
      let h ← rd b.buf (b.ptr + i)
      return acc + h.norm) (0 : V) = .ok (power (cplx V) u) := by
    refine fold_loop _ (cplx V).power _ u _ (by simp [hn, hw]) (fun acc i v hv => ?_)
    rw [c i _ hv]
    rfl
  simp only [bind, Except.bind, pure, Except.pure] at l1 l2
  cases c0 : power (cplx V) u == 0 with
  | true =>
    refine ⟨{ f with history := b }, ?_, ?_, ?_, r', hr⟩
    · simp only [call, e, l1, l2, bind, Except.bind, pure, Except.pure, c0, M.ite]; rfl
    · exact h1
    · exact h2
  | false =>
    have l3 : (List.range b.num).foldlM (fun filter (i : ℕ) => do
        let c ← rd filter i
        let h ← rd b.buf (b.ptr + i)
        wr filter i (c.addAssign ((mu / power (cplx V) u) • (d.conj - estimate (cplx V) s.2 u).conj * h))) f.filter =
          .ok (List.zipWith ((cplx V).change (mu / power (cplx V) u) (d.conj - estimate (cplx V) s.2 u).conj) s.2 u) := by
      rw [h1]
      apply update_loop
      · rw [h2, hn]
      · simp [hn, h2, hw]
      · intro g i p v hi hg hp hp2 hv
        rw [List.getElem?_zipWith, hp2] at hv
        cases hq : u[i]? with
        | none => rw [hq] at hv; simp at hv
        | some q =>
          rw [hq] at hv
          simp only [Option.some.injEq] at hv
          rw [rd_of_getElem? (by omega) (by simpa using hp), c i q hq]
          simp only [bind, Except.bind]
          rw [wr_nat (by omega), ← hv]
          rfl
    refine ⟨⟨b, List.zipWith ((cplx V).change (mu / power (cplx V) u) (d.conj - estimate (cplx V) s.2 u).conj) s.2 u⟩, ?_, ?_, ?_, r', hr⟩
    · simp only [bind, Except.bind] at l3
      simp only [call, e, l1, l2, bind, Except.bind, pure, Except.pure, c0, M.ite, l3]; rfl
    · rfl
    · show (List.zipWith _ _ _).length = _; simp [h2, hw]

/-- All calls. -/
theorem run_call (SIZE : ℕ) (calls : List (Cplx V × Cplx V × V)) : ∀ (f : NCLMS.Rounded V) (s : List (Cplx V) × List (Cplx V)), Agrees SIZE f s →
    ∃ f', run call f calls = .ok (f', outputs (step (cplx V)) s calls) ∧ Agrees SIZE f' (final (step (cplx V)) s calls) := by
  induction calls with
  | nil => exact fun f s h => ⟨f, rfl, h⟩
  | cons a calls ih =>
    intro f s h
    obtain ⟨f1, e1, h1⟩ := agrees_call SIZE f s h a
    obtain ⟨f2, e2, h2⟩ := ih f1 _ h1
    exact ⟨f2, by simp only [run, e1, e2, outputs], h2⟩

end NCLMS.Rounded
end DSP
