import Verif.Model.Base

namespace DSP
variable {α σ τ ι ω : Type _}

theorem rd_ok {a : List α} {i : Int} (h0 : 0 ≤ i) (h1 : i < a.length) :
    rd a i = .ok (a[i.toNat]'(by omega)) := by
  have : i.toNat < a.length := by omega
  simp [rd, h0, List.getElem?_eq_getElem this]

theorem rd_nat {a : List α} {i : Nat} (h : i < a.length) : rd a (i : Int) = .ok a[i] := by
  rw [rd_ok (by omega) (by omega)]; simp

theorem rd_of_getElem? {a : List α} {i : Int} {v : α} (h0 : 0 ≤ i) (h1 : a[i.toNat]? = some v) :
    rd a i = .ok v := by
  simp [rd, h0, h1]

theorem rd_error {a : List α} {i : Int} (h : i < 0 ∨ (a.length : Int) ≤ i) : rd a i = .error .bounds := by
  unfold rd
  split
  · have : a.length ≤ i.toNat := by omega
    simp [List.getElem?_eq_none this]
  · rfl

theorem rd_eq_ok_iff {a : List α} {i : Int} {v : α} :
    rd a i = .ok v ↔ 0 ≤ i ∧ a[i.toNat]? = some v := by
  unfold rd
  by_cases h : 0 ≤ i
  · simp only [h, if_true, true_and]
    cases a[i.toNat]? <;> simp
  · simp [h]

theorem wr_ok {a : List α} {i : Int} {v : α} (h0 : 0 ≤ i) (h1 : i < a.length) :
    wr a i v = .ok (a.set i.toNat v) := by
  simp [wr, h0, h1]

theorem wr_nat {a : List α} {i : Nat} {v : α} (h : i < a.length) :
    wr a (i : Int) v = .ok (a.set i v) := by
  rw [wr_ok (by omega) (by omega)]; simp

theorem wr_error {a : List α} {i : Int} {v : α} (h : i < 0 ∨ (a.length : Int) ≤ i) :
    wr a i v = .error .bounds := by
  unfold wr; rw [if_neg (by omega)]

@[simp] theorem assert_true : assert true = .ok () := rfl
@[simp] theorem assert_false : assert false = .error .assertion := rfl

/-- `b` answers like `a` and ends in a related state. -/
def Sim (R : σ → τ → Prop) (a : M (τ × ω)) (b : M (σ × ω)) : Prop :=
  match a with
  | .error e => b = .error e
  | .ok (t', o) => ∃ s', b = .ok (s', o) ∧ R s' t'

/-- Forward simulation between two state machines gives equal traces. -/
theorem trace_eq_of_sim {step : σ → ι → M (σ × ω)} {step' : τ → ι → M (τ × ω)} (R : σ → τ → Prop)
    (hs : ∀ s t x, R s t → Sim R (step' t x) (step s x))
    {s : σ} {t : τ} (h : R s t) (xs : List ι) : trace step s xs = trace step' t xs := by
  induction xs generalizing s t with
  | nil => rfl
  | cons x xs ih =>
    have := hs s t x h
    unfold Sim at this
    unfold trace
    cases h' : step' t x with
    | error e => rw [h'] at this; simp only at this; rw [this]
    | ok p =>
      obtain ⟨t', o⟩ := p
      rw [h'] at this
      obtain ⟨s', e, r⟩ := this
      rw [e]
      simp only [ih r]

/-- Simulation of a machine that never fails. -/
theorem trace_eq_outputs {step : σ → ι → M (σ × ω)} {step' : τ → ι → τ × ω} (R : σ → τ → Prop)
    (hs : ∀ s t x, R s t → ∃ s', step s x = .ok (s', (step' t x).2) ∧ R s' (step' t x).1)
    {s : σ} {t : τ} (h : R s t) (xs : List ι) :
    trace step s xs = (outputs step' t xs, none) := by
  induction xs generalizing s t with
  | nil => rfl
  | cons x xs ih =>
    obtain ⟨s', e, r⟩ := hs s t x h
    unfold trace outputs
    rw [e]; simp only [ih r]

/-- `trace_eq_outputs` for histories of allowed inputs only. -/
theorem trace_eq_outputs_good {step : σ → ι → M (σ × ω)} {step' : τ → ι → τ × ω} (R : σ → τ → Prop) (good : ι → Prop)
    (hs : ∀ s t x, R s t → good x → ∃ s', step s x = .ok (s', (step' t x).2) ∧ R s' (step' t x).1)
    {s : σ} {t : τ} (h : R s t) (xs : List ι) (hg : ∀ x ∈ xs, good x) :
    trace step s xs = (outputs step' t xs, none) := by
  induction xs generalizing s t with
  | nil => rfl
  | cons x xs ih =>
    obtain ⟨s', e, r⟩ := hs s t x h (hg x (by simp))
    unfold trace outputs
    rw [e]; simp only [ih r (fun z hz => hg z (by simp [hz]))]

/-- Invariant over the history, with a postcondition for every answer. -/
theorem run_of_inv {step : σ → ι → M (σ × ω)} (Inv : σ → List ι → Prop) (Post : List ι → ω → Prop) (good : ι → Prop)
    (hs : ∀ s h x, Inv s h → good x → ∃ s' y, step s x = .ok (s', y) ∧ Inv s' (h ++ [x]) ∧ Post (h ++ [x]) y)
    {s : σ} {h : List ι} (hI : Inv s h) (xs : List ι) (hg : ∀ x ∈ xs, good x) :
    ∃ s' ys, run step s xs = .ok (s', ys) ∧ trace step s xs = (ys, none) ∧ Inv s' (h ++ xs) ∧ ys.length = xs.length ∧
      ∀ n, n < xs.length → ∃ y, ys[n]? = some y ∧ Post (h ++ xs.take (n + 1)) y := by
  induction xs generalizing s h with
  | nil => exact ⟨s, [], rfl, rfl, by simpa using hI, rfl, by simp⟩
  | cons x xs ih =>
    obtain ⟨s1, y, e, hI1, hP⟩ := hs s h x hI (hg x (by simp))
    obtain ⟨s2, ys, e2, e3, hI2, hl, hP2⟩ := ih hI1 (fun z hz => hg z (by simp [hz]))
    refine ⟨s2, y :: ys, by simp [run, e, e2], by simp [trace, e, e3], by simpa using hI2, by simp [hl], ?_⟩
    intro n hn
    cases n with
    | zero => exact ⟨y, by simp, by simpa using hP⟩
    | succ n =>
      obtain ⟨z, h1, h2⟩ := hP2 n (by simpa using hn)
      exact ⟨z, by simpa using h1, by simpa using h2⟩

theorem run_eq_ok_iff_trace {step : σ → ι → M (σ × ω)} {s : σ} {xs : List ι} {ys : List ω} :
    (∃ s', run step s xs = .ok (s', ys)) ↔ trace step s xs = (ys, none) := by
  induction xs generalizing s ys with
  | nil => simp [run, trace]
  | cons x xs ih =>
    unfold run trace
    cases e : step s x with
    | error f => simp
    | ok p =>
      obtain ⟨s1, o⟩ := p
      simp only
      cases ys with
      | nil =>
        simp only [Prod.mk.injEq, List.cons_ne_nil, false_and, iff_false, not_exists]
        intro s' h
        split at h <;> simp at h
      | cons y ys =>
        have := @ih s1 ys
        constructor
        · rintro ⟨s', h⟩
          split at h
          · simp at h
          · rename_i heq
            simp only [Except.ok.injEq, Prod.mk.injEq, List.cons.injEq] at h
            obtain ⟨rfl, rfl, rfl⟩ := h
            rw [this.1 ⟨_, heq⟩]
        · intro h
          simp only [Prod.mk.injEq, List.cons.injEq] at h
          obtain ⟨⟨rfl, h1⟩, h2⟩ := h
          obtain ⟨s', e⟩ := this.2 (by rw [← h1, ← h2])
          exact ⟨s', by rw [e]⟩

theorem final_append {step : σ → ι → σ × ω} (s : σ) (xs ys : List ι) : final step s (xs ++ ys) = final step (final step s xs) ys := by
  induction xs generalizing s with
  | nil => rfl
  | cons x xs ih => exact ih _

theorem outputs_append {step : σ → ι → σ × ω} (s : σ) (xs ys : List ι) :
    outputs step s (xs ++ ys) = outputs step s xs ++ outputs step (final step s xs) ys := by
  induction xs generalizing s with
  | nil => rfl
  | cons x xs ih => simp only [List.cons_append, outputs, final, ih]

theorem outputs_length {step : σ → ι → σ × ω} (s : σ) (xs : List ι) : (outputs step s xs).length = xs.length := by
  induction xs generalizing s with
  | nil => rfl
  | cons x xs ih => simp only [outputs, List.length_cons, ih]

end DSP
