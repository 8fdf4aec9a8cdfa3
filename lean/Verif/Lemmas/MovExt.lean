import Verif.Model.MovExt
import Verif.Lemmas.Stack
import Verif.Lemmas.Delay
import Mathlib.Order.Defs.LinearOrder

namespace DSP.MovExt
variable {α : Type _}

/-- The state as lists: window (oldest first), dispenser (top first), refill (top first), pushes. -/
structure Abs (α : Type _) where
  w : List α
  D : List α
  R : List α
  pushes : Nat

structure Rep (NUM : Nat) (eq comp : α → α → Bool) (m : MovExt α) (a : Abs α) : Prop where
  num : m.num = NUM
  eq_ : m.eq = eq
  comp_ : m.comp = comp
  window : Delay.Rep NUM m.window a.w
  disp : Stack.Rep NUM m.dispenser a.D
  refill : Stack.Rep NUM m.refill a.R
  pushes : m.pushes = a.pushes

theorem popLoop_ok {NUM : Nat} {comp : α → α → Bool} {x : α} (l : List α) (s : Stack α) (fuel : Nat)
    (h : Stack.Rep NUM s l) (hf : l.length ≤ fuel) :
    ∃ s', popLoop comp x fuel s = .ok s' ∧ Stack.Rep NUM s' (l.dropWhile (comp x)) := by
  induction l generalizing s fuel with
  | nil =>
    refine ⟨s, ?_, by simpa using h⟩
    unfold popLoop
    simp [h.empty, pure, Except.pure]
  | cons a l ih =>
    unfold popLoop
    simp only [h.empty, h.top_ok, List.isEmpty_cons, bind, Except.bind, pure, Except.pure, Bool.false_eq_true, if_false]
    by_cases hc : comp x a = true
    · obtain ⟨s', e, r⟩ := h.pop_ok
      cases fuel with
      | zero => simp at hf
      | succ fuel =>
        obtain ⟨s'', e', r'⟩ := ih s' fuel r (by simpa using hf)
        refine ⟨s'', ?_, by simpa [List.dropWhile, hc] using r'⟩
        simp [hc, e, e']
    · refine ⟨s, by simp [hc], by simpa [List.dropWhile, hc] using h⟩

theorem moveLoop_ok {NUM : Nat} (R D : List α) (r d : Stack α) (fuel n : Nat)
    (hr : Stack.Rep NUM r R) (hd : Stack.Rep NUM d D) (hf : R.length ≤ fuel) (hc : R.length + D.length ≤ NUM) :
    ∃ d' r', moveLoop fuel d r n = .ok (d', r', n + R.length) ∧ Stack.Rep NUM d' (R.reverse ++ D) ∧
      Stack.Rep NUM r' ([] : List α) := by
  induction R generalizing D r d fuel n with
  | nil =>
    refine ⟨d, r, ?_, by simpa using hd, hr⟩
    unfold moveLoop
    simp [hr.empty, pure, Except.pure]
  | cons a R ih =>
    cases fuel with
    | zero => simp at hf
    | succ fuel =>
      simp only [List.length_cons] at hf hc
      obtain ⟨d1, e1, h1⟩ := hd.push_ok a (by omega)
      obtain ⟨r1, e2, h2⟩ := hr.pop_ok
      obtain ⟨d2, r2, e3, h3, h4⟩ := ih (a :: D) r1 d1 fuel (n + 1) h2 h1 (by omega) (by simp; omega)
      refine ⟨d2, r2, ?_, by simpa using h3, h4⟩
      unfold moveLoop
      simp only [hr.empty, hr.top_ok, List.isEmpty_cons, bind, Except.bind, pure, Except.pure, Bool.false_eq_true,
        if_false, e1, e2, e3, List.length_cons]
      congr 3; omega

/-- One call on lists. -/
def absStep (eq comp : α → α → Bool) (o : α) (w : List α) (d : α) (D R : List α) (pushes : Nat) (x : α) : Abs α × α :=
  let D1 := if eq o d then D else d :: D
  let R1 := R.dropWhile (comp x)
  match D1 with
  | [] => (⟨w ++ [x], (x :: R1).reverse, [], pushes + 1 + (x :: R1).length⟩, (x :: R1).getLast (by simp))
  | a :: D2 =>
    let b := (x :: R1).getLast (by simp)
    (⟨w ++ [x], a :: D2, x :: R1, pushes + 1⟩, if comp a b then a else b)

theorem call_ok {NUM : Nat} {eq comp : α → α → Bool} {m : MovExt α} {o : α} {w : List α} {d : α} {D R : List α}
    {n : Nat} (h : Rep NUM eq comp m ⟨o :: w, d :: D, R, n⟩) (x : α) (hR : R.length < NUM) :
    ∃ m', m.call x = .ok (m', (absStep eq comp o w d D R n x).2) ∧
      Rep NUM eq comp m' (absStep eq comp o w d D R n x).1 := by
  obtain ⟨hn, he, hcmp, hw, hd, hr, hp⟩ := h
  simp only at hw hd hr hp
  obtain ⟨w', ew, rw'⟩ := hw.call x
  obtain ⟨r1, er1, hr1⟩ := popLoop_ok (comp := comp) (x := x) R m.refill NUM hr (by omega)
  have hlen : (R.dropWhile (comp x)).length ≤ R.length := (List.dropWhile_sublist _).length_le
  obtain ⟨r2, er2, hr2⟩ := hr1.push_ok x (by omega)
  have hD1 : ∃ d1, M.ite (eq o d) m.dispenser.pop (pure m.dispenser) = .ok d1 ∧
      Stack.Rep NUM d1 (if eq o d then D else d :: D) := by
    by_cases hb : eq o d = true
    · simpa [hb, M.ite] using hd.pop_ok
    · exact ⟨m.dispenser, by simp [hb, M.ite, pure, Except.pure], by simpa [hb] using hd⟩
  obtain ⟨d1, ed1, hd1⟩ := hD1
  have hfirst : ∀ l : List α, (h : l ≠ []) → Stack.Rep NUM r2 l → r2.first = .ok (l.getLast h) := by
    intro l hl hh
    exact hh.first_ok (List.getLast?_eq_some_getLast hl)
  unfold MovExt.call
  simp only [hn, he, hcmp, bind, Except.bind, ew, hd.top_ok, ed1, er1, er2]
  unfold absStep
  simp only
  generalize (if eq o d = true then D else d :: D) = D1 at hd1
  cases D1 with
  | nil =>
    obtain ⟨d2, r3, e3, h3, h4⟩ := moveLoop_ok _ [] r2 d1 NUM (m.pushes + 1) hr2 hd1 (by simp; omega) (by simp; omega)
    simp only [List.append_nil] at h3
    have htop : d2.top = .ok ((x :: R.dropWhile (comp x)).getLast (by simp)) := by
      have e : (x :: R.dropWhile (comp x)).reverse =
          (x :: R.dropWhile (comp x)).getLast (by simp) :: (x :: R.dropWhile (comp x)).dropLast.reverse := by
        have e := congrArg List.reverse (List.dropLast_concat_getLast (l := x :: R.dropWhile (comp x)) (by simp))
        rw [List.reverse_append] at e
        exact e.symm
      rw [e] at h3
      exact h3.top_ok
    simp only [hd1.empty, List.isEmpty_nil, if_true, e3, htop, pure, Except.pure]
    refine ⟨_, rfl, ?_⟩
    exact ⟨rfl, rfl, rfl, rw', h3, h4, by simp [hp]⟩
  | cons a D2 =>
    simp only [hd1.empty, List.isEmpty_cons, Bool.false_eq_true, if_false, hd1.top_ok,
      hfirst _ (by simp) hr2, pure, Except.pure]
    refine ⟨_, rfl, ?_⟩
    exact ⟨rfl, rfl, rfl, rw', hd1, hr2, by simp [hp]⟩

theorem init_ok {NUM : Nat} (hN : 0 < NUM) (eq comp : α → α → Bool) {junk1 junk2 : List α} (h1 : junk1.length = NUM)
    (h2 : junk2.length = NUM) (x : α) :
    ∃ m, MovExt.init NUM eq comp junk1 junk2 x = .ok m ∧
      Rep NUM eq comp m ⟨List.replicate NUM x, [x], [], 1⟩ := by
  obtain ⟨d, e, h⟩ := (Stack.Rep.init h1).push_ok x (by simpa using hN)
  simp only [MovExt.init, e, bind, Except.bind, pure, Except.pure]
  refine ⟨_, rfl, ?_⟩
  exact ⟨rfl, rfl, rfl, Delay.Rep.init hN x, h, Stack.Rep.init h2, rfl⟩

/-! ### Safety: holds for every comparison and every reflexive equality -/

/-- The window splits into an old part containing the dispenser and a new part containing the refill stack;
`n` is the number of calls so far. -/
def Safe (NUM : Nat) (a : Abs α) (n : Nat) : Prop :=
  ∃ A B : List α, a.w = A ++ B ∧ a.w.length = NUM ∧ a.D ≠ [] ∧ a.D.Sublist A ∧ a.R.reverse.Sublist B ∧
    a.pushes + a.R.length ≤ 2 * n + 1 ∧ a.pushes ≤ 2 * n + 1

theorem Safe.cases {NUM : Nat} {a : Abs α} {n : Nat} (h : Safe NUM a n) :
    ∃ o w d D, a.w = o :: w ∧ a.D = d :: D ∧ a.R.length < NUM := by
  obtain ⟨A, B, hw, hlen, hD, hA, hB, -, -⟩ := h
  cases hD' : a.D with
  | nil => exact absurd hD' hD
  | cons d D =>
    rw [hD'] at hA
    cases A with
    | nil => simp at hA
    | cons o A =>
      refine ⟨o, A ++ B, d, D, by simp [hw], rfl, ?_⟩
      have := hB.length_le
      have hl := congrArg List.length hw
      simp at this hl
      omega

theorem Safe.step {NUM : Nat} {eq comp : α → α → Bool} (hrefl : ∀ a, eq a a = true) {o : α} {w : List α} {d : α}
    {D R : List α} {p n : Nat} (h : Safe NUM ⟨o :: w, d :: D, R, p⟩ n) (x : α) :
    Safe NUM (absStep eq comp o w d D R p x).1 (n + 1) := by
  obtain ⟨A, B, hw, hlen, hD, hA, hB, hp, hp'⟩ := h
  simp only at hw hlen hA hB hp hp'
  cases A with
  | nil => simp at hA
  | cons o' A =>
    simp only [List.cons_append, List.cons.injEq] at hw
    obtain ⟨rfl, rfl⟩ := hw
    have hD1 : (if eq o d then D else d :: D).Sublist A := by
      by_cases hb : eq o d = true
      · simp only [hb, if_true]
        exact List.Sublist.of_cons_cons (hA.trans (List.Sublist.refl _)) |>.trans (List.Sublist.refl _)
      · simp only [hb]
        rcases List.sublist_cons_iff.1 hA with h | ⟨r, hr, -⟩
        · simpa using h
        · simp only [List.cons.injEq] at hr
          obtain ⟨rfl, -⟩ := hr
          exact absurd (hrefl _) hb
    have hR1 : (x :: R.dropWhile (comp x)).reverse.Sublist (B ++ [x]) := by
      rw [List.reverse_cons]
      exact ((List.dropWhile_sublist _).reverse.trans hB).append (List.Sublist.refl _)
    have hl : (R.dropWhile (comp x)).length ≤ R.length := (List.dropWhile_sublist _).length_le
    unfold absStep
    simp only
    generalize (if eq o d = true then D else d :: D) = D1 at hD1
    simp only [List.length_cons, List.length_append] at hlen
    cases D1 with
    | nil =>
      refine ⟨A ++ B ++ [x], [], by simp, by simp; omega, by simp,
        hR1.trans (by rw [List.append_assoc]; exact List.sublist_append_right A _), by simp, ?_, ?_⟩
      · simp only [List.length_cons, List.length_nil]; omega
      · simp only [List.length_cons]; omega
    | cons a D2 =>
      refine ⟨A, B ++ [x], by simp, by simp; omega, by simp, hD1, hR1, ?_, ?_⟩
      · simp only [List.length_cons]; omega
      · simp only; omega

/-! ### Correctness: `comp` and `eq` come from a linear order on keys -/

variable {K : Type _} [LinearOrder K] (k : α → K)

/-- The elements that are at most every later element. -/
def smin : List α → List α
  | [] => []
  | a :: l => if ∀ b ∈ l, k a ≤ k b then a :: smin l else smin l

theorem smin_subset (l : List α) : ∀ a ∈ smin k l, a ∈ l := by
  induction l with
  | nil => simp [smin]
  | cons b l ih =>
    intro a ha
    unfold smin at ha
    split at ha
    · rcases List.mem_cons.1 ha with rfl | h
      · simp
      · exact List.mem_cons_of_mem _ (ih a h)
    · exact List.mem_cons_of_mem _ (ih a ha)

theorem smin_ne_nil {l : List α} (h : l ≠ []) : smin k l ≠ [] := by
  induction l with
  | nil => exact absurd rfl h
  | cons b l ih =>
    unfold smin
    split
    · simp
    · rename_i hn
      apply ih
      rintro rfl
      exact hn (by simp)

theorem smin_head_le {l : List α} {a : α} {t : List α} (h : smin k l = a :: t) : ∀ b ∈ l, k a ≤ k b := by
  induction l with
  | nil => simp
  | cons c l ih =>
    unfold smin at h
    split at h
    · rename_i hc
      simp only [List.cons.injEq] at h
      obtain ⟨rfl, rfl⟩ := h
      intro b hb
      rcases List.mem_cons.1 hb with rfl | hb
      · exact le_refl _
      · exact hc b hb
    · rename_i hc
      intro b hb
      have := ih h
      rcases List.mem_cons.1 hb with rfl | hb
      · by_contra hlt
        exact hc fun d hd => le_trans (le_of_lt (not_le.1 hlt)) (this d hd)
      · exact this b hb

theorem smin_append_singleton (l : List α) (x : α) :
    smin k (l ++ [x]) = (smin k l).filter (fun a => decide (k a ≤ k x)) ++ [x] := by
  induction l with
  | nil => simp [smin]
  | cons b l ih =>
    simp only [List.cons_append, smin]
    by_cases h1 : ∀ c ∈ l, k b ≤ k c
    · by_cases h2 : k b ≤ k x
      · have : ∀ c ∈ l ++ [x], k b ≤ k c := by
          intro c hc
          rcases List.mem_append.1 hc with h | h
          · exact h1 c h
          · rw [List.mem_singleton.1 h]; exact h2
        rw [if_pos this, if_pos h1, ih]
        simp [h2]
      · have : ¬ ∀ c ∈ l ++ [x], k b ≤ k c := fun h => h2 (h x (by simp))
        rw [if_neg this, if_pos h1, ih]
        simp [h2]
    · have : ¬ ∀ c ∈ l ++ [x], k b ≤ k c := fun h => h1 fun c hc => h c (by simp [hc])
      rw [if_neg this, if_neg h1, ih]

/-- On a list whose keys decrease, dropping the larger keys at the front is filtering. -/
theorem dropWhile_eq_filter (x : α) (l : List α) (h : l.Pairwise (fun a b => k b ≤ k a)) :
    l.dropWhile (fun a => decide (k x < k a)) = l.filter (fun a => decide (k a ≤ k x)) := by
  induction l with
  | nil => rfl
  | cons a l ih =>
    obtain ⟨h1, h2⟩ := List.pairwise_cons.1 h
    by_cases hx : k x < k a
    · simp only [List.dropWhile, List.filter, hx, decide_true, not_le.2 hx, decide_false, ih h2]
    · have hle : k a ≤ k x := not_lt.1 hx
      simp only [List.dropWhile, List.filter, hx, decide_false, hle, decide_true]
      rw [List.filter_eq_self.2]
      intro b hb
      simpa using le_trans (h1 b hb) hle

theorem smin_pairwise (l : List α) : (smin k l).Pairwise (fun a b => k a ≤ k b) := by
  induction l with
  | nil => simp [smin]
  | cons b l ih =>
    unfold smin
    split
    · rename_i h
      exact List.pairwise_cons.2 ⟨fun c hc => h c (smin_subset k l c hc), ih⟩
    · exact ih

theorem refill_step {N R : List α} (h : R.reverse = smin k N) (x : α) :
    (x :: R.dropWhile (fun a => decide (k x < k a))).reverse = smin k (N ++ [x]) := by
  have hp : R.Pairwise (fun a b => k b ≤ k a) := by
    rw [← List.pairwise_reverse, h]; exact smin_pairwise k N
  rw [dropWhile_eq_filter k x R hp, List.reverse_cons, smin_append_singleton, ← h, List.filter_reverse]

/-- Dropping the oldest element of the old part, if it is the current minimum. -/
theorem smin_pop {o : α} {O : List α} {d : α} {D : List α} (h : smin k (o :: O) = d :: D) :
    (if decide (k o = k d) then D else d :: D) = smin k O := by
  unfold smin at h
  split at h
  · simp only [List.cons.injEq] at h
    obtain ⟨rfl, rfl⟩ := h
    simp
  · rename_i hn
    rw [if_neg, h]
    simp only [decide_eq_true_eq]
    intro e
    apply hn
    intro b hb
    rw [e]
    exact smin_head_le k h b hb

/-- All equal to the minimum: nothing is dominated. -/
theorem smin_const {l : List α} {c : K} (h : ∀ a ∈ l, k a = c) : smin k l = l := by
  induction l with
  | nil => rfl
  | cons a l ih =>
    unfold smin
    rw [if_pos, ih fun b hb => h b (by simp [hb])]
    intro b hb
    rw [h a (by simp), h b (by simp [hb])]

/-- What the outputs are compared with: an element with the key `c` of minimal key among `W`. -/
def IsMinKey (c : K) (W : List α) : Prop := (∃ x ∈ W, k x = c) ∧ ∀ x ∈ W, c ≤ k x

/-- Invariant after history `h`. -/
structure Corr (i : α) (NUM : Nat) (a : Abs α) (P O N : List α) : Prop where
  w : a.w = P ++ O ++ N
  len : a.w.length = NUM
  D : a.D = smin k O
  R : a.R.reverse = smin k N
  P : ∀ z ∈ P, k z = k i
  One : O ≠ []

/-- The keys in the two live parts are all at most the initial one, or all different from it; or nothing was put yet. -/
def Class (i : α) (O N : List α) : Prop :=
  (∀ z ∈ O ++ N, k z ≤ k i) ∨ (∀ z ∈ O ++ N, k z ≠ k i)

theorem Corr.step {i : α} {NUM : Nat} {o : α} {w : List α} {d : α} {D R : List α} {p : Nat} {P O N : List α}
    (h : Corr k i NUM ⟨o :: w, d :: D, R, p⟩ P O N) (hcl : Class k i O N) (x : α) :
    let r := absStep (fun a b => decide (k a = k b)) (fun a b => decide (k a < k b)) o w d D R p x
    ∃ P' O' N', Corr k i NUM r.1 P' O' N' ∧ (∀ z ∈ O' ++ N', z = x ∨ (z ∈ O ++ N)) ∧ x ∈ O' ++ N' ∧
      ((∀ z ∈ O, k z = k i) → N = [] → O.length = 1 → O' ++ N' = [x]) ∧
      r.2 ∈ O' ++ N' ∧ ∀ z ∈ O' ++ N', k r.2 ≤ k z := by
  obtain ⟨hw, hlen, hD, hR, hP, hO⟩ := h
  simp only at hw hlen hD hR
  -- the dispenser after the optional pop
  have key : ∃ P' O1, w ++ [x] = P' ++ O1 ++ (N ++ [x]) ∧
      (if decide (k o = k d) then D else d :: D) = smin k O1 ∧ (∀ z ∈ P', k z = k i) ∧ (∀ z ∈ O1, z ∈ O) ∧
      ((∀ z ∈ O, k z = k i) → O.length = 1 → O1 = []) := by
    cases P with
    | nil =>
      cases O with
      | nil => exact absurd rfl hO
      | cons o' O =>
        simp only [List.nil_append, List.cons_append, List.cons.injEq] at hw
        obtain ⟨rfl, rfl⟩ := hw
        refine ⟨[], O, by simp, smin_pop k hD.symm, by simp, fun z hz => by simp [hz], ?_⟩
        intro _ h1
        simpa using h1
    | cons o' P =>
      simp only [List.cons_append, List.cons.injEq] at hw
      obtain ⟨rfl, rfl⟩ := hw
      have ho : k o = k i := hP o (by simp)
      have hmin := smin_head_le k hD.symm
      have hdO : d ∈ O := smin_subset k O d (by rw [← hD]; simp)
      by_cases hd : k d = k i
      · -- only possible if everything equals the initial key
        have hall : ∀ z ∈ O, k z = k i := by
          rcases hcl with hA | hB
          · intro z hz
            exact le_antisymm (hA z (by simp [hz])) (hd ▸ hmin z hz)
          · exact absurd hd (hB d (by simp [hdO]))
        have hs := smin_const k hall
        rw [hs] at hD
        subst hD
        refine ⟨P ++ [d], D, by simp, ?_, ?_, fun z hz => by simp [hz], ?_⟩
        · rw [if_pos (by simp [ho, hd]), smin_const k fun z hz => hall z (by simp [hz])]
        · intro z hz
          rcases List.mem_append.1 hz with h | h
          · exact hP z (by simp [h])
          · rw [List.mem_singleton.1 h]; exact hd
        · intro _ h1
          simpa using h1
      · refine ⟨P, O, by simp, ?_, fun z hz => hP z (by simp [hz]), fun z hz => hz, ?_⟩
        · rw [if_neg (by simp only [decide_eq_true_eq]; rw [ho]; exact fun h => hd h.symm), hD]
        · intro hall _
          exact absurd (hall d hdO) hd
  obtain ⟨P', O1, hw', hD1, hP', hsub, hone⟩ := key
  have hR1 := refill_step k hR x
  have hlen' : (w ++ [x]).length = NUM := by simpa using hlen
  simp only [absStep]
  rw [hD1]
  have hRne : (x :: R.dropWhile (fun a => decide (k x < k a))) ≠ [] := by simp
  have hlast : ∃ t, smin k (N ++ [x]) = (x :: R.dropWhile (fun a => decide (k x < k a))).getLast hRne :: t := by
    have e := congrArg List.reverse (List.dropLast_concat_getLast hRne)
    rw [List.reverse_append, hR1] at e
    exact ⟨_, e.symm⟩
  obtain ⟨t, ht⟩ := hlast
  have hbmem : (x :: R.dropWhile (fun a => decide (k x < k a))).getLast hRne ∈ N ++ [x] :=
    smin_subset k _ _ (by rw [ht]; simp)
  have hbmin := smin_head_le k ht
  cases hO1 : smin k O1 with
  | nil =>
    have hO1' : O1 = [] := by
      by_contra hne
      exact smin_ne_nil k hne hO1
    subst hO1'
    refine ⟨P', N ++ [x], [], ⟨by simpa using hw', hlen', by simpa using hR1, by simp [smin], hP', by simp⟩, ?_, ?_, ?_, ?_, ?_⟩
    · intro z hz
      simp only [List.append_nil, List.mem_append, List.mem_singleton] at hz
      rcases hz with h | h
      · exact .inr (by simp [h])
      · exact .inl h
    · simp
    · intro _ hN _; simp [hN]
    · simpa using hbmem
    · simpa using hbmin
  | cons a D2 =>
    have hO1ne : O1 ≠ [] := by rintro rfl; simp [smin] at hO1
    have hamin := smin_head_le k hO1
    have hamem : a ∈ O1 := smin_subset k _ _ (by rw [hO1]; simp)
    refine ⟨P', O1, N ++ [x], ⟨by simpa using hw', hlen', by simpa using hO1.symm, hR1, hP', hO1ne⟩, ?_, ?_, ?_, ?_, ?_⟩
    · intro z hz
      simp only [List.mem_append, List.mem_singleton] at hz
      rcases hz with h | h | h
      · exact .inr (by simp [hsub z h])
      · exact .inr (by simp [h])
      · exact .inl h
    · simp
    · intro h1 _ h3; exact absurd (hone h1 h3) hO1ne
    · dsimp only
      split
      · exact List.mem_append_left _ hamem
      · exact List.mem_append_right _ hbmem
    · intro z hz
      dsimp only
      rcases List.mem_append.1 hz with h | h
      · split
        · exact hamin z h
        · rename_i hc
          simp only [decide_eq_true_eq, not_lt] at hc
          exact le_trans hc (hamin z h)
      · split
        · rename_i hc
          simp only [decide_eq_true_eq] at hc
          exact le_trans (le_of_lt hc) (hbmin z h)
        · exact hbmin z h

end DSP.MovExt
