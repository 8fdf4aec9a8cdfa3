import Verif.Lemmas.LMSRounded
import Verif.Lemmas.Ieee
import Verif.Lemmas.Window

/-!
# Infinities and NaN in adaptive filters (C100)

The squares of the inputs may be too small for their reciprocal: then a single call makes coefficients infinite. A coefficient that is not finite spoils all later outputs.
-/

namespace DSP

open LMS.Rounded

namespace LMS.Rounded

variable {F : Format} {E : Type}

/-- What is needed of the parts. -/
structure Spoils (P : Parts E (Ieee F)) (Fin : E → Prop) : Prop where
  store : ∀ x, ¬Fin x → ¬Fin (P.store x)
  sum_acc : ∀ acc ch, ¬Fin acc → ¬Fin (P.sum acc ch)
  sum_coeff : ∀ acc ch, ¬Fin ch.1 → ¬Fin (P.sum acc ch)
  sum_input : ∀ acc ch, ¬Fin ch.2 → ¬Fin (P.sum acc ch)
  error : ∀ d y, ¬Fin y → ¬Fin (P.error d y)
  power_acc : ∀ acc h, ¬acc.Finite → ¬(P.power acc h).Finite
  power_input : ∀ acc h, ¬Fin h → ¬(P.power acc h).Finite
  change_coeff : ∀ r e c h, ¬Fin c → ¬Fin (P.change r e c h)
  change_error : ∀ r e c h, ¬Fin e → ¬Fin (P.change r e c h)

theorem fold_bad {A B : Type} (f : A → B → A) (bad : A → Prop) (h1 : ∀ a b, bad a → bad (f a b)) (l : List B) (a : A) (h : bad a) : bad (l.foldl f a) := by
  induction l generalizing a with
  | nil => exact h
  | cons b l ih => exact ih _ (h1 a b h)

theorem fold_bad_mem {A B : Type} (f : A → B → A) (bad : A → Prop) (h1 : ∀ a b, bad a → bad (f a b)) (l : List B) (a : A) (b : B) (hb : b ∈ l) (h : ∀ a, bad (f a b)) : bad (l.foldl f a) := by
  induction l generalizing a with
  | nil => simp at hb
  | cons c l ih =>
    rcases List.mem_cons.mp hb with rfl | hb
    · exact fold_bad f bad h1 l _ (h a)
    · exact ih _ hb

variable {P : Parts E (Ieee F)} {Fin : E → Prop}

theorem estimate_coeff (S : Spoils P Fin) (g u : List E) (hl : g.length = u.length) (c : E) (hc : c ∈ g) (hb : ¬Fin c) : ¬Fin (estimate P g u) := by
  obtain ⟨i, hi, rfl⟩ := List.getElem_of_mem hc
  exact fold_bad_mem P.sum (fun a => ¬Fin a) S.sum_acc _ _ (g[i], u[i]) (List.mem_iff_getElem.mpr ⟨i, by simp [hi, ← hl], by simp⟩) fun a => S.sum_coeff a _ hb

theorem estimate_input (S : Spoils P Fin) (g u : List E) (hl : g.length = u.length) (h : E) (hc : h ∈ u) (hb : ¬Fin h) : ¬Fin (estimate P g u) := by
  obtain ⟨i, hi, rfl⟩ := List.getElem_of_mem hc
  exact fold_bad_mem P.sum (fun a => ¬Fin a) S.sum_acc _ _ (g[i], u[i]) (List.mem_iff_getElem.mpr ⟨i, by simp [hi, hl], by simp⟩) fun a => S.sum_input a _ hb

theorem bad_ne_zero (a : Ieee F) (h : ¬a.Finite) : (a == 0) = false := by
  cases a with
  | nan => rfl
  | inf s => rfl
  | num s m => exact absurd trivial h

theorem power_input (S : Spoils P Fin) (u : List E) (h : E) (hc : h ∈ u) (hb : ¬Fin h) : (power P u == 0) = false :=
  bad_ne_zero _ (fold_bad_mem P.power (fun a => ¬a.Finite) S.power_acc u 0 h hc fun a => S.power_input a h hb)

/-- The state after a call. -/
theorem step_length (s : List E × List E) (a : E × E × Ieee F) (h0 : 0 < s.2.length) (h : s.1.length = s.2.length) : (step P s a).1.1.length = s.2.length ∧ (step P s a).1.2.length = s.2.length := by
  have hu : (s.1.tail ++ [P.store a.1]).length = s.2.length := by simp; omega
  refine ⟨hu, ?_⟩
  unfold step
  dsimp only
  split
  · rfl
  · rw [List.length_zipWith, hu, Nat.min_self]

theorem step_coeff (S : Spoils P Fin) (s : List E × List E) (a : E × E × Ieee F) (h0 : 0 < s.2.length) (h : s.1.length = s.2.length) (hb : ∃ c ∈ s.2, ¬Fin c) :
    ¬Fin (step P s a).2 ∧ ∃ c ∈ (step P s a).1.2, ¬Fin c := by
  have hu : (s.1.tail ++ [P.store a.1]).length = s.2.length := by simp; omega
  obtain ⟨c, hc, hb⟩ := hb
  refine ⟨S.error _ _ (estimate_coeff S _ _ hu.symm c hc hb), ?_⟩
  unfold step
  dsimp only
  split
  · exact ⟨c, hc, hb⟩
  · obtain ⟨i, hi, rfl⟩ := List.getElem_of_mem hc
    exact ⟨_, List.mem_iff_getElem.mpr ⟨i, by rw [List.length_zipWith, hu, Nat.min_self]; exact hi, rfl⟩, by rw [List.getElem_zipWith]; exact S.change_coeff _ _ _ _ hb⟩

theorem step_error (S : Spoils P Fin) (s : List E × List E) (a : E × E × Ieee F) (h0 : 0 < s.2.length) (h : s.1.length = s.2.length) (hp : (power P (s.1.tail ++ [P.store a.1]) == 0) = false) (hb : ¬Fin (step P s a).2) :
    ∃ c ∈ (step P s a).1.2, ¬Fin c := by
  have hu : (s.1.tail ++ [P.store a.1]).length = s.2.length := by simp; omega
  have hb' : ¬Fin (P.error a.2.1 (estimate P s.2 (s.1.tail ++ [P.store a.1]))) := hb
  have e : (step P s a).1.2 = List.zipWith (P.change (a.2.2 / power P (s.1.tail ++ [P.store a.1])) (P.error a.2.1 (estimate P s.2 (s.1.tail ++ [P.store a.1])))) s.2 (s.1.tail ++ [P.store a.1]) := by
    unfold step
    dsimp only
    rw [if_neg (by rw [hp]; simp)]
  rw [e]
  refine ⟨_, List.mem_iff_getElem.mpr ⟨0, by rw [List.length_zipWith, hu, Nat.min_self]; exact h0, rfl⟩, ?_⟩
  rw [List.getElem_zipWith]
  exact S.change_error _ _ _ _ hb'

theorem step_input (S : Spoils P Fin) (s : List E × List E) (a : E × E × Ieee F) (h0 : 0 < s.2.length) (h : s.1.length = s.2.length) (hb : ¬Fin a.1) :
    ¬Fin (step P s a).2 ∧ ∃ c ∈ (step P s a).1.2, ¬Fin c := by
  have hu : (s.1.tail ++ [P.store a.1]).length = s.2.length := by simp; omega
  have hm : P.store a.1 ∈ s.1.tail ++ [P.store a.1] := by simp
  have he : ¬Fin (step P s a).2 := S.error _ _ (estimate_input S _ _ hu.symm _ hm (S.store _ hb))
  exact ⟨he, step_error S s a h0 h (power_input S _ _ hm (S.store _ hb)) he⟩

theorem outputs_coeff (S : Spoils P Fin) (calls : List (E × E × Ieee F)) : ∀ s : List E × List E, 0 < s.2.length → s.1.length = s.2.length → (∃ c ∈ s.2, ¬Fin c) →
    (∀ e ∈ outputs (step P) s calls, ¬Fin e) ∧ ∃ c ∈ (final (step P) s calls).2, ¬Fin c := by
  induction calls with
  | nil => exact fun s _ _ hb => ⟨fun e he => by simp [outputs] at he, hb⟩
  | cons a calls ih =>
    intro s h0 h hb
    obtain ⟨h1, h2⟩ := step_coeff S s a h0 h hb
    obtain ⟨l1, l2⟩ := step_length (P := P) s a h0 h
    obtain ⟨h3, h4⟩ := ih (step P s a).1 (by omega) (by omega) h2
    refine ⟨fun e he => ?_, h4⟩
    rw [outputs, List.mem_cons] at he
    rcases he with rfl | he
    · exact h1
    · exact h3 e he

theorem final_length (calls : List (E × E × Ieee F)) : ∀ s : List E × List E, 0 < s.2.length → s.1.length = s.2.length → (final (step P) s calls).1.length = s.2.length ∧ (final (step P) s calls).2.length = s.2.length := by
  induction calls with
  | nil => exact fun s _ h => ⟨h, rfl⟩
  | cons a calls ih =>
    intro s h0 h
    obtain ⟨l1, l2⟩ := step_length (P := P) s a h0 h
    have := ih (step P s a).1 (by omega) (by omega)
    rw [l2] at this
    exact this

/-- The parts of the real filter. -/
theorem spoils_real (F : Format) : Spoils (real (Ieee F)) Ieee.Finite where
  store _ h := h
  sum_acc acc _ h := Ieee.add_bad_left acc _ h
  sum_coeff _ _ h := Ieee.add_bad_right _ _ (Ieee.mul_bad_left _ _ h)
  sum_input _ _ h := Ieee.add_bad_right _ _ (Ieee.mul_bad_right _ _ h)
  error _ _ h := Ieee.sub_bad_right _ _ h
  power_acc _ _ h := Ieee.add_bad_left _ _ h
  power_input _ _ h := Ieee.add_bad_right _ _ (Ieee.mul_bad_left _ _ h)
  change_coeff _ _ _ _ h := Ieee.add_bad_left _ _ h
  change_error _ _ _ _ h := Ieee.add_bad_right _ _ (Ieee.mul_bad_left _ _ (Ieee.mul_bad_right _ _ h))

/-- A complex number is finite if both parts are. -/
def Whole (z : Cplx (Ieee F)) : Prop := z.re.Finite ∧ z.im.Finite

theorem conj_bad (z : Cplx (Ieee F)) (h : ¬Whole z) : ¬Whole z.conj := by
  rintro ⟨h1, h2⟩
  exact h ⟨h1, by by_contra c; exact Ieee.neg_bad _ c h2⟩

theorem add_bad_left (a b : Cplx (Ieee F)) (h : ¬Whole a) : ¬Whole (a + b) := Sample.add_left (F := F) a b h
theorem add_bad_right (a b : Cplx (Ieee F)) (h : ¬Whole b) : ¬Whole (a + b) := Sample.add_right (F := F) a b h
theorem sub_bad_right (a b : Cplx (Ieee F)) (h : ¬Whole b) : ¬Whole (a - b) := Sample.sub_right (F := F) a b h
theorem smul_bad (k : Ieee F) (a : Cplx (Ieee F)) (h : ¬Whole a) : ¬Whole (k • a) := Sample.smul k a h

theorem mul_bad_left (a b : Cplx (Ieee F)) (h : ¬Whole a) : ¬Whole (a * b) := by
  rintro ⟨h1, h2⟩
  refine h ⟨?_, ?_⟩
  · by_contra c; exact Ieee.sub_bad_left _ _ (Ieee.mul_bad_left a.re b.re c) h1
  · by_contra c; exact Ieee.sub_bad_right _ _ (Ieee.mul_bad_left a.im b.im c) h1

theorem mul_bad_right (a b : Cplx (Ieee F)) (h : ¬Whole b) : ¬Whole (a * b) := by
  rintro ⟨h1, h2⟩
  refine h ⟨?_, ?_⟩
  · by_contra c; exact Ieee.sub_bad_left _ _ (Ieee.mul_bad_right a.re b.re c) h1
  · by_contra c; exact Ieee.sub_bad_right _ _ (Ieee.mul_bad_right a.im b.im c) h1

/-- The parts of the complex filter. -/
theorem spoils_cplx (F : Format) : Spoils (cplx (Ieee F)) Whole where
  store := conj_bad
  sum_acc acc ch h := add_bad_right _ acc h
  sum_coeff acc ch h := add_bad_left _ acc (mul_bad_left _ _ (conj_bad _ h))
  sum_input acc ch h := add_bad_left _ acc (mul_bad_right _ _ h)
  error _ _ h := conj_bad _ (sub_bad_right _ _ h)
  power_acc _ _ h := Ieee.add_bad_left _ _ h
  power_input acc z h := by
    intro hf
    refine h ⟨?_, ?_⟩
    · by_contra c; exact Ieee.add_bad_right acc _ (Ieee.add_bad_left _ (z.im * z.im) (Ieee.mul_bad_left z.re z.re c)) hf
    · by_contra c; exact Ieee.add_bad_right acc _ (Ieee.add_bad_right (z.re * z.re) _ (Ieee.mul_bad_left z.im z.im c)) hf
  change_coeff _ _ c _ h := add_bad_right _ c h
  change_error _ _ c _ h := add_bad_left _ c (mul_bad_left _ _ (smul_bad _ _ h))

/-- The smallest numbers whose squares are not lost have squares without reciprocal. -/
def tiny : Ieee Format.single := .num false (1 / 2 ^ 70)

theorem foldl_replicate_fixed {A B : Type} (f : A → B → A) (a : A) (b : B) (h : f a b = a) (n : ℕ) : (List.replicate n b).foldl f a = a := by
  induction n with
  | zero => rfl
  | succ n ih => rw [List.replicate_succ, List.foldl_cons, h, ih]

theorem step_tiny_real (n : ℕ) : step (real (Ieee Format.single)) (List.replicate (n + 1) 0, List.replicate (n + 1) 0) (tiny, 1, 1) =
    ((List.replicate n 0 ++ [tiny], List.replicate n .nan ++ [.inf false]), 1) := by
  have hu : ((List.replicate (n + 1) (0 : Ieee Format.single)).tail ++ [(real (Ieee Format.single)).store tiny]) = List.replicate n 0 ++ [tiny] := by simp [List.replicate_succ]; rfl
  have hz : List.replicate (n + 1) (0 : Ieee Format.single) = List.replicate n 0 ++ [0] := by rw [List.replicate_succ']
  have he : estimate (real (Ieee Format.single)) (List.replicate (n + 1) 0) (List.replicate n 0 ++ [tiny]) = 0 := by
    unfold estimate
    rw [hz, List.zip_append (by simp), List.zip_replicate, List.foldl_append, foldl_replicate_fixed _ _ _ (by decide +kernel)]
    decide +kernel
  have hp : power (real (Ieee Format.single)) (List.replicate n 0 ++ [tiny]) = .num false (1 / 2 ^ 140) := by
    unfold power
    rw [List.foldl_append, foldl_replicate_fixed _ _ _ (by decide +kernel)]
    decide +kernel
  unfold step
  dsimp only
  rw [hu, he, hp]
  rw [if_neg (by decide +kernel), hz, List.zipWith_append (by simp), List.zipWith_replicate]
  have e1 : (real (Ieee Format.single)).change (1 / .num false (1 / 2 ^ 140)) ((real (Ieee Format.single)).error 1 0) 0 0 = .nan := by decide +kernel
  have e2 : (real (Ieee Format.single)).change (1 / .num false (1 / 2 ^ 140)) ((real (Ieee Format.single)).error 1 0) 0 tiny = .inf false := by decide +kernel
  have e3 : (real (Ieee Format.single)).error 1 0 = 1 := by decide +kernel
  rw [e3] at e1 e2
  simp only [e1, Nat.min_self, List.zipWith_cons_cons, List.zipWith_nil_left, e2, e3]

instance (a b : Cplx (Ieee F)) : Decidable (a = b) := decidable_of_iff (a.re = b.re ∧ a.im = b.im) ⟨fun h => by cases a; cases b; cases h.1; cases h.2; rfl, fun h => by rw [h]; exact ⟨rfl, rfl⟩⟩

/-- The number `2^-70` as a complex one. -/
def tinyc : Cplx (Ieee Format.single) := ⟨tiny, 0⟩

/-- One. -/
def onec : Cplx (Ieee Format.single) := ⟨1, 0⟩

theorem step_tiny_cplx (n : ℕ) : step (cplx (Ieee Format.single)) (List.replicate (n + 1) (Cplx.ofReal 0), List.replicate (n + 1) (Cplx.ofReal 0)) (tinyc, onec, 1) =
    ((List.replicate n (Cplx.ofReal 0) ++ [tinyc.conj], List.replicate (n + 1) ⟨.nan, .nan⟩), onec) := by
  have hu : ((List.replicate (n + 1) (Cplx.ofReal 0 : Cplx (Ieee Format.single))).tail ++ [(cplx (Ieee Format.single)).store tinyc]) = List.replicate n (Cplx.ofReal 0) ++ [tinyc.conj] := by simp [List.replicate_succ]; rfl
  have hz : List.replicate (n + 1) (Cplx.ofReal 0 : Cplx (Ieee Format.single)) = List.replicate n (Cplx.ofReal 0) ++ [Cplx.ofReal 0] := by rw [List.replicate_succ']
  have he : estimate (cplx (Ieee Format.single)) (List.replicate (n + 1) (Cplx.ofReal 0)) (List.replicate n (Cplx.ofReal 0) ++ [tinyc.conj]) = Cplx.ofReal 0 := by
    unfold estimate
    rw [hz, List.zip_append (by simp), List.zip_replicate, List.foldl_append, foldl_replicate_fixed _ _ _ (by decide +kernel)]
    decide +kernel
  have hp : power (cplx (Ieee Format.single)) (List.replicate n (Cplx.ofReal 0) ++ [tinyc.conj]) = .num false (1 / 2 ^ 140) := by
    unfold power
    rw [List.foldl_append, foldl_replicate_fixed _ _ _ (by decide +kernel)]
    decide +kernel
  unfold step
  dsimp only
  rw [hu, he, hp]
  rw [if_neg (by decide +kernel), hz, List.zipWith_append (by simp), List.zipWith_replicate]
  have e1 : (cplx (Ieee Format.single)).change (1 / .num false (1 / 2 ^ 140)) ((cplx (Ieee Format.single)).error onec (Cplx.ofReal 0)) (Cplx.ofReal 0) (Cplx.ofReal 0) = ⟨.nan, .nan⟩ := by decide +kernel
  have e2 : (cplx (Ieee Format.single)).change (1 / .num false (1 / 2 ^ 140)) ((cplx (Ieee Format.single)).error onec (Cplx.ofReal 0)) (Cplx.ofReal 0) tinyc.conj = ⟨.nan, .nan⟩ := by decide +kernel
  have e3 : (cplx (Ieee Format.single)).error onec (Cplx.ofReal 0) = onec := by decide +kernel
  rw [e3] at e1 e2
  simp only [e1, Nat.min_self, List.zipWith_cons_cons, List.zipWith_nil_left, e2, e3, List.replicate_succ']

theorem final_window (Q : Parts E (Ieee F)) (z : E) (SIZE : ℕ) (hS : 0 < SIZE) (g : List E) (calls : List (E × E × Ieee F)) :
    (final (step Q) (List.replicate SIZE z, g) calls).1 = Spec.window SIZE z (calls.map fun a => Q.store a.1) := by
  induction calls using List.reverseRecOn with
  | nil => rw [List.map_nil, Spec.window_nil]; rfl
  | append_singleton l a ih =>
    rw [final_append, List.map_append, List.map_singleton, Spec.window_append _ hS, ← ih]
    rfl

theorem power_output (S : Spoils P Fin) (z : E) (SIZE : ℕ) (hS : 0 < SIZE) (before : List (E × E × Ieee F)) (a : E × E × Ieee F)
    (hp : (power P (Spec.window SIZE z ((before ++ [a]).map fun a => P.store a.1)) == 0) = false)
    (hb : ¬Fin (step P (final (step P) (List.replicate SIZE z, List.replicate SIZE z) before) a).2) :
    ∃ c ∈ (step P (final (step P) (List.replicate SIZE z, List.replicate SIZE z) before) a).1.2, ¬Fin c := by
  have hl := final_length (P := P) before (List.replicate SIZE z, List.replicate SIZE z) (by simpa using hS) (by simp)
  simp only [List.length_replicate] at hl
  refine step_error S _ a (by omega) (by omega) ?_ hb
  rw [final_window P z SIZE hS]
  rw [List.map_append, List.map_singleton, Spec.window_append _ hS] at hp
  exact hp

end LMS.Rounded

namespace NLMS.Rounded

variable {F : Format}

/-- **C100** A coefficient that is not finite: no later output is, and it stays so. -/
theorem C100_coefficient (SIZE : ℕ) (hS : 0 < SIZE) (before after : List (Ieee F × Ieee F × Ieee F)) :
    ∃ f es, run call (init SIZE) before = .ok (f, es) ∧ ((∃ c ∈ f.filter, ¬c.Finite) →
      ∃ f' es', run call f after = .ok (f', es') ∧ es'.length = after.length ∧ (∀ e ∈ es', ¬e.Finite) ∧ ∃ c ∈ f'.filter, ¬c.Finite) := by
  obtain ⟨f, e, h⟩ := run_call SIZE before _ _ (agrees_init SIZE hS)
  refine ⟨f, _, e, fun hb => ?_⟩
  obtain ⟨f', e', h'⟩ := run_call SIZE after f _ h
  have hl : (final (step (real (Ieee F))) (List.replicate SIZE 0, List.replicate SIZE 0) before).1.length = (final (step (real (Ieee F))) (List.replicate SIZE 0, List.replicate SIZE 0) before).2.length := by
    obtain ⟨r, hr⟩ := h.2.2
    rw [hr.wlen, h.2.1]
  obtain ⟨h1, h2⟩ := outputs_coeff (spoils_real F) after _ (by rw [h.2.1]; exact hS) hl (by rw [← h.1]; exact hb)
  exact ⟨f', _, e', outputs_length _ _, h1, by rw [h'.1]; exact h2⟩

/-- **C100** An input that is not finite spoils its own output, the coefficients and all later outputs. -/
theorem C100_input (SIZE : ℕ) (hS : 0 < SIZE) (before after : List (Ieee F × Ieee F × Ieee F)) (x d mu : Ieee F) (hx : ¬x.Finite) :
    ∃ f es es', run call (init SIZE) (before ++ (x, d, mu) :: after) = .ok (f, es ++ es') ∧ es.length = before.length ∧ es'.length = after.length + 1 ∧ (∀ e ∈ es', ¬e.Finite) ∧ ∃ c ∈ f.filter, ¬c.Finite := by
  obtain ⟨f, e, h⟩ := run_call SIZE (before ++ (x, d, mu) :: after) _ _ (agrees_init SIZE hS)
  rw [outputs_append, final_append] at *
  have hl := final_length (P := real (Ieee F)) before (List.replicate SIZE 0, List.replicate SIZE 0) (by simpa using hS) (by simp)
  simp only [List.length_replicate] at hl
  set s := final (step (real (Ieee F))) (List.replicate SIZE 0, List.replicate SIZE 0) before
  obtain ⟨h1, h2⟩ := step_input (spoils_real F) s (x, d, mu) (by omega) (by omega) hx
  obtain ⟨l1, l2⟩ := step_length (P := real (Ieee F)) s (x, d, mu) (by omega) (by omega)
  obtain ⟨h3, h4⟩ := outputs_coeff (spoils_real F) after _ (by omega) (by omega) h2
  refine ⟨f, _, _, e, outputs_length _ _, by rw [outputs_length]; simp, fun y hy => ?_, by rw [h.1]; exact h4⟩
  rw [outputs, List.mem_cons] at hy
  rcases hy with rfl | hy
  · exact h1
  · exact h3 y hy

/-- **C100** A single call on a new filter, all three numbers of it ordinary: `2^-70` squared is too small for its reciprocal. The first output is right, all later outputs are not even finite. -/
theorem C100_tiny (n : ℕ) (after : List (Ieee Format.single × Ieee Format.single × Ieee Format.single)) :
    ∃ f f' es, run call (init (n + 1)) [(tiny, 1, 1)] = .ok (f, [1]) ∧ f.filter = List.replicate n .nan ++ [.inf false] ∧ run call f after = .ok (f', es) ∧ es.length = after.length ∧ ∀ e ∈ es, ¬e.Finite := by
  obtain ⟨f, es, e, h⟩ := C100_coefficient (n + 1) (by omega) [(tiny, 1, 1)] after
  obtain ⟨g, e', ha⟩ := run_call (n + 1) [(tiny, 1, 1)] _ _ (agrees_init (V := Ieee Format.single) (n + 1) (by omega))
  have hs := step_tiny_real n
  simp only [outputs, final, hs] at e' ha
  rw [e'] at e
  simp only [Except.ok.injEq, Prod.mk.injEq] at e
  obtain ⟨rfl, rfl⟩ := e
  obtain ⟨f', es', h1, h2, h3, -⟩ := h ⟨.inf false, by rw [ha.1]; simp, fun c => c⟩
  exact ⟨g, f', es', e', ha.1, h1, h2, h3⟩

/-- **C100** An output that is not finite spoils the coefficients, unless the sum of the squares of the last inputs is zero. -/
theorem C100_output (SIZE : ℕ) (hS : 0 < SIZE) (before : List (Ieee F × Ieee F × Ieee F)) (x d mu : Ieee F)
    (hp : ((Spec.window SIZE 0 (before.map Prod.fst ++ [x])).foldl (fun a h => a + h * h) 0 == 0) = false) :
    ∃ f es e, run call (init SIZE) (before ++ [(x, d, mu)]) = .ok (f, es ++ [e]) ∧ es.length = before.length ∧ (¬e.Finite → ∃ c ∈ f.filter, ¬c.Finite) := by
  obtain ⟨f, e, h⟩ := run_call SIZE (before ++ [(x, d, mu)]) _ _ (agrees_init SIZE hS)
  rw [outputs_append, final_append] at *
  refine ⟨f, _, _, e, outputs_length _ _, fun hb => ?_⟩
  rw [h.1]
  exact power_output (spoils_real F) 0 SIZE hS before (x, d, mu) (by rw [List.map_append]; exact hp) hb

/-- An input as in `C100_input`, and inputs as in `C100_output`: the desired output is infinite, the input is one. -/
example : ¬(Ieee.inf true : Ieee Format.single).Finite ∧ ((Spec.window 3 0 ([(1 : Ieee Format.single), 2] ++ [1])).foldl (fun a h => a + h * h) 0 == 0) = false := by decide +kernel

end NLMS.Rounded

namespace NCLMS.Rounded

variable {F : Format}

/-- **C100** A coefficient that is not finite: no later output is, and it stays so. -/
theorem C100_coefficient (SIZE : ℕ) (hS : 0 < SIZE) (before after : List (Cplx (Ieee F) × Cplx (Ieee F) × Ieee F)) :
    ∃ f es, run call (init SIZE) before = .ok (f, es) ∧ ((∃ c ∈ f.filter, ¬Whole c) →
      ∃ f' es', run call f after = .ok (f', es') ∧ es'.length = after.length ∧ (∀ e ∈ es', ¬Whole e) ∧ ∃ c ∈ f'.filter, ¬Whole c) := by
  obtain ⟨f, e, h⟩ := run_call SIZE before _ _ (agrees_init SIZE hS)
  refine ⟨f, _, e, fun hb => ?_⟩
  obtain ⟨f', e', h'⟩ := run_call SIZE after f _ h
  have hl : (final (step (cplx (Ieee F))) (List.replicate SIZE (Cplx.ofReal 0), List.replicate SIZE (Cplx.ofReal 0)) before).1.length = (final (step (cplx (Ieee F))) (List.replicate SIZE (Cplx.ofReal 0), List.replicate SIZE (Cplx.ofReal 0)) before).2.length := by
    obtain ⟨r, hr⟩ := h.2.2
    rw [hr.wlen, h.2.1]
  obtain ⟨h1, h2⟩ := outputs_coeff (spoils_cplx F) after _ (by rw [h.2.1]; exact hS) hl (by rw [← h.1]; exact hb)
  exact ⟨f', _, e', outputs_length _ _, h1, by rw [h'.1]; exact h2⟩

/-- **C100** An input that is not finite spoils its own output, the coefficients and all later outputs. -/
theorem C100_input (SIZE : ℕ) (hS : 0 < SIZE) (before after : List (Cplx (Ieee F) × Cplx (Ieee F) × Ieee F)) (x d : Cplx (Ieee F)) (mu : Ieee F) (hx : ¬Whole x) :
    ∃ f es es', run call (init SIZE) (before ++ (x, d, mu) :: after) = .ok (f, es ++ es') ∧ es.length = before.length ∧ es'.length = after.length + 1 ∧ (∀ e ∈ es', ¬Whole e) ∧ ∃ c ∈ f.filter, ¬Whole c := by
  obtain ⟨f, e, h⟩ := run_call SIZE (before ++ (x, d, mu) :: after) _ _ (agrees_init SIZE hS)
  rw [outputs_append, final_append] at *
  have hl := final_length (P := cplx (Ieee F)) before (List.replicate SIZE (Cplx.ofReal 0), List.replicate SIZE (Cplx.ofReal 0)) (by simpa using hS) (by simp)
  simp only [List.length_replicate] at hl
  set s := final (step (cplx (Ieee F))) (List.replicate SIZE (Cplx.ofReal 0), List.replicate SIZE (Cplx.ofReal 0)) before
  obtain ⟨h1, h2⟩ := step_input (spoils_cplx F) s (x, d, mu) (by omega) (by omega) hx
  obtain ⟨l1, l2⟩ := step_length (P := cplx (Ieee F)) s (x, d, mu) (by omega) (by omega)
  obtain ⟨h3, h4⟩ := outputs_coeff (spoils_cplx F) after _ (by omega) (by omega) h2
  refine ⟨f, _, _, e, outputs_length _ _, by rw [outputs_length]; simp, fun y hy => ?_, by rw [h.1]; exact h4⟩
  rw [outputs, List.mem_cons] at hy
  rcases hy with rfl | hy
  · exact h1
  · exact h3 y hy

/-- **C100** A single call on a new filter, all three numbers of it ordinary: `2^-70` squared is too small for its reciprocal. The first output is right, all later outputs are not even finite. -/
theorem C100_tiny (n : ℕ) (after : List (Cplx (Ieee Format.single) × Cplx (Ieee Format.single) × Ieee Format.single)) :
    ∃ f f' es, run call (init (n + 1)) [(tinyc, onec, 1)] = .ok (f, [onec]) ∧ f.filter = List.replicate (n + 1) ⟨.nan, .nan⟩ ∧ run call f after = .ok (f', es) ∧ es.length = after.length ∧ ∀ e ∈ es, ¬Whole e := by
  obtain ⟨f, es, e, h⟩ := C100_coefficient (n + 1) (by omega) [(tinyc, onec, 1)] after
  obtain ⟨g, e', ha⟩ := run_call (n + 1) [(tinyc, onec, 1)] _ _ (agrees_init (V := Ieee Format.single) (n + 1) (by omega))
  have hs := step_tiny_cplx n
  simp only [outputs, final, hs] at e' ha
  rw [e'] at e
  simp only [Except.ok.injEq, Prod.mk.injEq] at e
  obtain ⟨rfl, rfl⟩ := e
  obtain ⟨f', es', h1, h2, h3, -⟩ := h ⟨⟨.nan, .nan⟩, by rw [ha.1]; simp, fun c => c.1⟩
  exact ⟨g, f', es', e', ha.1, h1, h2, h3⟩

/-- **C100** An output that is not finite spoils the coefficients, unless the sum of the squares of the magnitudes of the last inputs is zero. -/
theorem C100_output (SIZE : ℕ) (hS : 0 < SIZE) (before : List (Cplx (Ieee F) × Cplx (Ieee F) × Ieee F)) (x d : Cplx (Ieee F)) (mu : Ieee F)
    (hp : ((Spec.window SIZE (Cplx.ofReal 0) (before.map (fun a => a.1.conj) ++ [x.conj])).foldl (fun a h => a + h.norm) 0 == 0) = false) :
    ∃ f es e, run call (init SIZE) (before ++ [(x, d, mu)]) = .ok (f, es ++ [e]) ∧ es.length = before.length ∧ (¬Whole e → ∃ c ∈ f.filter, ¬Whole c) := by
  obtain ⟨f, e, h⟩ := run_call SIZE (before ++ [(x, d, mu)]) _ _ (agrees_init SIZE hS)
  rw [outputs_append, final_append] at *
  refine ⟨f, _, _, e, outputs_length _ _, fun hb => ?_⟩
  rw [h.1]
  exact power_output (spoils_cplx F) (Cplx.ofReal 0) SIZE hS before (x, d, mu) (by rw [List.map_append]; exact hp) hb

/-- The same for complex numbers. -/
example : ¬Whole (⟨0, .nan⟩ : Cplx (Ieee Format.single)) ∧ ((Spec.window 2 (Cplx.ofReal 0) ([onec.conj] ++ [tinyc.conj])).foldl (fun a h => a + h.norm) 0 == 0) = false :=
  ⟨fun h => h.2, by decide +kernel⟩

end NCLMS.Rounded
end DSP
