import Verif.Spec.Robust
import Mathlib.Data.List.Sort
import Mathlib.Data.List.Forall2
import Mathlib.Tactic.Linarith

/-! How medians follow their lists: counting arguments. -/

namespace DSP.Spec
variable {K : Type} [LinearOrder K]

theorem IsUpperMedian.split {v : K} {L : List K} (h : IsUpperMedian v L) :
    ∃ as bs : List K, (as ++ v :: bs).Perm L ∧ as.length = L.length / 2 ∧ (∀ a ∈ as, a ≤ v) ∧ (∀ b ∈ bs, v ≤ b) := by
  obtain ⟨zs, hp, hs, hk⟩ := h
  obtain ⟨hb, hv⟩ := List.getElem?_eq_some_iff.1 hk
  have e : zs = zs.take (L.length / 2) ++ v :: zs.drop (L.length / 2 + 1) := by
    conv_lhs => rw [← List.take_append_drop (L.length / 2) zs, List.drop_eq_getElem_cons hb, hv]
  refine ⟨zs.take (L.length / 2), zs.drop (L.length / 2 + 1), e ▸ hp, by rw [List.length_take]; omega, ?_, ?_⟩
  · intro a ha
    rw [e, List.pairwise_append] at hs
    exact hs.2.2 a ha v (by simp)
  · intro b hb
    rw [e, List.pairwise_append, List.pairwise_cons] at hs
    exact hs.2.1.1 b hb

/-- A lower set with more than half of the list contains the upper median. -/
theorem IsUpperMedian.lower {v : K} {L : List K} (h : IsUpperMedian v L) (P : K → Bool) (hP : ∀ a b, a ≤ b → P b = true → P a = true)
    (hc : L.length / 2 + 1 ≤ L.countP P) : P v = true := by
  obtain ⟨as, bs, hp, hl, ha, hb⟩ := h.split
  by_contra hv
  rw [← hp.countP_eq, List.countP_append, List.countP_cons, if_neg hv, List.countP_eq_zero.2 fun b hb' => fun hPb => hv (hP _ _ (hb b hb') hPb)] at hc
  have := List.countP_le_length (p := P) (l := as)
  omega

/-- An upper set with at least half of the list contains the upper median. -/
theorem IsUpperMedian.upper {v : K} {L : List K} (h : IsUpperMedian v L) (P : K → Bool) (hP : ∀ a b, a ≤ b → P a = true → P b = true)
    (hc : L.length - L.length / 2 ≤ L.countP P) : P v = true := by
  obtain ⟨as, bs, hp, hl, ha, hb⟩ := h.split
  by_contra hv
  have hlen := hp.length_eq
  simp only [List.length_append, List.length_cons] at hlen
  rw [← hp.countP_eq, List.countP_append, List.countP_cons, if_neg hv, List.countP_eq_zero.2 fun a ha' => fun hPa => hv (hP _ _ (ha a ha') hPa)] at hc
  have := List.countP_le_length (p := P) (l := bs)
  omega

theorem IsUpperMedian.count_le {v : K} {L : List K} (h : IsUpperMedian v L) : L.length / 2 + 1 ≤ L.countP (fun a => decide (a ≤ v)) := by
  obtain ⟨as, bs, hp, hl, ha, hb⟩ := h.split
  rw [← hp.countP_eq, List.countP_append, List.countP_cons, List.countP_eq_length.2 (fun a h => by simpa using ha a h)]
  simp
  omega

theorem IsUpperMedian.count_ge {v : K} {L : List K} (h : IsUpperMedian v L) : L.length - L.length / 2 ≤ L.countP (fun a => decide (v ≤ a)) := by
  obtain ⟨as, bs, hp, hl, ha, hb⟩ := h.split
  have hlen := hp.length_eq
  simp only [List.length_append, List.length_cons] at hlen
  rw [← hp.countP_eq, List.countP_append, List.countP_cons, (List.countP_eq_length (l := bs)).2 (fun a h => by simpa using hb a h)]
  simp
  omega

theorem countP_forall₂ {α β : Type} {R : α → β → Prop} {P : α → Bool} {Q : β → Bool} {as : List α} {bs : List β} (h : List.Forall₂ R as bs)
    (hPQ : ∀ a b, R a b → P a = true → Q b = true) : as.countP P ≤ bs.countP Q := by
  induction h with
  | nil => simp
  | cons h1 _ ih =>
    rw [List.countP_cons, List.countP_cons]
    split
    · rw [if_pos (hPQ _ _ h1 ‹_›)]; omega
    · split <;> omega

theorem exists_upperMedian (L : List K) (hL : L ≠ []) : ∃ v, IsUpperMedian v L := by
  have hpos : 0 < L.length := List.length_pos_of_ne_nil hL
  have p1 := List.mergeSort_perm L (fun a b => decide (a ≤ b))
  have s1 := List.pairwise_mergeSort (le := fun a b : K => decide (a ≤ b)) (by simpa using fun a b c => le_trans)
    (by simpa using le_total) L
  simp only [decide_eq_true_eq] at s1
  exact ⟨_, _, p1, s1, List.getElem?_eq_getElem (by rw [p1.length_eq]; omega)⟩

/-- Two lists whose elements correspond within monotone bounds have medians within these bounds. -/
theorem IsUpperMedian.within {V : Type} [LinearOrder V] {val : V → K} (hval : Monotone val) {lo hi : K → K} (hlo : Monotone lo) (hhi : Monotone hi)
    {L : List V} {R : List K} (h : List.Forall₂ (fun a r => lo r ≤ val a ∧ val a ≤ hi r) L R) {v : V} {m : K} (hv : IsUpperMedian v L)
    (hm : IsUpperMedian m R) : lo m ≤ val v ∧ val v ≤ hi m := by
  have hlen := h.length_eq
  constructor
  · have := hv.upper (fun a => decide (lo m ≤ val a)) (fun a b hab ha => by
      simp only [decide_eq_true_eq] at ha ⊢; exact ha.trans (hval hab)) (by
      rw [hlen]
      refine hm.count_ge.trans (countP_forall₂ h.flip ?_)
      intro a b hab ha
      simp only [decide_eq_true_eq] at ha ⊢
      exact (hlo ha).trans hab.1)
    simpa using this
  · have := hv.lower (fun a => decide (val a ≤ hi m)) (fun a b hab ha => by
      simp only [decide_eq_true_eq] at ha ⊢; exact (hval hab).trans ha) (by
      rw [hlen]
      refine hm.count_le.trans (countP_forall₂ h.flip ?_)
      intro a b hab ha
      simp only [decide_eq_true_eq] at ha ⊢
      exact hab.2.trans (hhi ha))
    simpa using this

/-- An interval with more than half of the list contains the upper median. -/
theorem IsUpperMedian.interval {V : Type} [LinearOrder V] {val : V → K} (hval : Monotone val) (a b : K) {L : List V} {v : V} (hv : IsUpperMedian v L)
    (hc : L.length < 2 * L.countP (fun w => decide (a ≤ val w ∧ val w ≤ b))) : a ≤ val v ∧ val v ≤ b := by
  constructor
  · have := hv.upper (fun w => decide (a ≤ val w)) (fun x y hxy hx => by
      simp only [decide_eq_true_eq] at hx ⊢; exact hx.trans (hval hxy)) (by
      have : L.countP (fun w => decide (a ≤ val w ∧ val w ≤ b)) ≤ L.countP (fun w => decide (a ≤ val w)) :=
        List.countP_mono_left fun w _ hw => by simp only [decide_eq_true_eq] at hw ⊢; exact hw.1
      omega)
    simpa using this
  · have := hv.lower (fun w => decide (val w ≤ b)) (fun x y hxy hx => by
      simp only [decide_eq_true_eq] at hx ⊢; exact (hval hxy).trans hx) (by
      have : L.countP (fun w => decide (a ≤ val w ∧ val w ≤ b)) ≤ L.countP (fun w => decide (val w ≤ b)) :=
        List.countP_mono_left fun w _ hw => by simp only [decide_eq_true_eq] at hw ⊢; exact hw.2
      omega)
    simpa using this

end DSP.Spec
