import Verif.Model.SMA
import Verif.Lemmas.Delay
import Mathlib.Data.List.Rotate
import Mathlib.Algebra.BigOperators.Intervals
import Mathlib.Tactic.Ring

namespace DSP
variable {α : Type}

theorem Delay.Rep.rotate {NUM : Nat} {d : Delay α} {w : List α} (h : Delay.Rep NUM d w) :
    w = d.buf.rotate d.pos.toNat := by
  obtain ⟨hn, hlen, hw, hp0, hp1, hcells⟩ := h
  apply List.ext_getElem?
  intro j
  by_cases hj : j < NUM
  · rw [List.getElem?_rotate (by omega), hlen]
    by_cases hh : j + d.pos.toNat < NUM
    · rw [Nat.mod_eq_of_lt hh]
      exact (hcells j _ hj hh (by omega)).symm
    · have e : (j + d.pos.toNat) % NUM = j + d.pos.toNat - NUM := by
        rw [Nat.mod_eq_sub_mod (by omega), Nat.mod_eq_of_lt (by omega)]
      rw [e]
      exact (hcells j _ hj (by omega) (by omega)).symm
  · rw [List.getElem?_eq_none (by omega), List.getElem?_eq_none (by simp; omega)]

theorem Delay.Rep.perm {NUM : Nat} {d : Delay α} {w : List α} (h : Delay.Rep NUM d w) : w.Perm d.buf := by
  rw [h.rotate]; exact List.rotate_perm _ _

namespace SWA

/-- The memory `t` of `n` cells holds `f`. -/
def Holds (n : Nat) (t : List α) (f : Nat → α) : Prop := t.length = n ∧ ∀ i, i < n → t[i]? = some (f i)

theorem Holds.rd {n : Nat} {t : List α} {f : Nat → α} (h : Holds n t f) {i : Nat} (hi : i < n) :
    DSP.rd t i = .ok (f i) := rd_of_getElem? (by omega) (by simpa using h.2 i hi)

theorem Holds.wr {n : Nat} {t : List α} {f : Nat → α} (h : Holds n t f) {i : Nat} (hi : i < n) (v : α) :
    ∃ t', DSP.wr t i v = .ok t' ∧ Holds n t' (Function.update f i v) := by
  refine ⟨_, wr_nat (by rw [h.1]; exact hi), by simp [h.1], ?_⟩
  intro j hj
  by_cases e : i = j
  · subst e; simp [h.1, hi]
  · rw [List.getElem?_set_ne e, Function.update_of_ne (Ne.symm e)]
    exact h.2 j hj

theorem xor_one (c : Nat) : c ^^^ 1 = if c % 2 = 0 then c + 1 else c - 1 := by
  have h1 : (c ^^^ 1) / 2 = c / 2 := by
    have : (c ^^^ 1) >>> 1 = c >>> 1 := by rw [Nat.shiftRight_xor_distrib]; simp
    simpa [Nat.shiftRight_eq_div_pow] using this
  have h2 : (c ^^^ 1) % 2 = (c + 1) % 2 := by
    have := Nat.xor_mod_two_eq_one (a := c) (b := 1)
    omega
  split <;> omega

theorem climb_ok {op : α → α → α} (hc : ∀ a b, op a b = op b a) {NUM : Nat} (fuel child : Nat) (t : List α)
    (f : Nat → α) (hf : child ≤ fuel) (h : Holds (2 * NUM) t f) (h1 : child < 2 * NUM)
    (hI : ∀ i, 1 ≤ i → i < NUM → i ≠ child / 2 → f i = op (f (2 * i)) (f (2 * i + 1))) :
    ∃ t' f', climb op fuel child (child / 2) t = .ok t' ∧ Holds (2 * NUM) t' f' ∧
      (∀ i, 1 ≤ i → i < NUM → f' i = op (f' (2 * i)) (f' (2 * i + 1))) ∧ ∀ i, child / 2 < i → f' i = f i := by
  induction fuel generalizing child t f with
  | zero =>
    obtain rfl : child = 0 := by omega
    refine ⟨t, f, by simp [climb, pure, Except.pure], h, fun i hi hi' => hI i hi hi' (by omega), fun _ _ => rfl⟩
  | succ fuel ih =>
    by_cases hp : child / 2 = 0
    · refine ⟨t, f, by unfold climb; simp [hp, pure, Except.pure], h, fun i hi hi' => hI i hi hi' (by omega),
        fun _ _ => rfl⟩
    · have hx : child ^^^ 1 < 2 * NUM := by rw [xor_one]; split <;> omega
      obtain ⟨t1, e1, h1'⟩ := h.wr (i := child / 2) (by omega) (op (f child) (f (child ^^^ 1)))
      have hv : op (f child) (f (child ^^^ 1)) = op (f (2 * (child / 2))) (f (2 * (child / 2) + 1)) := by
        rw [xor_one]
        split
        · congr 2 <;> omega
        · rw [hc]; congr 2 <;> omega
      obtain ⟨t2, f2, e2, h2, hI2, hle⟩ := ih (child / 2) t1 _ (by omega) h1' (by omega) (by
        intro i hi hi' hne
        have n1 : 2 * i ≠ child / 2 := by omega
        have n2 : 2 * i + 1 ≠ child / 2 := by omega
        rw [Function.update_of_ne n1, Function.update_of_ne n2]
        by_cases e : i = child / 2
        · rw [e, Function.update_self, hv]
        · rw [Function.update_of_ne e]; exact hI i hi hi' e)
      refine ⟨t2, f2, ?_, h2, hI2, ?_⟩
      · unfold climb
        have hp' : (child / 2 == 0) = false := by simpa using hp
        simp only [hp', Bool.false_eq_true, if_false, bind, Except.bind, h.rd h1, h.rd hx, e1, e2]
      · intro i hi
        rw [hle i (by omega), Function.update_of_ne (by omega)]

/-- The leaves as a ring. -/
def ring (s : SWA α) : Delay α := { num := s.num, buf := s.tree.drop s.num, pos := (s.leaf : Int) - s.num }

/-- The tree is consistent and its leaves hold `w`. -/
structure Rep (op : α → α → α) (NUM : Nat) (s : SWA α) (w : List α) : Prop where
  num : s.num = NUM
  leaves : Delay.Rep NUM s.ring w
  tree : ∃ f, Holds (2 * NUM) s.tree f ∧ ∀ i, 1 ≤ i → i < NUM → f i = op (f (2 * i)) (f (2 * i + 1))

theorem Rep.init {op : α → α → α} {NUM : Nat} (hN : 0 < NUM) (e : α) (he : op e e = e) :
    Rep op NUM (SWA.init NUM e) (List.replicate NUM e) := by
  refine ⟨rfl, ?_, fun _ => e, ⟨by simp [SWA.init], fun i hi => by simp [SWA.init, hi]⟩, fun _ _ _ => he.symm⟩
  have := Delay.Rep.init hN e
  have e2 : (SWA.init NUM e).ring = Delay.init NUM e := by
    simp [ring, SWA.init, Delay.init]; omega
  rw [e2]; exact this

/-- The value at the root is a function of the leaves. -/
def eval (op : α → α → α) (NUM : Nat) (leaf : Nat → α) (i : Nat) : α :=
  if h : i = 0 ∨ NUM ≤ i then leaf i else op (eval op NUM leaf (2 * i)) (eval op NUM leaf (2 * i + 1))
termination_by 2 * NUM - i
decreasing_by all_goals omega

theorem eval_leaf (op : α → α → α) (NUM : Nat) (f : Nat → α) (i : Nat) (h : NUM ≤ i) : eval op NUM f i = f i := by
  rw [eval, dif_pos (by omega)]

theorem eval_node (op : α → α → α) (NUM : Nat) (f : Nat → α) (i : Nat) (h1 : 1 ≤ i) (h : i < NUM) :
    eval op NUM f i = op (eval op NUM f (2 * i)) (eval op NUM f (2 * i + 1)) := by
  rw [eval, dif_neg (by omega)]

theorem eval_eq {op : α → α → α} {NUM : Nat} {f : Nat → α}
    (hI : ∀ i, 1 ≤ i → i < NUM → f i = op (f (2 * i)) (f (2 * i + 1))) (i : Nat) (hi : 1 ≤ i) :
    f i = eval op NUM f i := by
  by_cases h : i < NUM
  · rw [eval, dif_neg (by omega), ← eval_eq hI (2 * i) (by omega), ← eval_eq hI (2 * i + 1) (by omega)]
    exact hI i hi h
  · rw [eval, dif_pos (by omega)]
termination_by 2 * NUM - i
decreasing_by all_goals omega

theorem eval_congr {op : α → α → α} {NUM : Nat} {f g : Nat → α} (h : ∀ i, NUM ≤ i → i < 2 * NUM → f i = g i) (i : Nat)
    (hi : 1 ≤ i) (hi' : i < 2 * NUM) : eval op NUM f i = eval op NUM g i := by
  by_cases hn : i < NUM
  · rw [eval_node _ _ _ _ hi hn, eval_node _ _ _ _ hi hn, eval_congr h (2 * i) (by omega) (by omega),
      eval_congr h (2 * i + 1) (by omega) (by omega)]
  · rw [eval_leaf _ _ _ _ (by omega), eval_leaf _ _ _ _ (by omega), h i (by omega) hi']
termination_by 2 * NUM - i
decreasing_by all_goals omega

theorem Rep.call {op : α → α → α} (hc : ∀ a b, op a b = op b a) {NUM : Nat} (hN : 0 < NUM) {s : SWA α} {w : List α}
    (h : Rep op NUM s w) (x : α) :
    ∃ s' f, s.call op x = .ok (s', eval op NUM f 1) ∧ Rep op NUM s' (w.tail ++ [x]) ∧ Holds (2 * NUM) s'.tree f ∧
      s'.leaf = if s.leaf + 1 ≥ 2 * NUM then NUM else s.leaf + 1 := by
  obtain ⟨hn, hl, f, hf, hI⟩ := h
  have hp0 := hl.pos0
  have hp1 := hl.pos1
  simp only [ring] at hp0 hp1
  have hw := hl.wlen
  obtain ⟨y, w', rfl⟩ : ∃ y w', w = y :: w' := by
    cases w with
    | nil => simp at hw; omega
    | cons y w' => exact ⟨y, w', rfl⟩
  obtain ⟨d', ed, hd'⟩ := hl.call x
  obtain ⟨t1, e1, h1⟩ := hf.wr (i := s.leaf) (by omega) x
  obtain ⟨t2, f2, e2, h2, hI2, hle⟩ := climb_ok hc s.leaf s.leaf t1 _ (le_refl _) h1 (by omega) (by
    intro i hi hi' hne
    rw [Function.update_of_ne (by omega), Function.update_of_ne (by omega), Function.update_of_ne (by omega)]
    exact hI i hi hi')
  have hrd : DSP.rd t2 ((1 : Nat) : Int) = .ok (f2 1) := h2.rd (by omega)
  have hdrop : t2.drop NUM = (s.tree.drop NUM).set (s.leaf - NUM) x := by
    apply List.ext_getElem?
    intro j
    rw [List.getElem?_drop]
    by_cases hj : j < NUM
    · rw [h2.2 _ (by omega), hle _ (by omega)]
      by_cases e : s.leaf - NUM = j
      · subst e
        rw [List.getElem?_set_self (by simp [hf.1]; omega)]
        rw [show NUM + (s.leaf - NUM) = s.leaf by omega, Function.update_self]
      · rw [List.getElem?_set_ne e, Function.update_of_ne (by omega), List.getElem?_drop, hf.2 _ (by omega)]
    · rw [List.getElem?_eq_none (by rw [h2.1]; omega), List.getElem?_eq_none (by simp [hf.1]; omega)]
  generalize hL : (if s.leaf + 1 ≥ 2 * s.num then s.num else s.leaf + 1) = L
  refine ⟨{ s with tree := t2, leaf := L }, f2, ?_, ⟨hn, ?_, f2, h2, hI2⟩, h2, by rw [← hL, hn]⟩
  · rw [← eval_eq hI2 1 (le_refl _)]
    simp only [Nat.cast_one] at hrd
    simp [SWA.call, e1, e2, hrd, hL, bind, Except.bind, pure, Except.pure]
  · have hbuf : (s.tree.drop s.num).length = NUM := hl.len
    have hr1 : DSP.rd (s.tree.drop s.num) ((s.leaf : Int) - s.num) = .ok y := by
      apply rd_of_getElem? (by omega)
      have := hl.cells 0 (s.leaf - NUM) (by omega) (by omega) (by simp [ring]; omega)
      simp only [ring, List.getElem?_cons_zero] at this
      rw [show ((s.leaf : Int) - s.num).toNat = s.leaf - NUM by omega]; exact this
    have hw1 : DSP.wr (s.tree.drop s.num) ((s.leaf : Int) - s.num) x =
        .ok ((s.tree.drop s.num).set (s.leaf - NUM) x) := by
      rw [wr_ok (by omega) (by omega), show ((s.leaf : Int) - s.num).toNat = s.leaf - NUM by omega]
    have : d' = { num := s.num, buf := t2.drop s.num, pos := (L : Int) - s.num } := by
      rw [show s.ring = ⟨s.num, s.tree.drop s.num, (s.leaf : Int) - s.num⟩ from rfl] at ed
      simp only [Delay.call, hr1, hw1, bind, Except.bind, pure, Except.pure, Except.ok.injEq,
        Prod.mk.injEq] at ed
      rw [← ed.1]
      rw [← hn] at hdrop
      rw [hdrop]
      simp only [Delay.mk.injEq, true_and]
      refine ⟨by rw [hn], ?_⟩
      by_cases hc1 : (s.leaf : Int) - s.num + 1 ≥ s.num
      · rw [if_pos hc1]; rw [if_pos (by omega)] at hL; omega
      · rw [if_neg hc1]; rw [if_neg (by omega)] at hL; omega
    rw [this] at hd'
    exact hd'

/-- In a commutative monoid each level of the tree has the same product. -/
theorem eval_prod [CommMonoid α] {NUM : Nat} {f : Nat → α} (m : Nat) (h1 : 1 ≤ m) (h2 : m ≤ NUM) :
    eval (· * ·) NUM f 1 = ∏ i ∈ Finset.Ico m (2 * m), eval (· * ·) NUM f i := by
  induction m, h1 using Nat.le_induction with
  | base => simp
  | succ m hm ih =>
    rw [ih (by omega), Finset.prod_eq_prod_Ico_succ_bot (by omega), eval_node _ _ _ _ hm (by omega),
      show 2 * (m + 1) = 2 * m + 1 + 1 by ring, Finset.prod_Ico_succ_top (by omega),
      Finset.prod_Ico_succ_top (by omega)]
    ac_rfl

theorem eval_eq_prod [CommMonoid α] {NUM : Nat} (hN : 0 < NUM) {s : SWA α} {w : List α} {f : Nat → α}
    (h : Rep (· * ·) NUM s w) (hf : Holds (2 * NUM) s.tree f) : eval (· * ·) NUM f 1 = w.prod := by
  rw [eval_prod NUM hN (le_refl _), (h.leaves.perm).prod_eq]
  have hb : s.ring.buf = (List.range NUM).map (fun i => f (NUM + i)) := by
    apply List.ext_getElem?
    intro j
    simp only [ring, h.num, List.getElem?_drop, List.getElem?_map]
    by_cases hj : j < NUM
    · rw [hf.2 _ (by omega), List.getElem?_range hj]; rfl
    · rw [List.getElem?_eq_none (by rw [hf.1]; omega), List.getElem?_eq_none (by simp; omega)]; rfl
  rw [hb, show ((List.range NUM).map (fun i => f (NUM + i))).prod = ∏ i ∈ Finset.range NUM, f (NUM + i) from rfl]
  rw [Finset.prod_Ico_eq_prod_range]
  rw [show 2 * NUM - NUM = NUM by omega]
  apply Finset.prod_congr rfl
  intro i _
  exact eval_leaf _ _ _ _ (by omega)

end SWA
end DSP
