import Verif.Model.Quick
import Verif.Lemmas.Base
import Verif.Spec.Order
import Mathlib.Data.List.Basic
import Mathlib.Tactic.ByContra

namespace DSP
variable {α : Type}

/-- The cell at an integer index. -/
def ix (a : List α) (i : Int) : Option α := if 0 ≤ i then a[i.toNat]? else none

theorem rd_iff {a : List α} {i : Int} {x : α} : rd a i = .ok x ↔ ix a i = some x := by
  rw [rd_eq_ok_iff, ix]
  by_cases h : 0 ≤ i <;> simp [h]

theorem ix_some {a : List α} {i : Int} (h0 : 0 ≤ i) (h1 : i < a.length) : ∃ x, ix a i = some x := by
  rw [ix, if_pos h0]
  exact ⟨a[i.toNat]'(by omega), List.getElem?_eq_getElem _⟩

theorem ix_nat (a : List α) (i : Nat) : ix a i = a[i]? := by simp [ix]

theorem ix_bounds {a : List α} {i : Int} {x : α} (h : ix a i = some x) : 0 ≤ i ∧ i < a.length := by
  unfold ix at h
  split at h
  · have := (List.getElem?_eq_some_iff.1 h).1; omega
  · simp at h

theorem ix_set {a : List α} {i k : Int} {v : α} (h0 : 0 ≤ i) (h1 : i < a.length) :
    ix (a.set i.toNat v) k = if k = i then some v else ix a k := by
  unfold ix
  by_cases hk : 0 ≤ k
  · rw [if_pos hk, if_pos hk, List.getElem?_set]
    by_cases e : k = i
    · subst e; rw [if_pos rfl, if_pos rfl, if_pos (by omega)]
    · rw [if_neg (by omega), if_neg e]
  · rw [if_neg hk, if_neg hk, if_neg (by omega)]

/-- `a'` is `a` with the cells `l..h` permuted. -/
structure Upd (l h : Int) (a a' : List α) : Prop where
  len : a'.length = a.length
  perm : a'.Perm a
  out : ∀ k, k < l ∨ h < k → ix a' k = ix a k
  org : ∀ k, l ≤ k → k ≤ h → ∃ m, l ≤ m ∧ m ≤ h ∧ ix a' k = ix a m

namespace Upd

theorem refl (l h : Int) (a : List α) : Upd l h a a := ⟨rfl, .refl _, fun _ _ => rfl, fun k h1 h2 => ⟨k, h1, h2, rfl⟩⟩

theorem trans {l h : Int} {a b c : List α} (h1 : Upd l h a b) (h2 : Upd l h b c) : Upd l h a c := by
  refine ⟨h2.len.trans h1.len, h2.perm.trans h1.perm, fun k hk => (h2.out k hk).trans (h1.out k hk), fun k hl hh => ?_⟩
  obtain ⟨m, m1, m2, e⟩ := h2.org k hl hh
  obtain ⟨m', m1', m2', e'⟩ := h1.org m m1 m2
  exact ⟨m', m1', m2', e.trans e'⟩

theorem mono {l h l' h' : Int} {a b : List α} (u : Upd l h a b) (hl : l' ≤ l) (hh : h ≤ h') : Upd l' h' a b := by
  refine ⟨u.len, u.perm, fun k hk => u.out k (by omega), fun k h1 h2 => ?_⟩
  by_cases hk : l ≤ k ∧ k ≤ h
  · obtain ⟨m, m1, m2, e⟩ := u.org k hk.1 hk.2
    exact ⟨m, by omega, by omega, e⟩
  · exact ⟨k, h1, h2, u.out k (by omega)⟩

end Upd

/-- All cells from `l` to `h` satisfy `P`. -/
def AllIx (l h : Int) (P : α → Prop) (a : List α) : Prop := ∀ k, l ≤ k → k ≤ h → ∀ x, ix a k = some x → P x

theorem AllIx.upd {l h : Int} {P : α → Prop} {a b : List α} (H : AllIx l h P a) (u : Upd l h a b) : AllIx l h P b := by
  intro k h1 h2 x hx
  obtain ⟨m, m1, m2, e⟩ := u.org k h1 h2
  exact H m m1 m2 x (e ▸ hx)

theorem AllIx.outside {l h l' h' : Int} {P : α → Prop} {a b : List α} (H : AllIx l h P a) (u : Upd l' h' a b)
    (hd : h < l' ∨ h' < l) : AllIx l h P b := by
  intro k h1 h2 x hx
  rw [u.out k (by omega)] at hx
  exact H k h1 h2 x hx

/-- The cells from `l` to `h` are in order. -/
def SortedIx (lt : α → α → Bool) (l h : Int) (a : List α) : Prop :=
  ∀ i j x y, l ≤ i → i < j → j ≤ h → ix a i = some x → ix a j = some y → lt y x = false

theorem SortedIx.outside {lt : α → α → Bool} {l h l' h' : Int} {a b : List α} (H : SortedIx lt l h a) (u : Upd l' h' a b)
    (hd : h < l' ∨ h' < l) : SortedIx lt l h b := by
  intro i j x y h1 h2 h3 hx hy
  rw [u.out i (by omega)] at hx
  rw [u.out j (by omega)] at hy
  exact H i j x y h1 h2 h3 hx hy

namespace Quick

theorem swap_ok {a : List α} {i j l h : Int} (h0 : 0 ≤ l) (h1 : h < a.length) (hi : l ≤ i ∧ i ≤ h) (hj : l ≤ j ∧ j ≤ h) :
    ∃ a', swap a i j = .ok a' ∧ Upd l h a a' ∧ ix a' j = ix a i ∧ ix a' i = ix a j ∧
      ∀ k, k ≠ i → k ≠ j → ix a' k = ix a k := by
  obtain ⟨x, hx⟩ := ix_some (a := a) (i := i) (by omega) (by omega)
  obtain ⟨y, hy⟩ := ix_some (a := a) (i := j) (by omega) (by omega)
  have e : swap a i j = .ok ((a.set i.toNat y).set j.toNat x) := by
    simp only [swap, rd_iff.2 hx, rd_iff.2 hy, bind, Except.bind]
    rw [wr_ok (by omega) (by omega)]
    simp only
    rw [wr_ok (by omega) (by simp; omega)]
  have hix : ∀ k, ix ((a.set i.toNat y).set j.toNat x) k = if k = j then some x else if k = i then some y else ix a k := by
    intro k
    rw [ix_set (by omega) (by simp; omega), ix_set (by omega) (by omega)]
  refine ⟨_, e, ⟨by simp, ?_, ?_, ?_⟩, ?_, ?_, ?_⟩
  · have hx' := hx
    have hy' := hy
    rw [ix, if_pos (by omega), List.getElem?_eq_some_iff] at hx' hy'
    obtain ⟨b1, rfl⟩ := hx'
    obtain ⟨b2, rfl⟩ := hy'
    exact List.set_set_perm b1 b2
  · intro k hk
    rw [hix, if_neg (by omega), if_neg (by omega)]
  · intro k hk1 hk2
    rw [hix]
    by_cases e1 : k = j
    · exact ⟨i, hi.1, hi.2, by rw [if_pos e1, hx]⟩
    by_cases e2 : k = i
    · exact ⟨j, hj.1, hj.2, by rw [if_neg e1, if_pos e2, hy]⟩
    · exact ⟨k, hk1, hk2, by rw [if_neg e1, if_neg e2]⟩
  · rw [hix, if_pos rfl, hx]
  · rw [hix, hy]
    by_cases e1 : i = j
    · subst e1; rw [if_pos rfl, ← hx, hy]
    · rw [if_neg e1, if_pos rfl]
  · intro k k1 k2
    rw [hix, if_neg k2, if_neg k1]

theorem swap_upd {a : List α} {i j l h : Int} (h0 : 0 ≤ l) (h1 : h < a.length) (hi : l ≤ i ∧ i ≤ h) (hj : l ≤ j ∧ j ≤ h) :
    ∃ a', swap a i j = .ok a' ∧ Upd l h a a' := by
  obtain ⟨a', e, u, -⟩ := swap_ok h0 h1 hi hj
  exact ⟨a', e, u⟩

theorem less_ok (lt : α → α → Bool) {a : List α} {i j : Int} (hi : 0 ≤ i ∧ i < a.length) (hj : 0 ≤ j ∧ j < a.length) :
    ∃ b, less lt a i j = .ok b := by
  obtain ⟨x, hx⟩ := ix_some hi.1 hi.2
  obtain ⟨y, hy⟩ := ix_some hj.1 hj.2
  exact ⟨lt x y, by simp only [less, rd_iff.2 hx, rd_iff.2 hy, bind, Except.bind, pure, Except.pure]⟩

/-- A conditional update. -/
theorem ite_upd {l h : Int} {a : List α} (c : Bool) {t e : M (List α)} (ht : ∃ a', t = .ok a' ∧ Upd l h a a')
    (he : ∃ a', e = .ok a' ∧ Upd l h a a') : ∃ a', M.ite c t e = .ok a' ∧ Upd l h a a' := by
  cases c
  · exact he
  · exact ht

theorem pure_upd {l h : Int} {a : List α} : ∃ a', (pure a : M (List α)) = .ok a' ∧ Upd l h a a' := ⟨a, rfl, .refl _ _ _⟩

theorem bind_upd {l h : Int} {a : List α} {t : M (List α)} {f : List α → M (List α)} (ht : ∃ a', t = .ok a' ∧ Upd l h a a')
    (hf : ∀ b, Upd l h a b → ∃ a', f b = .ok a' ∧ Upd l h b a') : ∃ a', t >>= f = .ok a' ∧ Upd l h a a' := by
  obtain ⟨b, rfl, u⟩ := ht
  obtain ⟨c, e, u'⟩ := hf b u
  exact ⟨c, e, u.trans u'⟩

theorem bind_less {l h : Int} {a : List α} (lt : α → α → Bool) {i j : Int} {f : Bool → M (List α)}
    (hi : 0 ≤ i ∧ i < a.length) (hj : 0 ≤ j ∧ j < a.length)
    (hf : ∀ b, ∃ a', f b = .ok a' ∧ Upd l h a a') : ∃ a', less lt a i j >>= f = .ok a' ∧ Upd l h a a' := by
  obtain ⟨b, e⟩ := less_ok lt hi hj
  rw [e]; exact hf b

theorem median_ok (lt : α → α → Bool) {A : List α} {l h a b c d e : Int} (h0 : 0 ≤ l) (h1 : h < A.length)
    (ha : l ≤ a ∧ a ≤ h) (hb : l ≤ b ∧ b ≤ h) (hc : l ≤ c ∧ c ≤ h) (hd : l ≤ d ∧ d ≤ h) (he : l ≤ e ∧ e ≤ h) :
    ∃ A', median lt A a b c d e = .ok A' ∧ Upd l h A A' := by
  unfold median
  refine bind_less lt (by omega) (by omega) fun t => ?_
  refine bind_upd (ite_upd _ (swap_upd h0 h1 ha hc) pure_upd) fun A1 u1 => ?_
  have l1 := u1.len
  refine bind_less lt (by omega) (by omega) fun t => ?_
  refine bind_upd (ite_upd _ (swap_upd h0 (by omega) hb hd) pure_upd) fun A2 u2 => ?_
  have l2 := u2.len
  refine bind_less lt (by omega) (by omega) fun t => ?_
  refine bind_upd (ite_upd _ (bind_upd (swap_upd h0 (by omega) hc hd) fun X uX => ?_) pure_upd) fun A3 u3 => ?_
  · have := uX.len
    exact swap_upd h0 (by omega) ha hb
  have l3 := u3.len
  refine bind_less lt (by omega) (by omega) fun t => ?_
  refine bind_upd (ite_upd _ (swap_upd h0 (by omega) hb he) pure_upd) fun A4 u4 => ?_
  have l4 := u4.len
  refine bind_less lt (by omega) (by omega) fun t => ?_
  refine ite_upd _ ?_ ?_
  · refine bind_upd (swap_upd h0 (by omega) hc he) fun X uX => ?_
    have := uX.len
    exact bind_less lt (by omega) (by omega) fun t => ite_upd _ (swap_upd h0 (by omega) ha hc) pure_upd
  · exact bind_less lt (by omega) (by omega) fun t => ite_upd _ (swap_upd h0 (by omega) hb hc) pure_upd

/-- What the three regions look like. -/
structure Parted (lt : α → α → Bool) (p : α) (L H l h : Int) (a : List α) : Prop where
  low : AllIx L (l - 1) (fun x => lt x p = true) a
  high : AllIx (h + 1) H (fun x => lt p x = true) a

theorem partLoop_ok (lt : α → α → Bool) (hirr : ∀ x, lt x x = false) (p : α) (L H : Int) (fuel : Nat) (a : List α)
    (i l h : Int) (hf : h + 1 - i ≤ fuel) (hL : 0 ≤ L) (hH : H < a.length) (h1 : L ≤ l) (h2 : l ≤ i) (h3 : i ≤ h + 1) (h4 : h ≤ H)
    (hP : Parted lt p L H l h a) (hmid : AllIx l (i - 1) (fun x => lt x p = false ∧ lt p x = false) a)
    (hex : ∃ m, l ≤ m ∧ m ≤ h ∧ ix a m = some p) :
    ∃ a' l' h', partLoop lt p fuel a i l h = .ok (a', l', h') ∧ Upd L H a a' ∧ L ≤ l' ∧ l' ≤ h' ∧ h' ≤ H ∧
      Parted lt p L H l' h' a' ∧ AllIx l' h' (fun x => lt x p = false ∧ lt p x = false) a' := by
  induction fuel generalizing a i l h with
  | zero =>
    have : ¬ i ≤ h := by omega
    unfold partLoop
    rw [if_neg this]
    obtain ⟨m, m1, m2, -⟩ := hex
    exact ⟨a, l, h, rfl, .refl _ _ _, h1, by omega, h4, hP, fun k k1 k2 => hmid k k1 (by omega)⟩
  | succ fuel ih =>
    unfold partLoop
    obtain ⟨m, m1, m2, hm⟩ := hex
    by_cases hi : i ≤ h
    · rw [if_pos hi]
      obtain ⟨x, hx⟩ := ix_some (a := a) (i := i) (by omega) (by omega)
      simp only [rd_iff.2 hx, bind, Except.bind]
      by_cases hlt : lt x p = true
      · rw [if_pos hlt]
        obtain ⟨a', e, u, s1, s2, s3⟩ := swap_ok (a := a) (i := i) (j := l) hL hH (by omega) (by omega)
        rw [e]; simp only
        have hl' := u.len
        obtain ⟨a2, l2, h2', e2, u2, r⟩ := ih a' (i + 1) (l + 1) h (by omega) (by omega) (by omega) (by omega) (by omega) h4
          ⟨by
            intro k k1 k2 y hy
            by_cases hk : k = l
            · subst hk; rw [s1, hx] at hy; cases hy; exact hlt
            · rw [s3 k (by omega) hk] at hy; exact hP.low k k1 (by omega) y hy, by
            intro k k1 k2 y hy
            rw [s3 k (by omega) (by omega)] at hy
            exact hP.high k k1 k2 y hy⟩
          (by
            intro k k1 k2 y hy
            by_cases hk : k = i
            · subst hk
              rw [s2] at hy
              exact hmid l (by omega) (by omega) y hy
            · rw [s3 k hk (by omega)] at hy
              exact hmid k (by omega) (by omega) y hy)
          (by
            by_cases e1 : m = l
            · subst e1
              have : i ≠ m := by
                rintro rfl
                rw [hx] at hm; cases hm
                rw [hirr] at hlt; cases hlt
              exact ⟨i, by omega, by omega, by rw [s2, hm]⟩
            · have : m ≠ i := by
                rintro rfl
                rw [hx] at hm; cases hm
                rw [hirr] at hlt; cases hlt
              exact ⟨m, by omega, by omega, by rw [s3 m this e1, hm]⟩)
        exact ⟨a2, l2, h2', e2, u.trans u2, r⟩
      · rw [if_neg hlt]
        by_cases hgt : lt p x = true
        · rw [if_pos hgt]
          obtain ⟨a', e, u, s1, s2, s3⟩ := swap_ok (a := a) (i := i) (j := h) hL hH (by omega) (by omega)
          rw [e]; simp only
          have hl' := u.len
          have hmi : m ≠ i := by
            rintro rfl
            rw [hx] at hm; cases hm
            rw [hirr] at hgt; cases hgt
          obtain ⟨a2, l2, h2', e2, u2, r⟩ := ih a' i l (h - 1) (by omega) (by omega) (by omega) (by omega) (by omega) (by omega)
            ⟨by
              intro k k1 k2 y hy
              rw [s3 k (by omega) (by omega)] at hy
              exact hP.low k k1 k2 y hy, by
              intro k k1 k2 y hy
              by_cases hk : k = h
              · subst hk; rw [s1, hx] at hy; cases hy; exact hgt
              · rw [s3 k (by omega) hk] at hy; exact hP.high k (by omega) k2 y hy⟩
            (by
              intro k k1 k2 y hy
              rw [s3 k (by omega) (by omega)] at hy
              exact hmid k k1 k2 y hy)
            (by
              by_cases e1 : m = h
              · subst e1
                exact ⟨i, by omega, by omega, by rw [s2, hm]⟩
              · exact ⟨m, by omega, by omega, by rw [s3 m hmi e1, hm]⟩)
          exact ⟨a2, l2, h2', e2, u.trans u2, r⟩
        · rw [if_neg hgt]
          exact ih a (i + 1) l h (by omega) (by omega) (by omega) (by omega) (by omega) h4 hP (by
            intro k k1 k2 y hy
            by_cases hk : k = i
            · subst hk; rw [hx] at hy; cases hy; simp [hlt, hgt]
            · exact hmid k k1 (by omega) y hy) ⟨m, m1, m2, hm⟩
    · rw [if_neg hi]
      exact ⟨a, l, h, rfl, .refl _ _ _, h1, by omega, h4, hP, fun k k1 k2 => hmid k k1 (by omega)⟩

theorem partition_ok (lt : α → α → Bool) (hirr : ∀ x, lt x x = false) (a : List α) (l h : Int) (h0 : 0 ≤ l) (h1 : h < a.length)
    (hlh : l ≤ h) :
    ∃ a' l' h' p, partition lt a l h = .ok (a', l', h') ∧ Upd l h a a' ∧ l ≤ l' ∧ l' ≤ h' ∧ h' ≤ h ∧
      Parted lt p l h l' h' a' ∧ AllIx l' h' (fun x => lt x p = false ∧ lt p x = false) a' := by
  unfold partition
  simp only
  obtain ⟨a1, e1, u1⟩ := median_ok lt (A := a) (l := l) (h := h) (a := l) (b := l + (h - l) / 4) (c := l + (h - l) / 2)
    (d := l + (h - l) / 2 + (h - l) / 4) (e := h) h0 h1 (by omega) (by omega) (by omega) (by omega) (by omega)
  have hl1 := u1.len
  obtain ⟨p, hp⟩ := ix_some (a := a1) (i := l + (h - l) / 2) (by omega) (by omega)
  obtain ⟨a', l', h', e2, u2, r⟩ := partLoop_ok lt hirr p l h (h - l + 1).toNat a1 l l h (by omega) h0 (by omega) (by omega)
    (by omega) (by omega) (by omega) ⟨fun k k1 k2 => by omega, fun k k1 k2 => by omega⟩ (fun k k1 k2 => by omega)
    ⟨_, by omega, by omega, hp⟩
  refine ⟨a', l', h', p, ?_, u1.trans u2, r⟩
  simp only [e1, rd_iff.2 hp, e2, bind, Except.bind]

/-- The inner insertion loop with the held element `t` put back into the hole. -/
theorem insInner_ok (lt : α → α → Bool) (t : α) (l i : Int) (fuel : Nat) (a : List α) (j : Int) (h0 : 0 ≤ l) (hf : j - l ≤ fuel)
    (hj : l ≤ j) (hji : j ≤ i) (hi : i < a.length) :
    ∃ a' j', insInner lt t l fuel a j = .ok (a', j') ∧ l ≤ j' ∧ j' ≤ j ∧ a'.length = a.length ∧
      Upd l i (a.set j.toNat t) (a'.set j'.toNat t) ∧
      (∀ k, l ≤ k → k < j' → ix a' k = ix a k) ∧ (∀ k, j' < k → k ≤ j → ix a' k = ix a (k - 1)) ∧
      (∀ k, j < k → ix a' k = ix a k) ∧
      (∀ k x, j' < k → k ≤ j → ix a' k = some x → lt t x = true) ∧
      (l < j' → ∀ x, ix a' (j' - 1) = some x → lt t x = false) := by
  induction fuel generalizing a j with
  | zero =>
    unfold insInner
    rw [if_neg (by omega)]
    exact ⟨a, j, rfl, hj, Int.le_refl _, rfl, .refl _ _ _, fun _ _ _ => rfl, fun k h1 h2 => by omega, fun _ _ => rfl,
      fun k x h1 h2 => by omega, fun h => by omega⟩
  | succ fuel ih =>
    unfold insInner
    by_cases hjl : j > l
    · rw [if_pos hjl]
      obtain ⟨x, hx⟩ := ix_some (a := a) (i := j - 1) (by omega) (by omega)
      simp only [rd_iff.2 hx, bind, Except.bind]
      by_cases hlt : lt t x = true
      · rw [if_pos hlt, wr_ok (by omega) (by omega)]
        simp only
        obtain ⟨a', j', e, b1, b2, hl, u, k1, k2, k3, k4, k5⟩ := ih (a.set j.toNat x) (j - 1) (by omega) (by omega) (by omega) (by simp; omega)
        have hix : ∀ k, ix (a.set j.toNat x) k = if k = j then some x else ix a k := fun k => ix_set (by omega) (by omega)
        refine ⟨a', j', e, b1, by omega, by simpa using hl, ?_, ?_, ?_, ?_, ?_, k5⟩
        · obtain ⟨b, eb, ub, s1, s2, s3⟩ := swap_ok (a := a.set j.toNat t) (i := j) (j := j - 1) h0 (by simp; omega) (l := l) (h := i)
            (by omega) (by omega)
          have hxx : ix (a.set j.toNat t) (j - 1) = some x := by rw [ix_set (by omega) (by omega), if_neg (by omega), hx]
          have htt : ix (a.set j.toNat t) j = some t := by rw [ix_set (by omega) (by omega), if_pos rfl]
          simp only [swap, rd_iff.2 hxx, rd_iff.2 htt, bind, Except.bind] at eb
          rw [wr_ok (by omega) (by simp; omega)] at eb
          simp only at eb
          rw [wr_ok (by omega) (by simp; omega), List.set_set, Except.ok.injEq] at eb
          rw [← eb] at ub
          exact ub.trans u
        · intro k c1 c2
          rw [k1 k c1 c2, hix, if_neg (by omega)]
        · intro k c1 c2
          by_cases hk : k = j
          · subst hk
            rw [k3 _ (by omega), hix, if_pos rfl, hx]
          · rw [k2 k c1 (by omega), hix, if_neg (by omega)]
        · intro k c1
          rw [k3 k (by omega), hix, if_neg (by omega)]
        · intro k y c1 c2 hy
          by_cases hk : k = j
          · subst hk
            rw [k3 _ (by omega), hix, if_pos rfl] at hy
            cases hy; exact hlt
          · exact k4 k y c1 (by omega) hy
      · rw [if_neg hlt]
        refine ⟨a, j, rfl, hj, Int.le_refl _, rfl, .refl _ _ _, fun _ _ _ => rfl, fun k h1 h2 => by omega, fun _ _ => rfl,
          fun k x h1 h2 => by omega, fun _ y hy => ?_⟩
        rw [hx] at hy; cases hy; simpa using hlt
    · rw [if_neg hjl]
      exact ⟨a, j, rfl, hj, Int.le_refl _, rfl, .refl _ _ _, fun _ _ _ => rfl, fun k h1 h2 => by omega, fun _ _ => rfl,
        fun k x h1 h2 => by omega, fun h => by omega⟩

theorem insOuter_ok (lt : α → α → Bool) (l h : Int) (fuel : Nat) (a : List α) (i : Int) (h0 : 0 ≤ l) (h1 : h < a.length)
    (hf : h + 1 - i ≤ fuel) (hi : l < i) :
    ∃ a', insOuter lt l h fuel a i = .ok a' ∧ Upd l h a a' ∧
      (Spec.StrictWeakOrder lt → SortedIx lt l (i - 1) a → SortedIx lt l h a') := by
  induction fuel generalizing a i with
  | zero =>
    unfold insOuter
    rw [if_neg (by omega)]
    exact ⟨a, rfl, .refl _ _ _, fun _ H p q x y c1 c2 c3 => H p q x y c1 c2 (by omega)⟩
  | succ fuel ih =>
    unfold insOuter
    by_cases hih : i ≤ h
    · rw [if_pos hih]
      obtain ⟨t, ht⟩ := ix_some (a := a) (i := i) (by omega) (by omega)
      obtain ⟨b, j, e, j1, j2, hl, u, k1, k2, k3, k4, k5⟩ := insInner_ok lt t l i (i - l).toNat a i h0 (by omega) (by omega) (by omega) (by omega)
      simp only [rd_iff.2 ht, e, bind, Except.bind]
      rw [wr_ok (by omega) (by omega)]
      simp only
      have hset : a.set i.toNat t = a := by
        rw [ix, if_pos (by omega)] at ht
        obtain ⟨hb, rfl⟩ := List.getElem?_eq_some_iff.1 ht
        exact List.set_getElem_self hb
      rw [hset] at u
      have hb : ∀ k, ix (b.set j.toNat t) k = if k = j then some t else ix b k := fun k => ix_set (by omega) (by omega)
      obtain ⟨a', e', u', s'⟩ := ih (b.set j.toNat t) (i + 1) (by simp; omega) (by omega) (by omega)
      refine ⟨a', e', (u.mono (Int.le_refl _) hih).trans u', fun hw hs => s' hw ?_⟩
      have hlow : ∀ k x, l ≤ k → k < j → ix b k = some x → lt t x = false := by
        intro k x c1 c2 hx
        obtain ⟨y, hy⟩ := ix_some (a := b) (i := j - 1) (by omega) (by omega)
        have f1 := k5 (by omega) y hy
        by_cases hk : k = j - 1
        · subst hk; rw [hx] at hy; cases hy; exact f1
        · rw [k1 k c1 c2] at hx
          rw [k1 _ (by omega) (by omega)] at hy
          exact hw.neg _ _ _ f1 (hs k (j - 1) x y c1 (by omega) (by omega) hx hy)
      intro p q x y c1 c2 c3 hx hy
      rw [hb] at hx hy
      by_cases ep : p = j
      · rw [if_pos ep] at hx; cases hx
        rw [if_neg (by omega)] at hy
        exact hw.asymm _ _ (k4 q y (by omega) (by omega) hy)
      · rw [if_neg ep] at hx
        by_cases eq : q = j
        · rw [if_pos eq] at hy; cases hy
          exact hlow p x c1 (by omega) hx
        · rw [if_neg eq] at hy
          by_cases hq : q < j
          · rw [k1 q (by omega) hq] at hy
            rw [k1 p (by omega) (by omega)] at hx
            exact hs p q x y c1 c2 (by omega) hx hy
          · rw [k2 q (by omega) (by omega)] at hy
            by_cases hp : p < j
            · rw [k1 p (by omega) (by omega)] at hx
              exact hs p (q - 1) x y c1 (by omega) (by omega) hx hy
            · rw [k2 p (by omega) (by omega)] at hx
              exact hs (p - 1) (q - 1) x y (by omega) (by omega) (by omega) hx hy
    · rw [if_neg hih]
      exact ⟨a, rfl, .refl _ _ _, fun _ H p q x y c1 c2 c3 => H p q x y c1 c2 (by omega)⟩

theorem insertion_ok (lt : α → α → Bool) (a : List α) (l h : Int) (h0 : 0 ≤ l) (h1 : h < a.length) :
    ∃ a', insertion lt a l h = .ok a' ∧ Upd l h a a' ∧ (Spec.StrictWeakOrder lt → SortedIx lt l h a') := by
  obtain ⟨a', e, u, s⟩ := insOuter_ok lt l h (h - l).toNat a (l + 1) h0 h1 (by omega) (by omega)
  exact ⟨a', e, u, fun hw => s hw fun p q x y c1 c2 c3 => by omega⟩

theorem sort_ok (lt : α → α → Bool) (hirr : ∀ x, lt x x = false) (fuel : Nat) (a : List α) (l h : Int) (h0 : 0 ≤ l)
    (h1 : h < a.length) (hf : h + 1 - l ≤ fuel) :
    ∃ a', sort lt fuel a l h = .ok a' ∧ Upd l h a a' ∧ (Spec.StrictWeakOrder lt → SortedIx lt l h a') := by
  induction fuel generalizing a l h with
  | zero =>
    unfold sort
    rw [if_neg (by omega)]
    exact ⟨a, rfl, .refl _ _ _, fun _ p q x y c1 c2 c3 => by omega⟩
  | succ fuel ih =>
    unfold sort
    by_cases hlh : l < h
    · rw [if_pos hlh]
      by_cases h32 : h - l < 32
      · rw [if_pos h32]; exact insertion_ok lt a l h h0 h1
      · rw [if_neg h32]
        obtain ⟨b, l', h', p, e, u, b1, b2, b3, hP, hM⟩ := partition_ok lt hirr a l h h0 h1 (by omega)
        have hbl := u.len
        obtain ⟨c, e2, u2, s2⟩ := ih b l (l' - 1) h0 (by omega) (by omega)
        have hcl := u2.len
        obtain ⟨d, e3, u3, s3⟩ := ih c (h' + 1) h (by omega) (by omega) (by omega)
        simp only [e, e2, e3, bind, Except.bind]
        refine ⟨d, rfl, (u.trans (u2.mono (Int.le_refl _) (by omega))).trans (u3.mono (by omega) (Int.le_refl _)), fun hw => ?_⟩
        have L : AllIx l (l' - 1) (fun x => lt x p = true) d := (hP.low.upd u2).outside u3 (by omega)
        have Mi := (hM.outside u2 (by omega)).outside u3 (by omega)
        have Hi : AllIx (h' + 1) h (fun x => lt p x = true) d := (hP.high.outside u2 (by omega)).upd u3
        have S1 := (s2 hw).outside u3 (by omega)
        have S2 := s3 hw
        intro i j x y c1 c2 c3 hx hy
        by_cases i1 : i < l'
        · have hxp := L i c1 (by omega) x hx
          by_cases j1 : j < l'
          · exact S1 i j x y c1 c2 (by omega) hx hy
          · have hyp : lt y p = false := by
              by_cases j2 : j ≤ h'
              · exact (Mi j (by omega) j2 y hy).1
              · exact hw.asymm _ _ (Hi j (by omega) c3 y hy)
            exact hw.neg _ _ _ hyp (hw.asymm _ _ hxp)
        · by_cases i2 : i ≤ h'
          · have hxp := (Mi i (by omega) i2 x hx).2
            have hyp : lt y p = false := by
              by_cases j2 : j ≤ h'
              · exact (Mi j (by omega) j2 y hy).1
              · exact hw.asymm _ _ (Hi j (by omega) c3 y hy)
            exact hw.neg _ _ _ hyp hxp
          · exact S2 i j x y (by omega) c2 c3 hx hy
    · rw [if_neg hlh]
      exact ⟨a, rfl, .refl _ _ _, fun _ p q x y c1 c2 c3 => by omega⟩

/-- Cell `k` is in its sorted place: nothing before is greater, nothing behind is smaller. -/
def Placed (lt : α → α → Bool) (L H k : Int) (a : List α) : Prop :=
  ∀ z, ix a k = some z → AllIx L (k - 1) (fun x => lt z x = false) a ∧ AllIx (k + 1) H (fun x => lt x z = false) a

theorem Placed.of_sorted {lt : α → α → Bool} {L H k : Int} {a : List α} (h : SortedIx lt L H a) (h1 : L ≤ k) (h2 : k ≤ H) :
    Placed lt L H k a := by
  intro z hz
  exact ⟨fun i i1 i2 x hx => h i k x z i1 (by omega) h2 hx hz, fun i i1 i2 x hx => h k i z x h1 (by omega) i2 hz hx⟩

theorem select_ok (lt : α → α → Bool) (hirr : ∀ x, lt x x = false) (k : Int) (fuel : Nat) (a : List α) (l h : Int)
    (h0 : 0 ≤ l) (h1 : h < a.length) (hf : h + 1 - l ≤ fuel) :
    ∃ a', select lt k fuel a l h = .ok a' ∧ Upd l h a a' ∧ (Spec.StrictWeakOrder lt → l ≤ k → k ≤ h → Placed lt l h k a') := by
  induction fuel generalizing a l h with
  | zero =>
    unfold select
    rw [if_neg (by omega)]
    exact ⟨a, rfl, .refl _ _ _, fun _ c1 c2 => by omega⟩
  | succ fuel ih =>
    unfold select
    by_cases hlh : l < h
    · rw [if_pos hlh]
      by_cases h32 : h - l < 32
      · rw [if_pos h32]
        obtain ⟨b, e, u, s⟩ := insertion_ok lt a l h h0 h1
        exact ⟨b, e, u, fun hw k1 k2 => .of_sorted (s hw) k1 k2⟩
      · rw [if_neg h32]
        obtain ⟨b, l', h', p, e, u, b1, b2, b3, hP, hM⟩ := partition_ok lt hirr a l h h0 h1 (by omega)
        have hbl := u.len
        simp only [e, bind, Except.bind]
        by_cases k1 : k < l'
        · rw [if_pos k1]
          obtain ⟨c, e2, u2, s2⟩ := ih b l (l' - 1) h0 (by omega) (by omega)
          refine ⟨c, e2, u.trans (u2.mono (Int.le_refl _) (by omega)), fun hw c1 c2 z hz => ?_⟩
          have L := hP.low.upd u2
          have Mi := hM.outside u2 (by omega)
          have Hi := hP.high.outside u2 (by omega)
          obtain ⟨q1, q2⟩ := s2 hw c1 (by omega) z hz
          refine ⟨q1, fun j j1 j2 x hx => ?_⟩
          by_cases jl : j < l'
          · exact q2 j j1 (by omega) x hx
          · have hzp := L k c1 (by omega) z hz
            have hxp : lt x p = false := by
              by_cases j3 : j ≤ h'
              · exact (Mi j (by omega) j3 x hx).1
              · exact hw.asymm _ _ (Hi j (by omega) j2 x hx)
            exact hw.neg _ _ _ hxp (hw.asymm _ _ hzp)
        · rw [if_neg k1]
          by_cases k2 : k > h'
          · rw [if_pos k2]
            obtain ⟨c, e2, u2, s2⟩ := ih b (h' + 1) h (by omega) (by omega) (by omega)
            refine ⟨c, e2, u.trans (u2.mono (by omega) (Int.le_refl _)), fun hw c1 c2 z hz => ?_⟩
            have L := hP.low.outside u2 (by omega)
            have Mi := hM.outside u2 (by omega)
            have Hi := hP.high.upd u2
            obtain ⟨q1, q2⟩ := s2 hw (by omega) c2 z hz
            refine ⟨fun j j1 j2 x hx => ?_, q2⟩
            by_cases jl : h' < j
            · exact q1 j (by omega) j2 x hx
            · have hzp := Hi k (by omega) c2 z hz
              have hxp : lt p x = false := by
                by_cases j3 : l' ≤ j
                · exact (Mi j (by omega) (by omega) x hx).2
                · exact hw.asymm _ _ (L j j1 (by omega) x hx)
              exact hw.neg _ _ _ (hw.asymm _ _ hzp) hxp
          · rw [if_neg k2]
            refine ⟨b, rfl, u, fun hw c1 c2 z hz => ?_⟩
            obtain ⟨z1, z2⟩ := hM k (by omega) (by omega) z hz
            refine ⟨fun j j1 j2 x hx => ?_, fun j j1 j2 x hx => ?_⟩
            · have hxp : lt p x = false := by
                by_cases j3 : l' ≤ j
                · exact (hM j (by omega) (by omega) x hx).2
                · exact hw.asymm _ _ (hP.low j j1 (by omega) x hx)
              exact hw.neg _ _ _ z1 hxp
            · have hxp : lt x p = false := by
                by_cases j3 : j ≤ h'
                · exact (hM j (by omega) j3 x hx).1
                · exact hw.asymm _ _ (hP.high j (by omega) j2 x hx)
              exact hw.neg _ _ _ hxp z2
    · rw [if_neg hlh]
      refine ⟨a, rfl, .refl _ _ _, fun _ c1 c2 => .of_sorted (fun i j x y d1 d2 d3 => by omega) c1 c2⟩

end Quick
end DSP
