import Verif.Lemmas.Quick
import Mathlib.Data.Fintype.Card
import Mathlib.Order.Interval.Finset.Defs
import Mathlib.Data.Int.Interval
import Mathlib.Logic.Equiv.Basic
import Mathlib.Data.Fin.VecNotation
import Mathlib.Tactic.FinCases
import Mathlib.Tactic.NormNum
import Mathlib.Tactic.Set

/-! How good the pivot is: at least three elements are not less than it, and at least three are not greater. -/

namespace DSP
variable {α : Type}

namespace Quick

/-- A conditional exchange. -/
theorem cswap_ok (lt : α → α → Bool) {A : List α} {i j l h : Int} {u v : α} (h0 : 0 ≤ l) (h1 : h < A.length) (hi : l ≤ i ∧ i ≤ h) (hj : l ≤ j ∧ j ≤ h)
    (hu : ix A i = some u) (hv : ix A j = some v) :
    ∃ A', (less lt A j i >>= fun t => M.ite t (swap A i j) (pure A)) = .ok A' ∧ Upd l h A A' ∧ (∀ k, k ≠ i → k ≠ j → ix A' k = ix A k) ∧
      ((lt v u = true ∧ ix A' i = some v ∧ ix A' j = some u) ∨ (lt v u = false ∧ ix A' i = some u ∧ ix A' j = some v)) := by
  have hl : less lt A j i = .ok (lt v u) := by simp only [less, rd_iff.2 hu, rd_iff.2 hv, bind, Except.bind, pure, Except.pure]
  rw [hl]
  simp only [bind, Except.bind]
  cases hlt : lt v u
  · exact ⟨A, rfl, .refl _ _ _, fun _ _ _ => rfl, .inr ⟨rfl, hu, hv⟩⟩
  · obtain ⟨A', e, up, s1, s2, s3⟩ := swap_ok h0 h1 hi hj
    exact ⟨A', e, up, s3, .inl ⟨rfl, by rw [s2, hv], by rw [s1, hu]⟩⟩

theorem bind_ite (c : Bool) (t e : M (List α)) (f : List α → M (List α)) : M.ite c t e >>= f = M.ite c (t >>= f) (e >>= f) := by
  cases c <;> rfl

/-- The median of five: nothing at the first two positions is greater than the middle, nothing at the last two is less. -/
theorem median_spec (lt : α → α → Bool) (hw : Spec.StrictWeakOrder lt) {A : List α} {l h a b c d e : Int} (h0 : 0 ≤ l) (h1 : h < A.length)
    (ha : l ≤ a) (hab : a < b) (hbc : b < c) (hcd : c < d) (hde : d < e) (he : e ≤ h) :
    ∃ A' va vb vc vd ve, median lt A a b c d e = .ok A' ∧ Upd l h A A' ∧ ix A' a = some va ∧ ix A' b = some vb ∧ ix A' c = some vc ∧ ix A' d = some vd ∧ ix A' e = some ve ∧
      lt vc va = false ∧ lt vc vb = false ∧ lt vd vc = false ∧ lt ve vc = false := by
  obtain ⟨xa, ea⟩ := ix_some (a := A) (i := a) (by omega) (by omega)
  obtain ⟨xb, eb⟩ := ix_some (a := A) (i := b) (by omega) (by omega)
  obtain ⟨xc, ec⟩ := ix_some (a := A) (i := c) (by omega) (by omega)
  obtain ⟨xd, ed⟩ := ix_some (a := A) (i := d) (by omega) (by omega)
  obtain ⟨xe, ee⟩ := ix_some (a := A) (i := e) (by omega) (by omega)
  -- first exchange
  obtain ⟨A1, q1, u1, o1, r1⟩ := cswap_ok lt (A := A) (i := a) (j := c) (l := l) (h := h) h0 h1 (by omega) (by omega) ea ec
  obtain ⟨ya, yc, ea1, ec1, p1⟩ : ∃ ya yc, ix A1 a = some ya ∧ ix A1 c = some yc ∧ lt yc ya = false := by
    rcases r1 with ⟨t, i1, i2⟩ | ⟨t, i1, i2⟩
    · exact ⟨_, _, i1, i2, hw.asymm _ _ t⟩
    · exact ⟨_, _, i1, i2, t⟩
  have n1 := u1.len
  rw [← o1 b (by omega) (by omega)] at eb
  rw [← o1 d (by omega) (by omega)] at ed
  rw [← o1 e (by omega) (by omega)] at ee
  -- second exchange
  obtain ⟨A2, q2, u2, o2, r2⟩ := cswap_ok lt (A := A1) (i := b) (j := d) (l := l) (h := h) h0 (by omega) (by omega) (by omega) eb ed
  obtain ⟨yb, yd, eb2, ed2, p2⟩ : ∃ yb yd, ix A2 b = some yb ∧ ix A2 d = some yd ∧ lt yd yb = false := by
    rcases r2 with ⟨t, i1, i2⟩ | ⟨t, i1, i2⟩
    · exact ⟨_, _, i1, i2, hw.asymm _ _ t⟩
    · exact ⟨_, _, i1, i2, t⟩
  have n2 := u2.len
  rw [← o2 a (by omega) (by omega)] at ea1
  rw [← o2 c (by omega) (by omega)] at ec1
  rw [← o2 e (by omega) (by omega)] at ee
  -- third, a double one
  obtain ⟨A3, q3, u3, za, zb, zc, zd, ea3, eb3, ec3, ed3, ee3, p31, p32, p33⟩ : ∃ A3, (less lt A2 d c >>= fun t => M.ite t (swap A2 c d >>= fun A => swap A a b) (pure A2)) = .ok A3 ∧
      Upd l h A2 A3 ∧ ∃ za zb zc zd, ix A3 a = some za ∧ ix A3 b = some zb ∧ ix A3 c = some zc ∧ ix A3 d = some zd ∧ ix A3 e = some xe ∧ lt zc za = false ∧ lt zd zb = false ∧
      lt zd zc = false := by
    have hl : less lt A2 d c = .ok (lt yd yc) := by simp only [less, rd_iff.2 ec1, rd_iff.2 ed2, bind, Except.bind, pure, Except.pure]
    rw [hl]
    simp only [bind, Except.bind]
    cases hlt : lt yd yc
    · exact ⟨A2, rfl, .refl _ _ _, ya, yb, yc, yd, ea1, eb2, ec1, ed2, ee, p1, p2, hlt⟩
    · obtain ⟨B, e1, up1, s1, s2, s3⟩ := swap_ok (a := A2) (i := c) (j := d) (l := l) (h := h) h0 (by omega) (by omega) (by omega)
      have := up1.len
      obtain ⟨C, e2, up2, t1, t2, t3⟩ := swap_ok (a := B) (i := a) (j := b) (l := l) (h := h) h0 (by omega) (by omega) (by omega)
      simp only [M.ite, if_true, e1, e2]
      refine ⟨C, rfl, up1.trans up2, yb, ya, yd, yc, ?_, ?_, ?_, ?_, ?_, p2, p1, hw.asymm _ _ hlt⟩
      · rw [t2, s3 b (by omega) (by omega), eb2]
      · rw [t1, s3 a (by omega) (by omega), ea1]
      · rw [t3 c (by omega) (by omega), s2, ed2]
      · rw [t3 d (by omega) (by omega), s1, ec1]
      · rw [t3 e (by omega) (by omega), s3 e (by omega) (by omega), ee]
  have n3 := u3.len
  -- fourth
  obtain ⟨A4, q4, u4, o4, r4⟩ := cswap_ok lt (A := A3) (i := b) (j := e) (l := l) (h := h) h0 (by omega) (by omega) (by omega) eb3 ee3
  obtain ⟨wb, we, eb4, ee4, p41, p42⟩ : ∃ wb we, ix A4 b = some wb ∧ ix A4 e = some we ∧ lt we wb = false ∧ lt zd wb = false := by
    rcases r4 with ⟨t, i1, i2⟩ | ⟨t, i1, i2⟩
    · exact ⟨_, _, i1, i2, hw.asymm _ _ t, hw.neg _ _ _ p32 (hw.asymm _ _ t)⟩
    · exact ⟨_, _, i1, i2, t, p32⟩
  have n4 := u4.len
  rw [← o4 a (by omega) (by omega)] at ea3
  rw [← o4 c (by omega) (by omega)] at ec3
  rw [← o4 d (by omega) (by omega)] at ed3
  have U := ((u1.trans u2).trans u3).trans u4
  have head : ∀ f : List α → M (List α), (median lt A a b c d e = (do
      let A ← (less lt A c a >>= fun t => M.ite t (swap A a c) (pure A))
      let A ← (less lt A d b >>= fun t => M.ite t (swap A b d) (pure A))
      let A ← (less lt A d c >>= fun t => M.ite t (swap A c d >>= fun A => swap A a b) (pure A))
      let A ← (less lt A e b >>= fun t => M.ite t (swap A b e) (pure A))
      f A)) → median lt A a b c d e = f A4 := by
    intro f hf
    rw [hf]
    simp only [bind, Except.bind] at *
    simp only [q1, q2, q3, q4]
  have hl : less lt A4 e c = .ok (lt we zc) := by simp only [less, rd_iff.2 ec3, rd_iff.2 ee4, bind, Except.bind, pure, Except.pure]
  have hm := head (fun A => less lt A e c >>= fun t => M.ite t (swap A c e >>= fun A => less lt A c a >>= fun t => M.ite t (swap A a c) (pure A))
    (less lt A c b >>= fun t => M.ite t (swap A b c) (pure A))) (by simp only [median, bind_assoc])
  rw [hm, hl]
  simp only [bind, Except.bind]
  cases hlt : lt we zc
  · obtain ⟨A5, q5, u5, o5, r5⟩ := cswap_ok lt (A := A4) (i := b) (j := c) (l := l) (h := h) h0 (by omega) (by omega) (by omega) eb4 ec3
    have n5 := u5.len
    simp only [bind, Except.bind] at q5
    simp only [M.ite, Bool.false_eq_true, if_false] at q5 ⊢
    rw [← o5 a (by omega) (by omega)] at ea3
    rw [← o5 d (by omega) (by omega)] at ed3
    rw [← o5 e (by omega) (by omega)] at ee4
    rcases r5 with ⟨t, i1, i2⟩ | ⟨t, i1, i2⟩
    · exact ⟨A5, za, zc, wb, zd, we, q5, U.trans u5, ea3, i1, i2, ed3, ee4, hw.neg _ _ _ (hw.asymm _ _ t) p31, hw.asymm _ _ t, p42, p41⟩
    · exact ⟨A5, za, wb, zc, zd, we, q5, U.trans u5, ea3, i1, i2, ed3, ee4, p31, t, p33, hlt⟩
  · obtain ⟨B, e1, up1, s1, s2, s3⟩ := swap_ok (a := A4) (i := c) (j := e) (l := l) (h := h) h0 (by omega) (by omega) (by omega)
    have := up1.len
    rw [← s3 a (by omega) (by omega)] at ea3
    rw [← s3 b (by omega) (by omega)] at eb4
    rw [← s3 d (by omega) (by omega)] at ed3
    rw [ee4] at s2
    rw [ec3] at s1
    obtain ⟨A5, q5, u5, o5, r5⟩ := cswap_ok lt (A := B) (i := a) (j := c) (l := l) (h := h) h0 (by omega) (by omega) (by omega) ea3 s2
    simp only [bind, Except.bind] at q5
    simp only [M.ite, if_true, e1] at q5 ⊢
    rw [← o5 b (by omega) (by omega)] at eb4
    rw [← o5 d (by omega) (by omega)] at ed3
    rw [← o5 e (by omega) (by omega)] at s1
    have f1 : lt zd we = false := hw.neg _ _ _ p33 (hw.asymm _ _ hlt)
    rcases r5 with ⟨t, i1, i2⟩ | ⟨t, i1, i2⟩
    · exact ⟨A5, we, wb, za, zd, zc, q5, (U.trans up1).trans u5, i1, eb4, i2, ed3, s1, hw.asymm _ _ t, hw.neg _ _ _ (hw.asymm _ _ t) p41, hw.neg _ _ _ p33 p31, p31⟩
    · exact ⟨A5, za, wb, we, zd, zc, q5, (U.trans up1).trans u5, i1, eb4, i2, ed3, s1, t, p41, f1, hw.asymm _ _ hlt⟩

/-- Many cells in a range make it long. -/
theorem range_long {n : Nat} {a b : Int} (w : Fin n → Int) (hi : Function.Injective w) (h : ∀ k, a ≤ w k ∧ w k ≤ b) : (n : Int) ≤ b + 1 - a ∨ n = 0 := by
  have := Finset.card_le_card_of_injOn (s := Finset.univ) (t := Finset.Icc a b) w (fun k _ => by simpa using h k) (fun x _ y _ e => hi e)
  rw [Finset.card_univ, Fintype.card_fin, Int.card_Icc] at this
  omega

/-- Cells that are not less than the pivot do not get below. -/
theorem partLoop_low (lt : α → α → Bool) (p : α) (L H : Int) (n fuel : Nat) (a : List α) (i l h : Int) (h0 : 0 ≤ L) (hH : H < a.length) (h1 : L ≤ l) (h2 : l ≤ i) (h4 : h ≤ H)
    (w : Fin n → Int) (hw : Function.Injective w) (hk : ∀ k, l ≤ w k ∧ w k ≤ H ∧ ∀ x, ix a (w k) = some x → lt x p = false) (a' : List α) (l' h' : Int)
    (e : partLoop lt p fuel a i l h = .ok (a', l', h')) : ∃ w' : Fin n → Int, Function.Injective w' ∧ ∀ k, l' ≤ w' k ∧ w' k ≤ H := by
  induction fuel generalizing a i l h w with
  | zero =>
    unfold partLoop at e
    split at e
    · cases e
    · cases e
      exact ⟨w, hw, fun k => ⟨(hk k).1, (hk k).2.1⟩⟩
  | succ fuel ih =>
    unfold partLoop at e
    by_cases hi : i ≤ h
    · rw [if_pos hi] at e
      obtain ⟨x, hx⟩ := ix_some (a := a) (i := i) (by omega) (by omega)
      simp only [rd_iff.2 hx, bind, Except.bind] at e
      by_cases hlt : lt x p = true
      · rw [if_pos hlt] at e
        obtain ⟨b, eb, u, s1, s2, s3⟩ := swap_ok (a := a) (i := i) (j := l) h0 hH (by omega) (by omega)
        rw [eb] at e
        simp only at e
        have hl := u.len
        refine ih b (i + 1) (l + 1) h (by omega) (by omega) (by omega) h4 (fun k => Equiv.swap i l (w k)) ((Equiv.swap i l).injective.comp hw) (fun k => ?_) e
        obtain ⟨k1, k2, k3⟩ := hk k
        have hne : w k ≠ i := by
          intro c
          rw [c] at k3
          rw [k3 x hx] at hlt
          cases hlt
        by_cases c : w k = l
        · rw [c, Equiv.swap_apply_right]
          refine ⟨by omega, by omega, fun y hy => ?_⟩
          rw [s2, ← c] at hy
          exact k3 y hy
        · rw [Equiv.swap_apply_of_ne_of_ne hne c]
          refine ⟨by omega, k2, fun y hy => ?_⟩
          rw [s3 _ hne c] at hy
          exact k3 y hy
      · rw [if_neg hlt] at e
        by_cases hgt : lt p x = true
        · rw [if_pos hgt] at e
          obtain ⟨b, eb, u, s1, s2, s3⟩ := swap_ok (a := a) (i := i) (j := h) h0 hH (by omega) (by omega)
          rw [eb] at e
          simp only at e
          have hl := u.len
          refine ih b i l (h - 1) (by omega) (by omega) (by omega) (by omega) (fun k => Equiv.swap i h (w k)) ((Equiv.swap i h).injective.comp hw) (fun k => ?_) e
          obtain ⟨k1, k2, k3⟩ := hk k
          by_cases c : w k = i
          · rw [c, Equiv.swap_apply_left]
            refine ⟨by omega, by omega, fun y hy => ?_⟩
            rw [s1, ← c] at hy
            exact k3 y hy
          by_cases c' : w k = h
          · rw [c', Equiv.swap_apply_right]
            refine ⟨by omega, by omega, fun y hy => ?_⟩
            rw [s2, ← c'] at hy
            exact k3 y hy
          · rw [Equiv.swap_apply_of_ne_of_ne c c']
            refine ⟨k1, k2, fun y hy => ?_⟩
            rw [s3 _ c c'] at hy
            exact k3 y hy
        · rw [if_neg hgt] at e
          exact ih a (i + 1) l h hH h1 (by omega) h4 w hw hk e
    · rw [if_neg hi] at e
      cases e
      exact ⟨w, hw, fun k => ⟨(hk k).1, (hk k).2.1⟩⟩

/-- Cells that are not greater than the pivot do not get above. -/
theorem partLoop_high (lt : α → α → Bool) (p : α) (L H : Int) (n fuel : Nat) (a : List α) (i l h : Int) (h0 : 0 ≤ L) (hH : H < a.length) (h1 : L ≤ l) (h2 : l ≤ i) (h4 : h ≤ H)
    (w : Fin n → Int) (hw : Function.Injective w) (hk : ∀ k, L ≤ w k ∧ w k ≤ h ∧ ∀ x, ix a (w k) = some x → lt p x = false) (a' : List α) (l' h' : Int)
    (e : partLoop lt p fuel a i l h = .ok (a', l', h')) : ∃ w' : Fin n → Int, Function.Injective w' ∧ ∀ k, L ≤ w' k ∧ w' k ≤ h' := by
  induction fuel generalizing a i l h w with
  | zero =>
    unfold partLoop at e
    split at e
    · cases e
    · cases e
      exact ⟨w, hw, fun k => ⟨(hk k).1, (hk k).2.1⟩⟩
  | succ fuel ih =>
    unfold partLoop at e
    by_cases hi : i ≤ h
    · rw [if_pos hi] at e
      obtain ⟨x, hx⟩ := ix_some (a := a) (i := i) (by omega) (by omega)
      simp only [rd_iff.2 hx, bind, Except.bind] at e
      by_cases hlt : lt x p = true
      · rw [if_pos hlt] at e
        obtain ⟨b, eb, u, s1, s2, s3⟩ := swap_ok (a := a) (i := i) (j := l) h0 hH (by omega) (by omega)
        rw [eb] at e
        simp only at e
        have hl := u.len
        refine ih b (i + 1) (l + 1) h (by omega) (by omega) (by omega) h4 (fun k => Equiv.swap i l (w k)) ((Equiv.swap i l).injective.comp hw) (fun k => ?_) e
        obtain ⟨k1, k2, k3⟩ := hk k
        by_cases c : w k = i
        · rw [c, Equiv.swap_apply_left]
          refine ⟨by omega, by omega, fun y hy => ?_⟩
          rw [s1, ← c] at hy
          exact k3 y hy
        by_cases c' : w k = l
        · rw [c', Equiv.swap_apply_right]
          refine ⟨by omega, by omega, fun y hy => ?_⟩
          rw [s2, ← c'] at hy
          exact k3 y hy
        · rw [Equiv.swap_apply_of_ne_of_ne c c']
          refine ⟨k1, k2, fun y hy => ?_⟩
          rw [s3 _ c c'] at hy
          exact k3 y hy
      · rw [if_neg hlt] at e
        by_cases hgt : lt p x = true
        · rw [if_pos hgt] at e
          obtain ⟨b, eb, u, s1, s2, s3⟩ := swap_ok (a := a) (i := i) (j := h) h0 hH (by omega) (by omega)
          rw [eb] at e
          simp only at e
          have hl := u.len
          refine ih b i l (h - 1) (by omega) (by omega) (by omega) (by omega) (fun k => Equiv.swap i h (w k)) ((Equiv.swap i h).injective.comp hw) (fun k => ?_) e
          obtain ⟨k1, k2, k3⟩ := hk k
          have hne : w k ≠ i := by
            intro c
            rw [c] at k3
            rw [k3 x hx] at hgt
            cases hgt
          by_cases c : w k = h
          · rw [c, Equiv.swap_apply_right]
            refine ⟨by omega, by omega, fun y hy => ?_⟩
            rw [s2, ← c] at hy
            exact k3 y hy
          · rw [Equiv.swap_apply_of_ne_of_ne hne c]
            refine ⟨k1, by omega, fun y hy => ?_⟩
            rw [s3 _ hne c] at hy
            exact k3 y hy
        · rw [if_neg hgt] at e
          exact ih a (i + 1) l h hH h1 (by omega) h4 w hw hk e
    · rw [if_neg hi] at e
      cases e
      exact ⟨w, hw, fun k => ⟨(hk k).1, (hk k).2.1⟩⟩

/-- Both parts leave out at least three elements. -/
theorem partition_balance (lt : α → α → Bool) (hw : Spec.StrictWeakOrder lt) (a : List α) (l h : Int) (h0 : 0 ≤ l) (h1 : h < a.length) (hlh : 32 ≤ h - l) (a' : List α) (l' h' : Int)
    (e : partition lt a l h = .ok (a', l', h')) : l' + 2 ≤ h ∧ l + 2 ≤ h' := by
  unfold partition at e
  simp only at e
  obtain ⟨A, va, vb, vc, vd, ve, em, u, ea, eb, ec, ed, ee, pa, pb, pd, pe⟩ := median_spec lt hw (A := a) (l := l) (h := h) (a := l) (b := l + (h - l) / 4) (c := l + (h - l) / 2)
    (d := l + (h - l) / 2 + (h - l) / 4) (e := h) h0 h1 le_rfl (by omega) (by omega) (by omega) (by omega) le_rfl
  have hl := u.len
  simp only [em, rd_iff.2 ec, bind, Except.bind] at e
  set m1 := l + (h - l) / 4 with hm1
  set m2 := l + (h - l) / 2 with hm2
  set m3 := m2 + (h - l) / 4 with hm3
  constructor
  · obtain ⟨w', hi, hr⟩ := partLoop_low lt vc l h 3 _ A l l h h0 (by omega) le_rfl le_rfl le_rfl ![m2, m3, h]
      (by
        intro x y hxy
        fin_cases x <;> fin_cases y <;> simp at hxy ⊢ <;> omega)
      (by
        intro k
        fin_cases k
        · exact ⟨by simp; omega, by simp; omega, fun x hx => by
            rw [show (![m2, m3, h] : Fin 3 → Int) ⟨0, by norm_num⟩ = m2 from rfl, ec] at hx
            cases hx
            exact hw.irr _⟩
        · exact ⟨by simp; omega, by simp; omega, fun x hx => by
            rw [show (![m2, m3, h] : Fin 3 → Int) ⟨1, by norm_num⟩ = m3 from rfl, ed] at hx
            cases hx
            exact pd⟩
        · exact ⟨by simp; omega, by simp, fun x hx => by
            rw [show (![m2, m3, h] : Fin 3 → Int) ⟨2, by norm_num⟩ = h from rfl, ee] at hx
            cases hx
            exact pe⟩) a' l' h' e
    have := range_long w' hi hr
    omega
  · obtain ⟨w', hi, hr⟩ := partLoop_high lt vc l h 3 _ A l l h h0 (by omega) le_rfl le_rfl le_rfl ![l, m1, m2]
      (by
        intro x y hxy
        fin_cases x <;> fin_cases y <;> simp at hxy ⊢ <;> omega)
      (by
        intro k
        fin_cases k
        · exact ⟨by simp, by simp; omega, fun x hx => by
            rw [show (![l, m1, m2] : Fin 3 → Int) ⟨0, by norm_num⟩ = l from rfl, ea] at hx
            cases hx
            exact pa⟩
        · exact ⟨by simp; omega, by simp; omega, fun x hx => by
            rw [show (![l, m1, m2] : Fin 3 → Int) ⟨1, by norm_num⟩ = m1 from rfl, eb] at hx
            cases hx
            exact pb⟩
        · exact ⟨by simp; omega, by simp; omega, fun x hx => by
            rw [show (![l, m1, m2] : Fin 3 → Int) ⟨2, by norm_num⟩ = m2 from rfl, ec] at hx
            cases hx
            exact hw.irr _⟩) a' l' h' e
    have := range_long w' hi hr
    omega

end Quick
end DSP
