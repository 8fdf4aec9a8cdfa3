import Verif.Model.QuickWork
import Verif.Lemmas.QuickDepth
import Verif.Props.Quick
import Mathlib.Tactic.Linarith
import Mathlib.Tactic.Ring

/-! Property C80: how deep `quick_sort` recurses, and how much work it and `quick_select` do. -/

namespace DSP
variable {α : Type}
open Quick Spec

namespace Quick

/-- The loop of `partition` makes exactly `h + 1 - i` passes, whatever is compared. -/
theorem partLoop_passes (lt : α → α → Bool) (p : α) (L H : Int) (fuel : Nat) (a : List α) (i l h : Int) (h0 : 0 ≤ L) (hH : H < a.length) (h1 : L ≤ l) (h2 : l ≤ i)
    (h4 : h ≤ H) : partLoop lt p fuel a i l h = .error .diverge ↔ (fuel : Int) < h + 1 - i := by
  induction fuel generalizing a i l h with
  | zero =>
    unfold partLoop
    split
    · simp only [true_iff]; omega
    · simp only [reduceCtorEq, false_iff]; omega
  | succ fuel ih =>
    unfold partLoop
    by_cases hi : i ≤ h
    · rw [if_pos hi]
      obtain ⟨x, hx⟩ := ix_some (a := a) (i := i) (by omega) (by omega)
      simp only [rd_iff.2 hx, bind, Except.bind]
      split
      · obtain ⟨b, eb, u⟩ := swap_upd (a := a) (i := i) (j := l) h0 hH (by omega) (by omega)
        have hl := u.len
        simp only [eb]
        rw [ih b (i + 1) (l + 1) h (by omega) (by omega) (by omega) h4]
        omega
      · split
        · obtain ⟨b, eb, u⟩ := swap_upd (a := a) (i := i) (j := h) h0 hH (by omega) (by omega)
          have hl := u.len
          simp only [eb]
          rw [ih b i l (h - 1) (by omega) (by omega) (by omega) (by omega)]
          omega
        · rw [ih a (i + 1) l h hH h1 (by omega) h4]
          omega
    · rw [if_neg hi]
      simp only [reduceCtorEq, false_iff]
      omega

/-- Counting changes nothing. -/
theorem sortWork_fst (lt : α → α → Bool) (fuel : Nat) (a : List α) (l h : Int) : (sortWork lt fuel a l h).map Prod.fst = sort lt fuel a l h := by
  induction fuel generalizing a l h with
  | zero =>
    unfold sortWork sort
    split
    · split
      · simp only [bind, Except.bind, pure, Except.pure]
        cases insertion lt a l h <;> rfl
      · rfl
    · rfl
  | succ fuel ih =>
    unfold sortWork sort
    split
    · split
      · simp only [bind, Except.bind, pure, Except.pure]
        cases insertion lt a l h <;> rfl
      · simp only [bind, Except.bind, pure, Except.pure]
        cases partition lt a l h with
        | error e => rfl
        | ok r =>
          obtain ⟨b, l', h'⟩ := r
          simp only [← ih]
          cases sortWork lt fuel b l (l' - 1) with
          | error e => rfl
          | ok r =>
            simp only [Except.map]
            cases sortWork lt fuel r.1 (h' + 1) h <;> rfl
    · rfl

theorem selectWork_fst (lt : α → α → Bool) (k : Int) (fuel : Nat) (a : List α) (l h : Int) : (selectWork lt k fuel a l h).map Prod.fst = select lt k fuel a l h := by
  induction fuel generalizing a l h with
  | zero =>
    unfold selectWork select
    split
    · split
      · simp only [bind, Except.bind, pure, Except.pure]
        cases insertion lt a l h <;> rfl
      · rfl
    · rfl
  | succ fuel ih =>
    unfold selectWork select
    split
    · split
      · simp only [bind, Except.bind, pure, Except.pure]
        cases insertion lt a l h <;> rfl
      · simp only [bind, Except.bind, pure, Except.pure]
        cases partition lt a l h with
        | error e => rfl
        | ok r =>
          obtain ⟨b, l', h'⟩ := r
          simp only [← ih]
          split
          · cases selectWork lt k fuel b l (l' - 1) <;> rfl
          · split
            · cases selectWork lt k fuel b (h' + 1) h <;> rfl
            · rfl
    · rfl

/-- More depth does not change a result. -/
theorem sortWork_mono (lt : α → α → Bool) (d fuel : Nat) (a : List α) (l h : Int) (r : List α × Nat) (e : sortWork lt fuel a l h = .ok r) : sortWork lt (fuel + d) a l h = .ok r := by
  induction fuel generalizing a l h r with
  | zero =>
    unfold sortWork at e ⊢
    split at e
    · rw [if_pos (by assumption)]
      split at e
      · rw [if_pos (by assumption)]; exact e
      · cases e
    · rw [if_neg (by assumption)]; exact e
  | succ fuel ih =>
    rw [Nat.add_right_comm]
    unfold sortWork at e ⊢
    split at e
    · rw [if_pos (by assumption)]
      split at e
      · rw [if_pos (by assumption)]; exact e
      · rw [if_neg (by assumption)]
        simp only [bind, Except.bind, pure, Except.pure] at e ⊢
        cases hp : partition lt a l h with
        | error q => rw [hp] at e; cases e
        | ok q =>
          obtain ⟨b, l', h'⟩ := q
          rw [hp] at e
          simp only at e ⊢
          cases hs : sortWork lt fuel b l (l' - 1) with
          | error q => rw [hs] at e; cases e
          | ok q =>
            rw [hs] at e
            simp only at e
            rw [ih _ _ _ _ hs]
            simp only
            cases ht : sortWork lt fuel q.1 (h' + 1) h with
            | error q => rw [ht] at e; cases e
            | ok z =>
              rw [ht] at e
              rw [ih _ _ _ _ ht]
              exact e
    · rw [if_neg (by assumption)]; exact e

theorem selectWork_mono (lt : α → α → Bool) (k : Int) (d fuel : Nat) (a : List α) (l h : Int) (r : List α × Nat) (e : selectWork lt k fuel a l h = .ok r) :
    selectWork lt k (fuel + d) a l h = .ok r := by
  induction fuel generalizing a l h r with
  | zero =>
    unfold selectWork at e ⊢
    split at e
    · rw [if_pos (by assumption)]
      split at e
      · rw [if_pos (by assumption)]; exact e
      · cases e
    · rw [if_neg (by assumption)]; exact e
  | succ fuel ih =>
    rw [Nat.add_right_comm]
    unfold selectWork at e ⊢
    split at e
    · rw [if_pos (by assumption)]
      split at e
      · rw [if_pos (by assumption)]; exact e
      · rw [if_neg (by assumption)]
        simp only [bind, Except.bind, pure, Except.pure] at e ⊢
        cases hp : partition lt a l h with
        | error q => rw [hp] at e; cases e
        | ok q =>
          obtain ⟨b, l', h'⟩ := q
          rw [hp] at e
          simp only at e ⊢
          split at e
          · rw [if_pos (by assumption)]
            cases hs : selectWork lt k fuel b l (l' - 1) with
            | error q => rw [hs] at e; cases e
            | ok q =>
              rw [hs] at e
              rw [ih _ _ _ _ hs]
              exact e
          · rw [if_neg (by assumption)]
            split at e
            · rw [if_pos (by assumption)]
              cases hs : selectWork lt k fuel b (h' + 1) h with
              | error q => rw [hs] at e; cases e
              | ok q =>
                rw [hs] at e
                rw [ih _ _ _ _ hs]
                exact e
            · rw [if_neg (by assumption)]; exact e
    · rw [if_neg (by assumption)]; exact e

/-- The work of two parts and the partition. -/
theorem work_step (n a b u v : Int) (hn : 33 ≤ n) (ha : 0 ≤ a) (hb : 0 ≤ b) (ha' : a ≤ n - 3) (hb' : b ≤ n - 3) (hs : a + b ≤ n - 1) (hu : 6 * u ≤ a * (a + 13))
    (hv : 6 * v ≤ b * (b + 13)) : 6 * (n + u + v) ≤ n * (n + 13) := by
  by_cases c : n - 3 ≤ a + b
  · nlinarith [mul_nonneg (sub_nonneg.2 ha') (sub_nonneg.2 hb'), mul_nonneg (sub_nonneg.2 c) (by linarith : 0 ≤ n - 1 - (a + b))]
  · nlinarith [mul_nonneg ha hb, mul_nonneg (by linarith : 0 ≤ n - 3 - (a + b)) (by linarith : 0 ≤ a + b)]

/-- Depth `(n - 30) / 3` is enough, and the work is bounded. -/
theorem sortWork_ok (lt : α → α → Bool) (hw : StrictWeakOrder lt) (fuel : Nat) (a : List α) (l h : Int) (h0 : 0 ≤ l) (h1 : h < a.length) (hf : h + 1 - l ≤ 3 * fuel + 32) :
    ∃ a' w, sortWork lt fuel a l h = .ok (a', w) ∧ Upd l h a a' ∧ (l ≤ h + 1 → 6 * (w : Int) ≤ (h + 1 - l) * (h + 1 - l + 13)) := by
  have hz (a : List α) (l h : Int) : l ≤ h + 1 → 6 * ((0 : Nat) : Int) ≤ (h + 1 - l) * (h + 1 - l + 13) := fun c => by
    have := mul_nonneg (by omega : 0 ≤ h + 1 - l) (by omega : 0 ≤ h + 1 - l + 13)
    simpa using this
  induction fuel generalizing a l h with
  | zero =>
    unfold sortWork
    by_cases hlh : l < h
    · rw [if_pos hlh, if_pos (by omega)]
      obtain ⟨b, e, u, -⟩ := insertion_ok lt a l h h0 h1
      simp only [e, bind, Except.bind, pure, Except.pure]
      exact ⟨b, 0, rfl, u, hz a l h⟩
    · rw [if_neg hlh]
      exact ⟨a, 0, rfl, .refl _ _ _, hz a l h⟩
  | succ fuel ih =>
    unfold sortWork
    by_cases hlh : l < h
    · rw [if_pos hlh]
      by_cases h32 : h - l < 32
      · rw [if_pos h32]
        obtain ⟨b, e, u, -⟩ := insertion_ok lt a l h h0 h1
        simp only [e, bind, Except.bind, pure, Except.pure]
        exact ⟨b, 0, rfl, u, hz a l h⟩
      · rw [if_neg h32]
        obtain ⟨b, l', h', p, e, u, b1, b2, b3, hP, hM⟩ := partition_ok lt hw.irr a l h h0 h1 (by omega)
        obtain ⟨q1, q2⟩ := partition_balance lt hw a l h h0 h1 (by omega) _ _ _ e
        have hbl := u.len
        obtain ⟨c, w2, e2, u2, s2⟩ := ih b l (l' - 1) h0 (by omega) (by omega)
        have hcl := u2.len
        obtain ⟨d, w3, e3, u3, s3⟩ := ih c (h' + 1) h (by omega) (by omega) (by omega)
        simp only [e, e2, e3, bind, Except.bind, pure, Except.pure]
        refine ⟨d, _, rfl, (u.trans (u2.mono (Int.le_refl _) (by omega))).trans (u3.mono (by omega) (Int.le_refl _)), fun _ => ?_⟩
        have s2 := s2 (by omega)
        have s3 := s3 (by omega)
        have := work_step (h + 1 - l) (l' - 1 + 1 - l) (h + 1 - (h' + 1)) w2 w3 (by omega) (by omega) (by omega) (by omega) (by omega) (by omega) s2 s3
        refine le_trans (le_of_eq ?_) this
        push_cast
        rw [Int.toNat_of_nonneg (by omega)]
        ring
    · rw [if_neg hlh]
      exact ⟨a, 0, rfl, .refl _ _ _, hz a l h⟩

theorem selectWork_ok (lt : α → α → Bool) (hw : StrictWeakOrder lt) (k : Int) (fuel : Nat) (a : List α) (l h : Int) (h0 : 0 ≤ l) (h1 : h < a.length)
    (hf : h + 1 - l ≤ 3 * fuel + 32) : ∃ a' w, selectWork lt k fuel a l h = .ok (a', w) ∧ Upd l h a a' ∧ (l ≤ h + 1 → 6 * (w : Int) ≤ (h + 1 - l) * (h + 1 - l + 3)) := by
  have hz (l h : Int) : l ≤ h + 1 → 6 * ((0 : Nat) : Int) ≤ (h + 1 - l) * (h + 1 - l + 3) := fun c => by
    have := mul_nonneg (by omega : 0 ≤ h + 1 - l) (by omega : 0 ≤ h + 1 - l + 3)
    simpa using this
  have step (n a u : Int) (hn : 33 ≤ n) (ha : 0 ≤ a) (ha' : a ≤ n - 3) (hu : 6 * u ≤ a * (a + 3)) : 6 * (n + u) ≤ n * (n + 3) := by
    nlinarith [mul_nonneg (sub_nonneg.2 ha') (by linarith : 0 ≤ n - 3 + a)]
  induction fuel generalizing a l h with
  | zero =>
    unfold selectWork
    by_cases hlh : l < h
    · rw [if_pos hlh, if_pos (by omega)]
      obtain ⟨b, e, u, -⟩ := insertion_ok lt a l h h0 h1
      simp only [e, bind, Except.bind, pure, Except.pure]
      exact ⟨b, 0, rfl, u, hz l h⟩
    · rw [if_neg hlh]
      exact ⟨a, 0, rfl, .refl _ _ _, hz l h⟩
  | succ fuel ih =>
    unfold selectWork
    by_cases hlh : l < h
    · rw [if_pos hlh]
      by_cases h32 : h - l < 32
      · rw [if_pos h32]
        obtain ⟨b, e, u, -⟩ := insertion_ok lt a l h h0 h1
        simp only [e, bind, Except.bind, pure, Except.pure]
        exact ⟨b, 0, rfl, u, hz l h⟩
      · rw [if_neg h32]
        obtain ⟨b, l', h', p, e, u, b1, b2, b3, hP, hM⟩ := partition_ok lt hw.irr a l h h0 h1 (by omega)
        obtain ⟨q1, q2⟩ := partition_balance lt hw a l h h0 h1 (by omega) _ _ _ e
        have hbl := u.len
        obtain ⟨c, w2, e2, u2, s2⟩ := ih b l (l' - 1) h0 (by omega) (by omega)
        obtain ⟨d, w3, e3, u3, s3⟩ := ih b (h' + 1) h (by omega) (by omega) (by omega)
        simp only [e, e2, e3, bind, Except.bind, pure, Except.pure]
        split
        · refine ⟨c, _, rfl, u.trans (u2.mono (Int.le_refl _) (by omega)), fun _ => ?_⟩
          have := step (h + 1 - l) (l' - 1 + 1 - l) w2 (by omega) (by omega) (by omega) (s2 (by omega))
          refine le_trans (le_of_eq ?_) this
          push_cast
          rw [Int.toNat_of_nonneg (by omega)]
          ring
        · split
          · refine ⟨d, _, rfl, u.trans (u3.mono (by omega) (Int.le_refl _)), fun _ => ?_⟩
            have := step (h + 1 - l) (h + 1 - (h' + 1)) w3 (by omega) (by omega) (by omega) (s3 (by omega))
            refine le_trans (le_of_eq ?_) this
            push_cast
            rw [Int.toNat_of_nonneg (by omega)]
            ring
          · refine ⟨b, _, rfl, u, fun _ => ?_⟩
            have := step (h + 1 - l) 0 0 (by omega) (by omega) (by omega) (by omega)
            refine le_trans (le_of_eq ?_) this
            rw [Int.toNat_of_nonneg (by omega)]
            ring
    · rw [if_neg hlh]
      exact ⟨a, 0, rfl, .refl _ _ _, hz l h⟩

end Quick

namespace Quick

/-! ### Reading and swapping in lists that are put together -/

theorem rd_at (pre post : List α) (x : α) (i : Int) (hi : i = pre.length) : rd (pre ++ x :: post) i = .ok x := by
  subst hi
  rw [rd_iff, ix_nat, List.getElem?_append_right le_rfl]
  simp

theorem wr_at (pre post : List α) (x y : α) (i : Int) (hi : i = pre.length) : wr (pre ++ x :: post) i y = .ok (pre ++ y :: post) := by
  subst hi
  unfold wr
  rw [if_pos (by simp)]
  simp

theorem swap_self {a : List α} {i : Int} {x : α} (h : rd a i = .ok x) : swap a i i = .ok a := by
  obtain ⟨h0, h1⟩ := ix_bounds (rd_iff.1 h)
  obtain ⟨b, e, u, s1, s2, s3⟩ := swap_ok (a := a) (i := i) (j := i) (l := 0) (h := (a.length : Int) - 1) le_rfl (by omega) (by omega) (by omega)
  rw [e]
  congr 1
  apply List.ext_getElem?
  intro k
  rw [← ix_nat, ← ix_nat]
  by_cases c : (k : Int) = i
  · rw [c, s1]
  · exact s3 k c c

/-- Swapping a cell with one before it. -/
theorem swap_back (pre mid post : List α) (u v : α) (i j : Int) (hi : i = pre.length + 1 + mid.length) (hj : j = pre.length) :
    swap (pre ++ u :: (mid ++ v :: post)) i j = .ok (pre ++ v :: (mid ++ u :: post)) := by
  have e1 : pre ++ u :: (mid ++ v :: post) = (pre ++ u :: mid) ++ v :: post := by simp
  have e2 : (pre ++ u :: mid) ++ u :: post = pre ++ u :: (mid ++ u :: post) := by simp
  have r1 := rd_at pre (mid ++ v :: post) u j hj
  have r2 := rd_at (pre ++ u :: mid) post v i (by simp; omega)
  have w1 := wr_at (pre ++ u :: mid) post v u i (by simp; omega)
  rw [← e1] at r2 w1
  rw [e2] at w1
  simp only [swap, r1, r2, w1, bind, Except.bind]
  exact wr_at pre _ u v j hj

/-- Swapping a cell with one behind it. -/
theorem swap_fore (pre mid post : List α) (u v : α) (i j : Int) (hi : i = pre.length) (hj : j = pre.length + 1 + mid.length) :
    swap (pre ++ u :: (mid ++ v :: post)) i j = .ok (pre ++ v :: (mid ++ u :: post)) := by
  have e1 : pre ++ u :: (mid ++ v :: post) = (pre ++ u :: mid) ++ v :: post := by simp
  have e2 : (pre ++ v :: mid) ++ v :: post = pre ++ v :: (mid ++ v :: post) := by simp
  have r1 := rd_at pre (mid ++ v :: post) u i hi
  have r2 := rd_at (pre ++ u :: mid) post v j (by simp; omega)
  have w1 := wr_at pre (mid ++ v :: post) u v i hi
  have w2 := wr_at (pre ++ v :: mid) post v u j (by simp; omega)
  rw [← e1] at r2
  rw [e2] at w2
  simp only [swap, r1, r2, w1, bind, Except.bind, w2]
  simp

/-! ### The loop of `partition` on elements that are all below the pivot -/

/-- While no pivot has been met, nothing moves. -/
theorem partLoop_start (lt : α → α → Bool) (p : α) (xs : List α) : ∀ (pre post : List α) (fuel : Nat) (h i : Int), (∀ x ∈ xs, lt x p = true) → i = pre.length → i + xs.length ≤ h + 1 →
    partLoop lt p (xs.length + fuel) (pre ++ (xs ++ post)) i i h = partLoop lt p fuel (pre ++ (xs ++ post)) (i + xs.length) (i + xs.length) h := by
  induction xs with
  | nil => intro pre post fuel h i _ hi hh; simp
  | cons x xs ih =>
    intro pre post fuel h i hx hi hh
    rw [List.length_cons] at hh ⊢
    push_cast at hh ⊢
    rw [Nat.add_right_comm]
    have hr := rd_at pre (xs ++ post) x i hi
    rw [List.cons_append]
    rw [partLoop, if_pos (by omega)]
    simp only [hr, bind, Except.bind, swap_self hr]
    rw [if_pos (hx x (by simp))]
    have := ih (pre ++ [x]) post fuel h (i + 1) (fun y hy => hx y (by simp [hy])) (by simp; omega) (by omega)
    rw [List.append_assoc, List.singleton_append] at this
    rw [this]
    congr 1 <;> omega

/-- The pivot is carried along. -/
theorem partLoop_carry (lt : α → α → Bool) (p : α) (xs : List α) : ∀ (pre post : List α) (fuel : Nat) (h l : Int), (∀ x ∈ xs, lt x p = true) → l = pre.length → l + xs.length ≤ h →
    partLoop lt p (xs.length + fuel) (pre ++ p :: (xs ++ post)) (l + 1) l h = partLoop lt p fuel (pre ++ (xs ++ p :: post)) (l + xs.length + 1) (l + xs.length) h := by
  induction xs with
  | nil => intro pre post fuel h l _ hi hh; simp
  | cons x xs ih =>
    intro pre post fuel h l hx hl hh
    rw [List.length_cons] at hh ⊢
    push_cast at hh ⊢
    rw [Nat.add_right_comm]
    have e : pre ++ p :: (x :: xs ++ post) = (pre ++ [p]) ++ x :: (xs ++ post) := by simp
    have hr := rd_at (pre ++ [p]) (xs ++ post) x (l + 1) (by simp; omega)
    rw [partLoop, if_pos (by omega), e]
    simp only [hr, bind, Except.bind]
    rw [if_pos (hx x (by simp))]
    have hs := swap_back pre [] (xs ++ post) p x (l + 1) l (by simp; omega) hl
    rw [List.nil_append] at hs
    rw [← e]
    simp only [List.cons_append]
    rw [hs]
    simp only [List.nil_append]
    have := ih (pre ++ [x]) post fuel h (l + 1) (fun y hy => hx y (by simp [hy])) (by simp; omega) (by omega)
    rw [List.append_assoc, List.singleton_append, List.append_assoc, List.singleton_append] at this
    rw [this]
    congr 1 <;> omega

/-- The bad case: the pivot is the third largest element. -/
theorem partition_bad (lt : α → α → Bool) (hw : StrictWeakOrder lt) (A B C : List α) (p g x g' : α) (rest : List α) (n : Nat) (hn : n = A.length + B.length + C.length + 4)
    (hA : A.length = (n - 1) / 2) (hB : B.length + 1 = (n - 1) / 4) (hb : 33 ≤ n) (lA : ∀ y ∈ A, lt y p = true) (lB : ∀ y ∈ B, lt y p = true) (lC : ∀ y ∈ C, lt y p = true)
    (lx : lt x p = true) (g1 : lt p g = true) (g2 : lt p g' = true) (hgA : ∀ y ∈ A, lt g y = false ∧ lt g' y = false) :
    partition lt (A ++ p :: (B ++ g :: (C ++ x :: g' :: rest))) 0 ((n : Int) - 1) =
      .ok ((A ++ B ++ x :: C) ++ p :: g' :: g :: rest, (n : Int) - 3, (n : Int) - 3) := by
  set X := A ++ p :: (B ++ g :: (C ++ x :: g' :: rest)) with hX
  have hlen : X.length = n + rest.length := by rw [hX]; simp; omega
  obtain ⟨a0, A', hA'⟩ : ∃ a0 A', A = a0 :: A' := by
    cases A with
    | nil => simp at hA; omega
    | cons a A' => exact ⟨a, A', rfl⟩
  -- the five cells
  have r0 : rd X 0 = .ok a0 := by rw [hX, hA']; exact rd_at [] _ a0 0 rfl
  have hq : ((n : Int) - 1 - 0) / 4 = ((n - 1) / 4 : Nat) := by omega
  have hm : ((n : Int) - 1 - 0) / 2 = ((n - 1) / 2 : Nat) := by omega
  obtain ⟨y, hy, hyA⟩ : ∃ y, rd X (((n - 1) / 4 : Nat) : Int) = .ok y ∧ y ∈ A := by
    have hlt : (n - 1) / 4 < A.length := by omega
    refine ⟨A[(n - 1) / 4], ?_, List.getElem_mem _⟩
    rw [rd_iff, ix_nat, hX, List.getElem?_append_left hlt]
    exact List.getElem?_eq_getElem hlt
  have r2 : rd X (((n - 1) / 2 : Nat) : Int) = .ok p := by rw [hX]; exact rd_at A _ p _ (by omega)
  have r3 : rd X ((((n - 1) / 2 : Nat) : Int) + ((n - 1) / 4 : Nat)) = .ok g := by
    have e : X = (A ++ p :: B) ++ g :: (C ++ x :: g' :: rest) := by rw [hX]; simp
    rw [e]; exact rd_at _ _ g _ (by simp; omega)
  have r4 : rd X ((n : Int) - 1) = .ok g' := by
    have e : X = (A ++ p :: (B ++ g :: (C ++ [x]))) ++ g' :: rest := by rw [hX]; simp
    rw [e]; exact rd_at _ _ g' _ (by simp; omega)
  have a0A : a0 ∈ A := by rw [hA']; simp
  have c1 : lt p a0 = false := hw.asymm _ _ (lA a0 a0A)
  have c2 : lt p y = false := hw.asymm _ _ (lA y hyA)
  have hmed : median lt X 0 (((n - 1) / 4 : Nat) : Int) (((n - 1) / 2 : Nat) : Int) ((((n - 1) / 2 : Nat) : Int) + ((n - 1) / 4 : Nat)) ((n : Int) - 1) = .ok X := by
    simp only [median, less, r0, hy, r2, r3, r4, bind, Except.bind, pure, Except.pure, M.ite, c1, c2, (hgA y hyA).1, (hgA y hyA).2, hw.asymm _ _ g1, hw.asymm _ _ g2, Bool.false_eq_true, if_false]
  unfold partition
  simp only [hq, hm, zero_add, hmed, r2, bind, Except.bind]
  have hfuel : ((n : Int) - 1 - 0 + 1).toNat = A.length + (1 + (B.length + (2 + ((x :: C).length + 0)))) := by simp; omega
  rw [hfuel]
  -- all of `A`
  have s1 := partLoop_start lt p A [] (p :: (B ++ g :: (C ++ x :: g' :: rest))) (1 + (B.length + (2 + ((x :: C).length + 0)))) ((n : Int) - 1) 0 lA rfl (by omega)
  rw [List.nil_append, ← hX, zero_add] at s1
  rw [s1]
  -- the pivot
  have s2 : partLoop lt p (1 + (B.length + (2 + ((x :: C).length + 0)))) X A.length A.length ((n : Int) - 1) =
      partLoop lt p (B.length + (2 + ((x :: C).length + 0))) X (A.length + 1) A.length ((n : Int) - 1) := by
    rw [Nat.add_comm 1, partLoop, if_pos (by omega)]
    rw [show (A.length : Int) = ((n - 1) / 2 : Nat) by omega]
    simp only [r2, bind, Except.bind, hw.irr p, Bool.false_eq_true, if_false]
  rw [s2]
  -- all of `B`
  have s3 := partLoop_carry lt p B A (g :: (C ++ x :: g' :: rest)) (2 + ((x :: C).length + 0)) ((n : Int) - 1) A.length lB rfl (by omega)
  rw [← hX] at s3
  rw [s3]
  -- the two greater ones
  have e4 : A ++ (B ++ p :: g :: (C ++ x :: g' :: rest)) = (A ++ B ++ [p]) ++ g :: (C ++ x :: g' :: rest) := by simp
  have s4 : partLoop lt p (2 + ((x :: C).length + 0)) (A ++ (B ++ p :: g :: (C ++ x :: g' :: rest))) (A.length + B.length + 1) (A.length + B.length) ((n : Int) - 1) =
      partLoop lt p ((x :: C).length + 0) ((A ++ B) ++ p :: ((x :: C) ++ g' :: g :: rest)) (A.length + B.length + 1) (A.length + B.length) ((n : Int) - 3) := by
    have q1 := rd_at (A ++ B ++ [p]) (C ++ x :: g' :: rest) g ((A.length : Int) + B.length + 1) (by simp; omega)
    have q2 := swap_fore (A ++ B ++ [p]) (C ++ [x]) rest g g' ((A.length : Int) + B.length + 1) ((n : Int) - 1) (by simp; omega) (by simp; omega)
    have q3 := rd_at (A ++ B ++ [p]) (C ++ x :: g :: rest) g' ((A.length : Int) + B.length + 1) (by simp; omega)
    have q4 := swap_fore (A ++ B ++ [p]) C (g :: rest) g' x ((A.length : Int) + B.length + 1) ((n : Int) - 1 - 1) (by simp; omega) (by simp; omega)
    simp only [List.append_assoc, List.cons_append, List.nil_append] at q1 q2 q3 q4 ⊢
    rw [Nat.add_comm 2, partLoop, if_pos (by omega)]
    simp only [q1, q2, bind, Except.bind, hw.asymm _ _ g1, g1, Bool.false_eq_true, if_false, if_true]
    rw [partLoop, if_pos (by omega)]
    simp only [q3, q4, bind, Except.bind, hw.asymm _ _ g2, g2, Bool.false_eq_true, if_false, if_true]
    congr 1; omega
  rw [s4]
  -- the others
  have s5 := partLoop_carry lt p (x :: C) (A ++ B) (g' :: g :: rest) 0 ((n : Int) - 3) ((A.length : Int) + B.length)
    (fun y hy => by
      rcases List.mem_cons.1 hy with rfl | hy
      · exact lx
      · exact lC y hy) (by simp) (by simp; omega)
  rw [s5, partLoop, if_neg (by simp; omega)]
  simp
  omega

/-- Any number of different values can be arranged badly. -/
theorem bad_order (lt : α → α → Bool) (hw : StrictWeakOrder lt) (n : Nat) : ∀ vs : List α, vs.length = n → vs.Pairwise (fun x y => lt x y = true) →
    ∃ xs : List α, xs.Perm vs ∧ ∀ (rest : List α) (fuel : Nat),
      ((3 * fuel + 32 < n → sortWork lt fuel (xs ++ rest) 0 ((n : Int) - 1) = .error .diverge ∧ selectWork lt 0 fuel (xs ++ rest) 0 ((n : Int) - 1) = .error .diverge) ∧
        ∀ r, (sortWork lt fuel (xs ++ rest) 0 ((n : Int) - 1) = .ok r ∨ selectWork lt 0 fuel (xs ++ rest) 0 ((n : Int) - 1) = .ok r) → n ^ 2 ≤ 6 * r.2 + 1024) := by
  induction n using Nat.strong_induction_on with
  | _ n ih =>
    intro vs hvs hpw
    by_cases hn : n < 33
    · refine ⟨vs, .refl _, fun rest fuel => ⟨fun c => by omega, fun r _ => ?_⟩⟩
      nlinarith
    · -- the three largest values
      obtain ⟨ws, p, g, g', rfl⟩ : ∃ ws p g g', vs = ws ++ [p, g, g'] := by
        have hsplit := List.take_append_drop (n - 3) vs
        have hl : (vs.drop (n - 3)).length = 3 := by simp; omega
        match hd : vs.drop (n - 3), hl with
        | [p, g, g'], _ => exact ⟨vs.take (n - 3), p, g, g', by rw [← hd, hsplit]⟩
      have hws : ws.length = n - 3 := by simp at hvs; omega
      rw [List.pairwise_append] at hpw
      obtain ⟨hpw1, hpw2, hpw3⟩ := hpw
      obtain ⟨bs, hbp, hbad⟩ := ih (n - 3) (by omega) ws hws hpw1
      have hbl : bs.length = n - 3 := hbp.length_eq.trans hws
      have lp : ∀ y ∈ bs, lt y p = true := fun y hy => hpw3 y (hbp.mem_iff.1 hy) p (by simp)
      have lg : ∀ y ∈ bs, lt g y = false := fun y hy => hw.asymm _ _ (hpw3 y (hbp.mem_iff.1 hy) g (by simp))
      have lg' : ∀ y ∈ bs, lt g' y = false := fun y hy => hw.asymm _ _ (hpw3 y (hbp.mem_iff.1 hy) g' (by simp))
      have g1 : lt p g = true := by simp at hpw2; exact hpw2.1.1
      have g2 : lt p g' = true := by simp at hpw2; exact hpw2.1.2
      -- cut the smaller bad list
      obtain ⟨A, B, x, C, rfl, hA, hB⟩ : ∃ A B x C, bs = A ++ B ++ x :: C ∧ A.length = (n - 1) / 2 ∧ B.length + 1 = (n - 1) / 4 := by
        have hl : (n - 1) / 2 + (n - 1) / 4 - 1 < bs.length := by omega
        refine ⟨bs.take ((n - 1) / 2), (bs.drop ((n - 1) / 2)).take ((n - 1) / 4 - 1), bs[(n - 1) / 2 + (n - 1) / 4 - 1], bs.drop ((n - 1) / 2 + (n - 1) / 4), ?_, ?_, ?_⟩
        · have e1 : bs.drop ((n - 1) / 2 + (n - 1) / 4 - 1) = bs[(n - 1) / 2 + (n - 1) / 4 - 1] :: bs.drop ((n - 1) / 2 + (n - 1) / 4) := by
            rw [List.drop_eq_getElem_cons hl]
            congr 2; omega
          rw [← e1, List.append_assoc]
          have e2 : bs.drop ((n - 1) / 2 + (n - 1) / 4 - 1) = (bs.drop ((n - 1) / 2)).drop ((n - 1) / 4 - 1) := by
            rw [List.drop_drop]; congr 1; omega
          rw [e2, List.take_append_drop, List.take_append_drop]
        · simp; omega
        · simp; omega
      refine ⟨A ++ p :: (B ++ g :: (C ++ [x, g'])), ?_, fun rest fuel => ?_⟩
      · refine List.Perm.trans ?_ (hbp.append_right [p, g, g'])
        have q : (A ++ p :: (B ++ g :: (C ++ [x, g']))).Perm (A ++ (B ++ (x :: C ++ [p, g, g']))) := by
          refine List.Perm.append_left A ?_
          refine List.Perm.trans (l₂ := B ++ p :: g :: (C ++ [x, g'])) List.perm_middle.symm ?_
          refine List.Perm.append_left B ?_
          have : (x :: C ++ [p, g, g']).Perm (p :: g :: (C ++ [x, g'])) := by
            refine List.Perm.trans (l₂ := p :: x :: (C ++ [g, g'])) ?_ (List.Perm.cons p ?_)
            · exact (List.perm_middle (l₁ := x :: C) (a := p) (l₂ := [g, g']))
            · refine List.Perm.trans (l₂ := g :: x :: (C ++ [g'])) ?_ (List.Perm.cons g ?_)
              · exact (List.perm_middle (l₁ := x :: C) (a := g) (l₂ := [g']))
              · exact (List.perm_middle (l₁ := C) (a := x) (l₂ := [g'])).symm
          exact this.symm
        simpa using q
      · have hlen : (A ++ B ++ x :: C).length = n - 3 := hbl
        have hpart := partition_bad lt hw A B C p g x g' rest n (by simp at hlen; omega) hA hB (by omega) (fun y hy => lp y (by simp [hy])) (fun y hy => lp y (by simp [hy]))
          (fun y hy => lp y (by simp [hy])) (lp x (by simp)) g1 g2 (fun y hy => ⟨lg y (by simp [hy]), lg' y (by simp [hy])⟩)
        have hlist : A ++ p :: (B ++ g :: (C ++ [x, g'])) ++ rest = A ++ p :: (B ++ g :: (C ++ x :: g' :: rest)) := by simp
        rw [hlist]
        cases fuel with
        | zero =>
          have e1 : sortWork lt 0 (A ++ p :: (B ++ g :: (C ++ x :: g' :: rest))) 0 ((n : Int) - 1) = .error .diverge := by
            rw [sortWork, if_pos (by omega), if_neg (by omega)]
          have e2 : selectWork lt 0 0 (A ++ p :: (B ++ g :: (C ++ x :: g' :: rest))) 0 ((n : Int) - 1) = .error .diverge := by
            rw [selectWork, if_pos (by omega), if_neg (by omega)]
          refine ⟨fun _ => ⟨e1, e2⟩, fun r hr => ?_⟩
          rw [e1, e2] at hr
          rcases hr with h | h <;> cases h
        | succ fuel =>
          obtain ⟨b1, b2⟩ := hbad (p :: g' :: g :: rest) fuel
          have en : ((n - 3 : Nat) : Int) - 1 = (n : Int) - 3 - 1 := by omega
          rw [en] at b1 b2
          have e1 : sortWork lt (fuel + 1) (A ++ p :: (B ++ g :: (C ++ x :: g' :: rest))) 0 ((n : Int) - 1) =
              (sortWork lt fuel ((A ++ B ++ x :: C) ++ p :: g' :: g :: rest) 0 ((n : Int) - 3 - 1)).bind fun q =>
                (sortWork lt fuel q.1 ((n : Int) - 3 + 1) ((n : Int) - 1)).bind fun z => .ok (z.1, ((n : Int) - 1 - 0 + 1).toNat + q.2 + z.2) := by
            rw [sortWork, if_pos (by omega), if_neg (by omega)]
            simp only [hpart, bind, Except.bind, pure, Except.pure]
          have e2 : selectWork lt 0 (fuel + 1) (A ++ p :: (B ++ g :: (C ++ x :: g' :: rest))) 0 ((n : Int) - 1) =
              (selectWork lt 0 fuel ((A ++ B ++ x :: C) ++ p :: g' :: g :: rest) 0 ((n : Int) - 3 - 1)).bind fun q => .ok (q.1, ((n : Int) - 1 - 0 + 1).toNat + q.2) := by
            rw [selectWork, if_pos (by omega), if_neg (by omega)]
            simp only [hpart, bind, Except.bind, pure, Except.pure]
            rw [if_pos (by omega)]
          have hnn : ((n : Int) - 1 - 0 + 1).toNat = n := by omega
          rw [hnn] at e1 e2
          rw [e1, e2]
          refine ⟨fun c => ?_, fun r hr => ?_⟩
          · obtain ⟨c1, c2⟩ := b1 (by omega)
            rw [c1, c2]
            exact ⟨rfl, rfl⟩
          · have fin (u v : Nat) (hu : (n - 3) ^ 2 ≤ 6 * u + 1024) : n ^ 2 ≤ 6 * (n + u + v) + 1024 := by
              obtain ⟨m, rfl⟩ : ∃ m, n = m + 3 := ⟨n - 3, by omega⟩
              rw [Nat.add_sub_cancel] at hu
              nlinarith
            rcases hr with h | h
            · cases hs : sortWork lt fuel ((A ++ B ++ x :: C) ++ p :: g' :: g :: rest) 0 ((n : Int) - 3 - 1) with
              | error e => rw [hs] at h; cases h
              | ok q =>
                rw [hs] at h
                simp only [Except.bind] at h
                cases ht : sortWork lt fuel q.1 ((n : Int) - 3 + 1) ((n : Int) - 1) with
                | error e => rw [ht] at h; cases h
                | ok z =>
                  rw [ht] at h
                  cases h
                  exact fin q.2 z.2 (b2 q (.inl hs))
            · cases hs : selectWork lt 0 fuel ((A ++ B ++ x :: C) ++ p :: g' :: g :: rest) 0 ((n : Int) - 3 - 1) with
              | error e => rw [hs] at h; cases h
              | ok q =>
                rw [hs] at h
                cases h
                exact fin q.2 0 (b2 q (.inr hs))

end Quick

namespace Quick

theorem linear_weak {β : Type} [LinearOrder β] : StrictWeakOrder (fun x y : β => decide (x < y)) :=
  ⟨by simp, by simpa using fun x y h => le_of_lt h, by simpa using fun x y z h1 h2 => le_trans h2 h1⟩

/-- Every partition uses up a value. -/
theorem sortWork_values {β : Type} [LinearOrder β] (fuel : Nat) (a : List β) (l h : Int) (h0 : 0 ≤ l) (h1 : h < a.length) (S : Finset β) (hS : AllIx l h (· ∈ S) a)
    (hf : S.card ≤ fuel) : ∃ a' w, sortWork (fun x y => decide (x < y)) fuel a l h = .ok (a', w) ∧ Upd l h a a' ∧ (l ≤ h + 1 → (w : Int) ≤ S.card * (h + 1 - l)) := by
  have hz (S : Finset β) (l h : Int) : l ≤ h + 1 → ((0 : Nat) : Int) ≤ S.card * (h + 1 - l) := fun c => by
    have := mul_nonneg (Int.natCast_nonneg S.card) (by omega : 0 ≤ h + 1 - l)
    simpa using this
  induction fuel generalizing a l h S with
  | zero =>
    have hS0 : S = ∅ := Finset.card_eq_zero.1 (by omega)
    unfold sortWork
    by_cases hlh : l < h
    · obtain ⟨x, hx⟩ := ix_some (a := a) (i := l) h0 (by omega)
      have := hS l le_rfl (by omega) x hx
      rw [hS0] at this
      simp at this
    · rw [if_neg hlh]
      exact ⟨a, 0, rfl, .refl _ _ _, hz S l h⟩
  | succ fuel ih =>
    unfold sortWork
    by_cases hlh : l < h
    · rw [if_pos hlh]
      by_cases h32 : h - l < 32
      · rw [if_pos h32]
        obtain ⟨b, e, u, -⟩ := insertion_ok (fun x y : β => decide (x < y)) a l h h0 h1
        simp only [e, bind, Except.bind, pure, Except.pure]
        exact ⟨b, 0, rfl, u, hz S l h⟩
      · rw [if_neg h32]
        obtain ⟨b, l', h', p, e, u, b1, b2, b3, hP, hM⟩ := partition_ok (fun x y : β => decide (x < y)) linear_weak.irr a l h h0 h1 (by omega)
        have hbl := u.len
        have hSb := hS.upd u
        have hp : p ∈ S := by
          obtain ⟨x, hx⟩ := ix_some (a := b) (i := l') (by omega) (by omega)
          have := hM l' le_rfl b2 x hx
          simp only [decide_eq_false_iff_not, not_lt] at this
          rw [le_antisymm this.1 this.2]
          exact hSb l' b1 (by omega) x hx
        have c1 : (S.filter (· < p)).card < S.card := Finset.card_lt_card (Finset.filter_ssubset.2 ⟨p, hp, by simp⟩)
        have c2 : (S.filter (p < ·)).card < S.card := Finset.card_lt_card (Finset.filter_ssubset.2 ⟨p, hp, by simp⟩)
        obtain ⟨c, w2, e2, u2, s2⟩ := ih b l (l' - 1) h0 (by omega) (S.filter (· < p))
          (fun k k1 k2 x hx => Finset.mem_filter.2 ⟨hSb k k1 (by omega) x hx, by simpa using hP.low k k1 k2 x hx⟩) (by omega)
        have hcl := u2.len
        have hH : AllIx (h' + 1) h (· ∈ S.filter (p < ·)) b :=
          fun k k1 k2 x hx => Finset.mem_filter.2 ⟨hSb k (by omega) k2 x hx, by simpa using hP.high k k1 k2 x hx⟩
        obtain ⟨d, w3, e3, u3, s3⟩ := ih c (h' + 1) h (by omega) (by omega) (S.filter (p < ·)) (hH.outside u2 (by omega)) (by omega)
        simp only [e, e2, e3, bind, Except.bind, pure, Except.pure]
        refine ⟨d, _, rfl, (u.trans (u2.mono (Int.le_refl _) (by omega))).trans (u3.mono (by omega) (Int.le_refl _)), fun _ => ?_⟩
        have s2 := s2 (by omega)
        have s3 := s3 (by omega)
        have t2 : ((S.filter (· < p)).card : Int) * (l' - 1 + 1 - l) ≤ (S.card - 1) * (l' - 1 + 1 - l) := mul_le_mul_of_nonneg_right (by omega) (by omega)
        have t3 : ((S.filter (p < ·)).card : Int) * (h + 1 - (h' + 1)) ≤ (S.card - 1) * (h + 1 - (h' + 1)) := mul_le_mul_of_nonneg_right (by omega) (by omega)
        have t4 : ((S.card : Int) - 1) * ((l' - 1 + 1 - l) + (h + 1 - (h' + 1))) ≤ (S.card - 1) * (h + 1 - l) := mul_le_mul_of_nonneg_left (by omega) (by omega)
        push_cast
        rw [Int.toNat_of_nonneg (by omega)]
        nlinarith
    · rw [if_neg hlh]
      exact ⟨a, 0, rfl, .refl _ _ _, hz S l h⟩

/-- The result with much depth is the one of `quick_sort`. -/
theorem sortWork_result {lt : α → α → Bool} {fuel : Nat} {a a' : List α} {l h : Int} {w m : Nat} (e : sortWork lt fuel a l h = .ok (a', w)) (hm : fuel ≤ m) :
    sortWork lt m a l h = .ok (a', w) ∧ sort lt m a l h = .ok a' := by
  have q := sortWork_mono lt (m - fuel) fuel a l h _ e
  rw [Nat.add_sub_of_le hm] at q
  refine ⟨q, ?_⟩
  rw [← sortWork_fst, q]
  rfl

theorem selectWork_result {lt : α → α → Bool} {k : Int} {fuel : Nat} {a a' : List α} {l h : Int} {w m : Nat} (e : selectWork lt k fuel a l h = .ok (a', w)) (hm : fuel ≤ m) :
    selectWork lt k m a l h = .ok (a', w) ∧ select lt k m a l h = .ok a' := by
  have q := selectWork_mono lt k (m - fuel) fuel a l h _ e
  rw [Nat.add_sub_of_le hm] at q
  refine ⟨q, ?_⟩
  rw [← selectWork_fst, q]
  rfl

end Quick

/-- **C80**: `quick_sort` on `n` elements never needs more than `(n - 30) / 3` partitions inside of each other, and all partitions together look at no more than
`n * (n + 13) / 6` elements. -/
theorem C80_sort (lt : α → α → Bool) (hw : StrictWeakOrder lt) (xs rest : List α) (fuel : Nat) (hf : (xs.length - 30) / 3 ≤ fuel) :
    ∃ ys w, quickSort lt (xs ++ rest) xs.length = .ok (ys ++ rest) ∧ sortWork lt fuel (xs ++ rest) 0 ((xs.length : Int) - 1) = .ok (ys ++ rest, w) ∧
      6 * w ≤ xs.length * (xs.length + 13) := by
  obtain ⟨a', w, e, u, hb⟩ := sortWork_ok lt hw ((xs.length - 30) / 3) (xs ++ rest) 0 ((xs.length : Int) - 1) le_rfl (by simp; omega) (by omega)
  obtain ⟨ys, rfl, hp, -⟩ := u.split
  refine ⟨ys, w, (sortWork_result e (by simp; omega)).2, (sortWork_result e hf).1, ?_⟩
  have := hb (by omega)
  rw [Int.sub_add_cancel, Int.sub_zero] at this
  exact_mod_cast this

/-- **C80**: `quick_select` makes at most `(n - 30) / 3` partitions, which look at no more than `n * (n + 3) / 6` elements. -/
theorem C80_select (lt : α → α → Bool) (hw : StrictWeakOrder lt) (xs rest : List α) (k : Nat) (hk : k < xs.length) (fuel : Nat) (hf : (xs.length - 30) / 3 ≤ fuel) :
    ∃ ys y w, quickSelect lt (xs ++ rest) k xs.length = .ok (ys ++ rest, y) ∧ selectWork lt k fuel (xs ++ rest) 0 ((xs.length : Int) - 1) = .ok (ys ++ rest, w) ∧
      6 * w ≤ xs.length * (xs.length + 3) := by
  obtain ⟨a', w, e, u, hb⟩ := selectWork_ok lt hw k ((xs.length - 30) / 3) (xs ++ rest) 0 ((xs.length : Int) - 1) le_rfl (by simp; omega) (by omega)
  obtain ⟨ys, y, e', -⟩ := C13_select_safe lt hw.irr xs rest k hk
  have hs := (selectWork_result e (m := xs.length) (by omega)).2
  have hr := (selectWork_result e hf).1
  have ha : assert (decide ((xs.length : Int) ≠ 0 ∧ (k : Int) < xs.length)) = .ok () := by
    rw [decide_eq_true (by omega)]; rfl
  have : a' = ys ++ rest := by
    simp only [quickSelect, ha, bind, Except.bind, Int.toNat_natCast, hs, pure, Except.pure] at e'
    cases hr : rd a' (k : Int) with
    | error q => rw [hr] at e'; cases e'
    | ok q =>
      rw [hr] at e'
      simp only [Except.ok.injEq, Prod.mk.injEq] at e'
      exact e'.1
  subst this
  refine ⟨ys, y, w, e', hr, ?_⟩
  have := hb (by omega)
  rw [Int.sub_add_cancel, Int.sub_zero] at this
  exact_mod_cast this

/-- **C80** for few values: there are never more partitions inside of each other than there are different values, and they look at no more elements than `n` times that. -/
theorem C80_values {β : Type} [LinearOrder β] (xs rest : List β) :
    ∃ ys w, quickSort (fun x y => decide (x < y)) (xs ++ rest) xs.length = .ok (ys ++ rest) ∧
      sortWork (fun x y => decide (x < y)) xs.toFinset.card (xs ++ rest) 0 ((xs.length : Int) - 1) = .ok (ys ++ rest, w) ∧ w ≤ xs.toFinset.card * xs.length := by
  obtain ⟨a', w, e, u, hb⟩ := sortWork_values xs.toFinset.card (xs ++ rest) 0 ((xs.length : Int) - 1) le_rfl (by simp; omega) xs.toFinset
    (fun k k1 k2 x hx => by
      obtain ⟨i, rfl⟩ := Int.eq_ofNat_of_zero_le k1
      rw [ix_nat, List.getElem?_append_left (by omega)] at hx
      exact List.mem_toFinset.2 (List.mem_of_getElem? hx)) le_rfl
  obtain ⟨ys, rfl, hp, -⟩ := u.split
  refine ⟨ys, w, (sortWork_result e ?_).2, e, ?_⟩
  · simpa using xs.toFinset_card_le
  · have := hb (by omega)
    rw [Int.sub_add_cancel, Int.sub_zero] at this
    exact_mod_cast this

/-- **C80**: both bounds on the depth are met, and the bound on the work is met up to lower order terms. Any `n` different values can be arranged in such a way that fewer than
`(n - 30) / 3` partitions inside of each other do not sort them and fewer do not select the smallest one, and that `n ^ 2 / 6 - 171` elements are looked at. -/
theorem C80_worst {β : Type} [LinearOrder β] (vs : List β) (hd : vs.Nodup) : ∃ xs : List β, xs.Perm vs ∧ ∀ rest : List β,
    (∀ fuel, fuel < (vs.length - 30) / 3 → sort (fun x y => decide (x < y)) fuel (xs ++ rest) 0 ((vs.length : Int) - 1) = .error .diverge ∧
      select (fun x y => decide (x < y)) 0 fuel (xs ++ rest) 0 ((vs.length : Int) - 1) = .error .diverge) ∧
    ∀ fuel ys w, (sortWork (fun x y => decide (x < y)) fuel (xs ++ rest) 0 ((vs.length : Int) - 1) = .ok (ys, w) ∨
      selectWork (fun x y => decide (x < y)) 0 fuel (xs ++ rest) 0 ((vs.length : Int) - 1) = .ok (ys, w)) → vs.length ^ 2 ≤ 6 * w + 1024 := by
  have p := List.mergeSort_perm vs (fun a b => decide (a ≤ b))
  have s := List.pairwise_mergeSort (le := fun a b : β => decide (a ≤ b)) (by simpa using fun a b c => le_trans) (by simpa using le_total) vs
  have nd := p.nodup_iff.2 hd
  obtain ⟨xs, hx, hbad⟩ := bad_order (fun x y : β => decide (x < y)) linear_weak vs.length (vs.mergeSort (fun a b => decide (a ≤ b))) (by simp)
    ((s.and nd).imp (fun {a b} h => by
      simp only [decide_eq_true_eq] at h ⊢
      exact lt_of_le_of_ne h.1 h.2))
  refine ⟨xs, hx.trans p, fun rest => ⟨fun fuel hf => ?_, fun fuel ys w h => (hbad rest fuel).2 (ys, w) h⟩⟩
  obtain ⟨q1, q2⟩ := (hbad rest fuel).1 (by omega)
  rw [← sortWork_fst, ← selectWork_fst, q1, q2]
  exact ⟨rfl, rfl⟩

/-- A concrete bad order of 36 numbers: depth 1 is not enough, depth 2 is, and the two partitions look at 36 and 33 of them. -/
def badOrder : List Nat := [0, 1, 2, 3, 4, 5, 6, 7, 8, 9, 10, 11, 12, 13, 14, 15, 30, 33, 16, 17, 18, 19, 20, 21, 22, 34, 24, 25, 26, 27, 28, 29, 23, 32, 31, 35]

set_option maxRecDepth 100000 in
example : badOrder.Nodup ∧ badOrder.length = 36 ∧ sort (fun x y => decide (x < y)) 1 badOrder 0 35 = .error .diverge ∧
    sortWork (fun x y => decide (x < y)) 2 badOrder 0 35 = .ok (List.range 36, 36 + 33) := by decide +kernel

/-- In order, one partition is enough. -/
example : ∃ ys, sortWork (fun x y => decide (x < y)) 1 (List.range 36) 0 35 = .ok (ys, 36) := ⟨List.range 36, by decide +kernel⟩

-- Many elements, few values.
set_option maxRecDepth 100000 in
example : (List.replicate 100 1 ++ List.replicate 100 (2 : Nat)).toFinset.card = 2 := by decide +kernel

end DSP
