import Verif.Lemmas.Quick

/-!
# Sorting uses nothing but comparisons

Applying a function to all elements commutes with everything in `quick.hh`, and insertion sort as a function on lists.
-/

namespace DSP.Quick
variable {α β : Type}

theorem rd_map (f : α → β) (a : List α) (i : Int) : rd (a.map f) i = (rd a i).map f := by
  by_cases h : 0 ≤ i ∧ i < a.length
  · rw [rd_ok h.1 (by simpa using h.2), rd_ok h.1 h.2]
    simp [Except.map]
  · rw [rd_error (by simp; omega), rd_error (by omega)]
    rfl

theorem wr_map (f : α → β) (a : List α) (i : Int) (v : α) : wr (a.map f) i (f v) = (wr a i v).map (List.map f) := by
  by_cases h : 0 ≤ i ∧ i < a.length
  · rw [wr_ok h.1 (by simpa using h.2), wr_ok h.1 h.2]
    simp [Except.map]
  · rw [wr_error (by simp; omega), wr_error (by omega)]
    rfl

/-- A step that commutes, followed by steps that commute. -/
theorem map_bind {γ δ ε ζ : Type} (g : γ → δ) (h : ε → ζ) {m : M γ} {m' : M δ} {k : γ → M ε} {k' : δ → M ζ} (e : m' = m.map g)
    (ek : ∀ x, k' (g x) = (k x).map h) : (m' >>= k') = (m >>= k).map h := by
  subst e
  cases m with
  | error x => rfl
  | ok x => exact ek x

theorem map_ite (f : α → β) (c : Bool) {t e : M (List α)} {t' e' : M (List β)} (ht : t' = t.map (List.map f)) (he : e' = e.map (List.map f)) :
    M.ite c t' e' = (M.ite c t e).map (List.map f) := by
  subst ht he
  cases c <;> rfl

theorem swap_map (f : α → β) (a : List α) (i j : Int) : swap (a.map f) i j = (swap a i j).map (List.map f) := by
  refine map_bind f _ (rd_map f a i) fun t => ?_
  refine map_bind f _ (rd_map f a j) fun u => ?_
  exact map_bind (List.map f) _ (wr_map f a i u) fun b => wr_map f b j t

variable (lt : β → β → Bool) (f : α → β)

/-- The comparison before the function is applied. -/
local notation "lt'" => fun x y => lt (f x) (f y)

theorem less_map (a : List α) (i j : Int) : less lt (a.map f) i j = (less lt' a i j).map id := by
  refine map_bind f _ (rd_map f a i) fun t => ?_
  exact map_bind f _ (rd_map f a j) fun u => rfl

theorem median_map (A : List α) (a b c d e : Int) : median lt (A.map f) a b c d e = (median lt' A a b c d e).map (List.map f) := by
  refine map_bind id _ (less_map lt f A c a) fun q1 => ?_
  refine map_bind (List.map f) _ (map_ite f q1 (swap_map f A a c) rfl) fun A => ?_
  refine map_bind id _ (less_map lt f A d b) fun q2 => ?_
  refine map_bind (List.map f) _ (map_ite f q2 (swap_map f A b d) rfl) fun A => ?_
  refine map_bind id _ (less_map lt f A d c) fun q3 => ?_
  refine map_bind (List.map f) _ (map_ite f q3 (map_bind (List.map f) _ (swap_map f A c d) fun A => swap_map f A a b) rfl) fun A => ?_
  refine map_bind id _ (less_map lt f A e b) fun q4 => ?_
  refine map_bind (List.map f) _ (map_ite f q4 (swap_map f A b e) rfl) fun A => ?_
  refine map_bind id _ (less_map lt f A e c) fun q5 => ?_
  refine map_ite f q5 ?_ ?_
  · refine map_bind (List.map f) _ (swap_map f A c e) fun A => ?_
    exact map_bind id _ (less_map lt f A c a) fun q => map_ite f q (swap_map f A a c) rfl
  · exact map_bind id _ (less_map lt f A c b) fun q => map_ite f q (swap_map f A b c) rfl

theorem partLoop_map (p : α) (fuel : Nat) (a : List α) (i l h : Int) :
    partLoop lt (f p) fuel (a.map f) i l h = (partLoop lt' p fuel a i l h).map fun r => (r.1.map f, r.2) := by
  induction fuel generalizing a i l h with
  | zero => unfold partLoop; split <;> rfl
  | succ fuel ih =>
    unfold partLoop
    split
    · refine map_bind f _ (rd_map f a i) fun x => ?_
      split
      · exact map_bind (List.map f) _ (swap_map f a i l) fun a => ih _ _ _ _
      · split
        · exact map_bind (List.map f) _ (swap_map f a i h) fun a => ih _ _ _ _
        · exact ih _ _ _ _
    · rfl

theorem partition_map (a : List α) (l h : Int) :
    partition lt (a.map f) l h = (partition lt' a l h).map fun r => (r.1.map f, r.2) := by
  refine map_bind (List.map f) _ (median_map lt f a _ _ _ _ _) fun a => ?_
  exact map_bind f _ (rd_map f a _) fun p => partLoop_map lt f p _ _ _ _ _

theorem insInner_map (t : α) (l : Int) (fuel : Nat) (a : List α) (j : Int) :
    insInner lt (f t) l fuel (a.map f) j = (insInner lt' t l fuel a j).map fun r => (r.1.map f, r.2) := by
  induction fuel generalizing a j with
  | zero =>
    unfold insInner
    split
    · refine map_bind f _ (rd_map f a _) fun x => ?_
      simp only
      split <;> rfl
    · rfl
  | succ fuel ih =>
    unfold insInner
    split
    · refine map_bind f _ (rd_map f a _) fun x => ?_
      simp only
      split
      · exact map_bind (List.map f) _ (wr_map f a j x) fun a => ih _ _
      · rfl
    · rfl

theorem insOuter_map (l h : Int) (fuel : Nat) (a : List α) (i : Int) :
    insOuter lt l h fuel (a.map f) i = (insOuter lt' l h fuel a i).map (List.map f) := by
  induction fuel generalizing a i with
  | zero => unfold insOuter; split <;> rfl
  | succ fuel ih =>
    unfold insOuter
    split
    · refine map_bind f _ (rd_map f a i) fun t => ?_
      refine map_bind (fun r : List α × Int => (r.1.map f, r.2)) _ (insInner_map lt f t l _ a i) fun r => ?_
      exact map_bind (List.map f) _ (wr_map f r.1 r.2 t) fun a => ih _ _
    · rfl

theorem sort_map (fuel : Nat) (a : List α) (l h : Int) : sort lt fuel (a.map f) l h = (sort lt' fuel a l h).map (List.map f) := by
  induction fuel generalizing a l h with
  | zero =>
    unfold sort
    split
    · split
      · exact insOuter_map lt f _ _ _ _ _
      · rfl
    · rfl
  | succ fuel ih =>
    unfold sort
    split
    · split
      · exact insOuter_map lt f _ _ _ _ _
      · refine map_bind (fun r : List α × Int × Int => (r.1.map f, r.2)) _ (partition_map lt f a l h) fun r => ?_
        exact map_bind (List.map f) _ (ih r.1 _ _) fun a => ih a _ _
    · rfl

theorem select_map (k : Int) (fuel : Nat) (a : List α) (l h : Int) :
    select lt k fuel (a.map f) l h = (select lt' k fuel a l h).map (List.map f) := by
  induction fuel generalizing a l h with
  | zero =>
    unfold select
    split
    · split
      · exact insOuter_map lt f _ _ _ _ _
      · rfl
    · rfl
  | succ fuel ih =>
    unfold select
    split
    · split
      · exact insOuter_map lt f _ _ _ _ _
      · refine map_bind (fun r : List α × Int × Int => (r.1.map f, r.2)) _ (partition_map lt f a l h) fun r => ?_
        simp only
        split
        · exact ih _ _ _
        · split
          · exact ih _ _ _
          · rfl
    · rfl

theorem quickSort_map (a : List α) (n : Int) : quickSort lt (a.map f) n = (quickSort lt' a n).map (List.map f) := sort_map lt f _ _ _ _

theorem quickSelect_map (a : List α) (k n : Int) :
    quickSelect lt (a.map f) k n = (quickSelect lt' a k n).map fun r => (r.1.map f, f r.2) := by
  refine map_bind id _ (show _ = (_ : M Unit).map id from ?_) fun _ => ?_
  · cases (assert (decide (n ≠ 0 ∧ k < n))) <;> rfl
  · refine map_bind (List.map f) _ (select_map lt f k _ a _ _) fun a => ?_
    exact map_bind f _ (rd_map f a k) fun y => rfl

/-! ## Cells behind the range -/

section Behind
variable (rest : List α)

/-- `m'` does the same as `m` if that succeeds. -/
abbrev Same {γ δ : Type} (g : γ → δ) (m : M γ) (m' : M δ) : Prop := ∀ r, m = .ok r → m' = .ok (g r)

theorem same_bind {γ δ ε ζ : Type} (g : γ → δ) (h : ε → ζ) {m : M γ} {m' : M δ} {k : γ → M ε} {k' : δ → M ζ} (e : Same g m m')
    (ek : ∀ x, Same h (k x) (k' (g x))) : Same h (m >>= k) (m' >>= k') := by
  intro r hr
  cases m with
  | error x => cases hr
  | ok x => rw [e x rfl]; exact ek x r hr

theorem same_ite {γ δ : Type} (g : γ → δ) (c : Bool) {t e : M γ} {t' e' : M δ} (ht : Same g t t') (he : Same g e e') :
    Same g (M.ite c t e) (M.ite c t' e') := by
  cases c <;> assumption

theorem same_pure {γ δ : Type} (g : γ → δ) (x : γ) : Same g (pure x) (pure (g x)) := by
  rintro r ⟨⟩; rfl

theorem same_error {γ δ : Type} (g : γ → δ) (e : Fault) (m : M δ) : Same g (.error e) m := by
  rintro r ⟨⟩

theorem rd_behind (a : List α) (i : Int) : Same id (rd a i) (rd (a ++ rest) i) := by
  intro r hr
  rw [rd_iff] at hr ⊢
  obtain ⟨h0, h1⟩ := ix_bounds hr
  obtain ⟨n, rfl⟩ := Int.eq_ofNat_of_zero_le h0
  rw [ix_nat] at hr ⊢
  rw [List.getElem?_append_left (by omega)]
  exact hr

theorem wr_behind (a : List α) (i : Int) (v : α) : Same (· ++ rest) (wr a i v) (wr (a ++ rest) i v) := by
  intro r hr
  by_cases h : 0 ≤ i ∧ i < a.length
  · rw [wr_ok h.1 h.2] at hr
    cases hr
    rw [wr_ok h.1 (by simp; omega), List.set_append_left _ _ (by omega)]
  · rw [wr_error (by omega)] at hr
    cases hr

theorem swap_behind (a : List α) (i j : Int) : Same (· ++ rest) (swap a i j) (swap (a ++ rest) i j) := by
  refine same_bind id _ (rd_behind rest a i) fun t => ?_
  refine same_bind id _ (rd_behind rest a j) fun u => ?_
  exact same_bind (· ++ rest) _ (wr_behind rest a i u) fun b => wr_behind rest b j t

variable (lt : α → α → Bool)

theorem less_behind (a : List α) (i j : Int) : Same id (less lt a i j) (less lt (a ++ rest) i j) := by
  refine same_bind id _ (rd_behind rest a i) fun t => ?_
  exact same_bind id _ (rd_behind rest a j) fun u => same_pure id _

theorem median_behind (A : List α) (a b c d e : Int) : Same (· ++ rest) (median lt A a b c d e) (median lt (A ++ rest) a b c d e) := by
  refine same_bind id _ (less_behind rest lt A c a) fun q1 => ?_
  refine same_bind (· ++ rest) _ (same_ite _ q1 (swap_behind rest A a c) (same_pure _ A)) fun A => ?_
  refine same_bind id _ (less_behind rest lt A d b) fun q2 => ?_
  refine same_bind (· ++ rest) _ (same_ite _ q2 (swap_behind rest A b d) (same_pure _ A)) fun A => ?_
  refine same_bind id _ (less_behind rest lt A d c) fun q3 => ?_
  refine same_bind (· ++ rest) _
    (same_ite _ q3 (same_bind (· ++ rest) _ (swap_behind rest A c d) fun A => swap_behind rest A a b) (same_pure _ A)) fun A => ?_
  refine same_bind id _ (less_behind rest lt A e b) fun q4 => ?_
  refine same_bind (· ++ rest) _ (same_ite _ q4 (swap_behind rest A b e) (same_pure _ A)) fun A => ?_
  refine same_bind id _ (less_behind rest lt A e c) fun q5 => ?_
  refine same_ite _ q5 ?_ ?_
  · refine same_bind (· ++ rest) _ (swap_behind rest A c e) fun A => ?_
    exact same_bind id _ (less_behind rest lt A c a) fun q => same_ite _ q (swap_behind rest A a c) (same_pure _ A)
  · exact same_bind id _ (less_behind rest lt A c b) fun q => same_ite _ q (swap_behind rest A b c) (same_pure _ A)

theorem partLoop_behind (p : α) (fuel : Nat) (a : List α) (i l h : Int) :
    Same (fun r => (r.1 ++ rest, r.2)) (partLoop lt p fuel a i l h) (partLoop lt p fuel (a ++ rest) i l h) := by
  induction fuel generalizing a i l h with
  | zero =>
    unfold partLoop
    split
    · exact same_error _ _ _
    · exact same_pure _ (a, l, h)
  | succ fuel ih =>
    unfold partLoop
    split
    · refine same_bind id _ (rd_behind rest a i) fun x => ?_
      simp only [id]
      split
      · exact same_bind (· ++ rest) _ (swap_behind rest a i l) fun a => ih _ _ _ _
      · split
        · exact same_bind (· ++ rest) _ (swap_behind rest a i h) fun a => ih _ _ _ _
        · exact ih _ _ _ _
    · exact same_pure _ (a, l, h)

theorem partition_behind (a : List α) (l h : Int) :
    Same (fun r => (r.1 ++ rest, r.2)) (partition lt a l h) (partition lt (a ++ rest) l h) := by
  refine same_bind (· ++ rest) _ (median_behind rest lt a _ _ _ _ _) fun a => ?_
  exact same_bind id _ (rd_behind rest a _) fun p => partLoop_behind rest lt p _ _ _ _ _

theorem insInner_behind (t : α) (l : Int) (fuel : Nat) (a : List α) (j : Int) :
    Same (fun r => (r.1 ++ rest, r.2)) (insInner lt t l fuel a j) (insInner lt t l fuel (a ++ rest) j) := by
  induction fuel generalizing a j with
  | zero =>
    unfold insInner
    split
    · refine same_bind id _ (rd_behind rest a _) fun x => ?_
      simp only [id]
      split
      · exact same_error _ _ _
      · exact same_pure _ (a, j)
    · exact same_pure _ (a, j)
  | succ fuel ih =>
    unfold insInner
    split
    · refine same_bind id _ (rd_behind rest a _) fun x => ?_
      simp only [id]
      split
      · exact same_bind (· ++ rest) _ (wr_behind rest a j x) fun a => ih _ _
      · exact same_pure _ (a, j)
    · exact same_pure _ (a, j)

theorem insOuter_behind (l h : Int) (fuel : Nat) (a : List α) (i : Int) :
    Same (· ++ rest) (insOuter lt l h fuel a i) (insOuter lt l h fuel (a ++ rest) i) := by
  induction fuel generalizing a i with
  | zero =>
    unfold insOuter
    split
    · exact same_error _ _ _
    · exact same_pure _ a
  | succ fuel ih =>
    unfold insOuter
    split
    · refine same_bind id _ (rd_behind rest a i) fun t => ?_
      refine same_bind (fun r : List α × Int => (r.1 ++ rest, r.2)) _ (insInner_behind rest lt t l _ a i) fun r => ?_
      exact same_bind (· ++ rest) _ (wr_behind rest r.1 r.2 t) fun a => ih _ _
    · exact same_pure _ a

theorem sort_behind (fuel : Nat) (a : List α) (l h : Int) : Same (· ++ rest) (sort lt fuel a l h) (sort lt fuel (a ++ rest) l h) := by
  induction fuel generalizing a l h with
  | zero =>
    unfold sort
    split
    · split
      · exact insOuter_behind rest lt _ _ _ _ _
      · exact same_error _ _ _
    · exact same_pure _ a
  | succ fuel ih =>
    unfold sort
    split
    · split
      · exact insOuter_behind rest lt _ _ _ _ _
      · refine same_bind (fun r : List α × Int × Int => (r.1 ++ rest, r.2)) _ (partition_behind rest lt a l h) fun r => ?_
        exact same_bind (· ++ rest) _ (ih r.1 _ _) fun a => ih a _ _
    · exact same_pure _ a

theorem select_behind (k : Int) (fuel : Nat) (a : List α) (l h : Int) :
    Same (· ++ rest) (select lt k fuel a l h) (select lt k fuel (a ++ rest) l h) := by
  induction fuel generalizing a l h with
  | zero =>
    unfold select
    split
    · split
      · exact insOuter_behind rest lt _ _ _ _ _
      · exact same_error _ _ _
    · exact same_pure _ a
  | succ fuel ih =>
    unfold select
    split
    · split
      · exact insOuter_behind rest lt _ _ _ _ _
      · refine same_bind (fun r : List α × Int × Int => (r.1 ++ rest, r.2)) _ (partition_behind rest lt a l h) fun r => ?_
        simp only
        split
        · exact ih _ _ _
        · split
          · exact ih _ _ _
          · exact same_pure _ r.1
    · exact same_pure _ a

theorem quickSort_behind (a : List α) (n : Int) : Same (· ++ rest) (quickSort lt a n) (quickSort lt (a ++ rest) n) :=
  sort_behind rest lt _ _ _ _

theorem quickSelect_behind (a : List α) (k n : Int) :
    Same (fun r => (r.1 ++ rest, r.2)) (quickSelect lt a k n) (quickSelect lt (a ++ rest) k n) := by
  refine same_bind id _ (fun r e => e) fun _ => ?_
  refine same_bind (· ++ rest) _ (select_behind rest lt k _ a _ _) fun a => ?_
  exact same_bind id _ (rd_behind rest a k) fun y => same_pure _ (a, y)

end Behind

/-! ## Insertion sort -/

variable {lt : α → α → Bool}

/-- Put `t` into a list that is in descending order: behind all elements that are greater. -/
def insRev (lt : α → α → Bool) (t : α) : List α → List α
  | [] => [t]
  | x :: xs => if lt t x then x :: insRev lt t xs else t :: x :: xs

theorem insRev_length (t : α) (p : List α) : (insRev lt t p).length = p.length + 1 := by
  induction p with
  | nil => rfl
  | cons x p ih => unfold insRev; split <;> simp [ih]

theorem insInner_eq (t : α) (p : List α) : ∀ (y : α) (rest : List α) (fuel : Nat), p.length ≤ fuel →
    ∃ a j, insInner lt t 0 fuel (p.reverse ++ y :: rest) p.length = .ok (a, j) ∧ wr a j t = .ok ((insRev lt t p).reverse ++ rest) := by
  induction p with
  | nil =>
    intro y rest fuel _
    refine ⟨y :: rest, 0, ?_, ?_⟩
    · unfold insInner
      rw [if_neg (by simp)]
      rfl
    · rw [wr_ok (by omega) (by simp)]
      rfl
  | cons x p ih =>
    intro y rest fuel hf
    have hl : ((x :: p).length : Int) = (p.length : Int) + 1 := by simp
    have hr : rd ((x :: p).reverse ++ y :: rest) ((p.length : Int) + 1 - 1) = .ok x := by
      rw [rd_iff, show (p.length : Int) + 1 - 1 = (p.length : Nat) by omega, ix_nat]
      simp
    unfold insInner
    rw [hl, if_pos (by omega), hr]
    simp only [bind, Except.bind]
    by_cases h : lt t x = true
    · rw [if_pos h]
      obtain ⟨fuel, rfl⟩ : ∃ n, fuel = n + 1 := ⟨fuel - 1, by simp at hf; omega⟩
      simp only
      rw [wr_ok (by omega) (by simp; omega)]
      simp only
      obtain ⟨a, j, e1, e2⟩ := ih x (x :: rest) fuel (by simp at hf; omega)
      refine ⟨a, j, ?_, ?_⟩
      · rw [show (p.length : Int) + 1 - 1 = p.length by omega, ← e1]
        congr 1
        have : ((p.length : Int) + 1).toNat = (p.reverse ++ [x]).length := by simp
        rw [List.reverse_cons, this, List.append_assoc, List.set_append_right _ _ (by simp)]
        simp
      · rw [e2, insRev, if_pos h]
        simp
    · rw [if_neg h]
      refine ⟨_, _, rfl, ?_⟩
      rw [wr_ok (by omega) (by simp; omega), insRev, if_neg h]
      have : ((p.length : Int) + 1).toNat = ((x :: p).reverse).length := by simp
      rw [this, List.set_append_right _ _ (by simp)]
      simp

theorem insOuter_eq (r : List α) : ∀ (p rest : List α) (fuel : Nat), r.length ≤ fuel →
    insOuter lt 0 ((p.length : Int) + r.length - 1) fuel (p.reverse ++ (r ++ rest)) p.length =
      .ok ((r.foldl (fun q t => insRev lt t q) p).reverse ++ rest) := by
  induction r with
  | nil =>
    intro p rest fuel _
    unfold insOuter
    rw [if_neg (by simp only [List.length_nil]; omega)]
    rfl
  | cons t r ih =>
    intro p rest fuel hf
    obtain ⟨fuel, rfl⟩ : ∃ n, fuel = n + 1 := ⟨fuel - 1, by simp at hf; omega⟩
    have hr : rd (p.reverse ++ (t :: r ++ rest)) p.length = .ok t := by
      rw [rd_iff, ix_nat]
      simp
    obtain ⟨a, j, e1, e2⟩ := insInner_eq (lt := lt) t p t (r ++ rest) ((p.length : Int) - 0).toNat (by omega)
    unfold insOuter
    rw [if_pos (by simp; omega)]
    simp only [hr, bind, Except.bind]
    rw [List.cons_append, e1]
    simp only [e2]
    have := ih (insRev lt t p) rest fuel (by simp at hf; omega)
    rw [insRev_length] at this
    rw [← List.foldl_cons (f := fun q t => insRev lt t q)] at this
    rw [← this]
    congr 1
    simp
    omega

/-- Up to 32 elements are sorted by inserting one after the other. -/
theorem quickSort_small (xs rest : List α) (h : xs.length ≤ 32) :
    quickSort lt (xs ++ rest) xs.length = .ok ((xs.foldl (fun q t => insRev lt t q) []).reverse ++ rest) := by
  cases xs with
  | nil => rfl
  | cons x xs =>
    unfold quickSort sort
    by_cases h1 : (0 : Int) < ((x :: xs).length : Int) - 1
    · rw [if_pos h1, if_pos (by simp at h ⊢; omega)]
      have := insOuter_eq (lt := lt) xs [x] rest ((((x :: xs).length : Int) - 1 - 0).toNat) (by simp)
      unfold insertion
      rw [List.foldl_cons, show insRev lt x [] = [x] from rfl, ← this]
      congr 1
      simp only [List.length_cons, List.length_nil]; omega
    · have : xs = [] := by
        cases xs with
        | nil => rfl
        | cons _ _ => simp at h1
      subst this
      rw [if_neg h1]
      rfl

theorem quickSelect_small (xs rest : List α) (k : Nat) (h : xs.length ≤ 32) (hk : k < xs.length) :
    ∃ y, ((xs.foldl (fun q t => insRev lt t q) []).reverse)[k]? = some y ∧
      quickSelect lt (xs ++ rest) k xs.length = .ok ((xs.foldl (fun q t => insRev lt t q) []).reverse ++ rest, y) := by
  have hl : ∀ (r p : List α), (r.foldl (fun q t => insRev lt t q) p).length = r.length + p.length := by
    intro r
    induction r with
    | nil => intro p; simp
    | cons t r ih => intro p; rw [List.foldl_cons, ih, insRev_length]; simp; omega
  have hs : select lt k xs.length (xs ++ rest) 0 ((xs.length : Int) - 1) = sort lt xs.length (xs ++ rest) 0 ((xs.length : Int) - 1) := by
    obtain ⟨n, hn⟩ : ∃ n, xs.length = n + 1 := ⟨xs.length - 1, by omega⟩
    rw [hn]
    unfold select sort
    by_cases h1 : (0 : Int) < ((n + 1 : Nat) : Int) - 1
    · rw [if_pos h1, if_pos h1, if_pos (by omega), if_pos (by omega)]
    · rw [if_neg h1, if_neg h1]
  have hq := quickSort_small (lt := lt) xs rest h
  have hy : k < ((xs.foldl (fun q t => insRev lt t q) []).reverse).length := by rw [List.length_reverse, hl]; simpa using hk
  refine ⟨_, List.getElem?_eq_getElem hy, ?_⟩
  have ha : assert (decide ((xs.length : Int) ≠ 0 ∧ (k : Int) < xs.length)) = .ok () := by
    rw [decide_eq_true (by omega)]; rfl
  unfold quickSort at hq
  rw [Int.toNat_natCast] at hq
  have hr : rd ((xs.foldl (fun q t => insRev lt t q) []).reverse ++ rest) k = .ok (((xs.foldl (fun q t => insRev lt t q) []).reverse)[k]) := by
    rw [rd_iff, ix_nat, List.getElem?_append_left hy, List.getElem?_eq_getElem hy]
  simp only [quickSelect, ha, bind, Except.bind, Int.toNat_natCast, hs, hq, hr, pure, Except.pure]

end DSP.Quick
