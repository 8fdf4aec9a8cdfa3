import Verif.Props.Quick
import Verif.Props.Estimators
import Verif.Lemmas.QuickMap
import Verif.Model.Ieee
import Mathlib.Tactic.Linarith

/-! Property C113: NaN in sorting, selecting and the robust estimators. -/

namespace DSP
open Quick Spec

namespace Ieee
variable {F : Format}

/-- The comparison of all values but NaN. -/
theorem less_order : StrictWeakOrder fun x y : {x : Ieee F // x ≠ nan} => less x.1 y.1 := by
  refine ⟨?_, ?_, ?_⟩
  · rintro ⟨x, hx⟩
    cases x with
    | nan => rfl
    | inf s => cases s <;> rfl
    | num s m => simp [less]
  · rintro ⟨x, hx⟩ ⟨y, hy⟩
    cases x with
    | nan => exact absurd rfl hx
    | inf s =>
      cases y with
      | nan => exact absurd rfl hy
      | inf t => cases s <;> cases t <;> simp [less]
      | num t b => cases s <;> simp [less]
    | num s a =>
      cases y with
      | nan => exact absurd rfl hy
      | inf t => cases t <;> simp [less]
      | num t b => simpa [less] using le_of_lt
  · rintro ⟨x, hx⟩ ⟨y, hy⟩ ⟨z, hz⟩
    cases x with
    | nan => exact absurd rfl hx
    | inf s =>
      cases y with
      | nan => exact absurd rfl hy
      | inf t =>
        cases z with
        | nan => exact absurd rfl hz
        | inf u => cases s <;> cases t <;> cases u <;> simp [less]
        | num u c => cases s <;> cases t <;> simp [less]
      | num t b =>
        cases z with
        | nan => exact absurd rfl hz
        | inf u => cases s <;> cases u <;> simp [less]
        | num u c => cases s <;> simp [less]
    | num s a =>
      cases y with
      | nan => exact absurd rfl hy
      | inf t =>
        cases z with
        | nan => exact absurd rfl hz
        | inf u => cases t <;> cases u <;> simp [less]
        | num u c => cases t <;> simp [less]
      | num t b =>
        cases z with
        | nan => exact absurd rfl hz
        | inf u => cases u <;> simp [less]
        | num u c => simpa [less] using fun h1 h2 => le_trans h2 h1

theorem less_irrefl (x : Ieee F) : less x x = false := by
  cases x with
  | nan => rfl
  | inf s => cases s <;> rfl
  | num s m => simp [less]

theorem less_nan (x : Ieee F) : less x nan = false := by cases x <;> rfl

theorem nan_less (x : Ieee F) : less nan x = false := rfl

end Ieee

namespace Quick
variable {F : Format}

/-- Elements without a NaN. -/
theorem numbers (xs : List (Ieee F)) (h : .nan ∉ xs) : ∃ zs : List {x : Ieee F // x ≠ .nan}, zs.map Subtype.val = xs :=
  ⟨xs.attachWith _ fun _ hx e => h (e ▸ hx), List.attachWith_map_subtype_val _⟩

/-- **C113**, numbers and infinities: they are sorted as they should. -/
theorem C113_sort (xs rest : List (Ieee F)) (h : .nan ∉ xs) :
    ∃ ys, quickSort Ieee.less (xs ++ rest) xs.length = .ok (ys ++ rest) ∧ ys.Perm xs ∧ Ordered Ieee.less ys := by
  obtain ⟨zs, rfl⟩ := numbers xs h
  obtain ⟨ys, e, hp, ho⟩ := C11_sort _ Ieee.less_order zs []
  rw [List.append_nil, List.append_nil] at e
  refine ⟨ys.map Subtype.val, ?_, hp.map _, ?_⟩
  · apply quickSort_behind rest
    rw [quickSort_map, List.length_map, e]
    rfl
  · exact List.pairwise_map.2 ho

/-- **C113**, numbers and infinities: the `k`-th is selected as it should. -/
theorem C113_select (xs rest : List (Ieee F)) (h : .nan ∉ xs) (k : Nat) (hk : k < xs.length) :
    ∃ ys y, quickSelect Ieee.less (xs ++ rest) k xs.length = .ok (ys ++ rest, y) ∧ ys.Perm xs ∧ ys[k]? = some y ∧
      (∀ x ∈ ys.take k, Ieee.less y x = false) ∧ (∀ x ∈ ys.drop (k + 1), Ieee.less x y = false) := by
  obtain ⟨zs, rfl⟩ := numbers xs h
  obtain ⟨ys, y, e, hp, hy, h1, h2⟩ := C12_select _ Ieee.less_order zs [] k (by simpa using hk)
  rw [List.append_nil, List.append_nil] at e
  refine ⟨ys.map Subtype.val, y.1, ?_, hp.map _, by simp [hy], ?_, ?_⟩
  · apply quickSelect_behind rest _ _ _ _ (ys.map Subtype.val, y.1)
    rw [quickSelect_map, List.length_map, e]
    rfl
  · intro x hx
    rw [← List.map_take] at hx
    obtain ⟨z, hz, rfl⟩ := List.mem_map.1 hx
    exact h1 z hz
  · intro x hx
    rw [← List.map_drop] at hx
    obtain ⟨z, hz, rfl⟩ := List.mem_map.1 hx
    exact h2 z hz

/-! ## Runs between NaN -/

/-- A NaN is an obstacle that no element passes. -/
theorem insRev_nan (t : Ieee F) (p q : List (Ieee F)) : insRev Ieee.less t (p ++ .nan :: q) = insRev Ieee.less t p ++ .nan :: q := by
  induction p with
  | nil => simp [insRev, Ieee.less_nan]
  | cons x p ih =>
    simp only [List.cons_append, insRev, ih]
    split <;> rfl

theorem foldl_nan (r p q : List (Ieee F)) : r.foldl (fun q t => insRev Ieee.less t q) (p ++ .nan :: q) =
    r.foldl (fun q t => insRev Ieee.less t q) p ++ .nan :: q := by
  induction r generalizing p with
  | nil => rfl
  | cons t r ih => rw [List.foldl_cons, insRev_nan, ih]; rfl

/-- Inserting one after the other, on both sides of a NaN. -/
theorem insertion_nan (l r : List (Ieee F)) : ((l ++ .nan :: r).foldl (fun q t => insRev Ieee.less t q) []).reverse =
    (l.foldl (fun q t => insRev Ieee.less t q) []).reverse ++ .nan :: (r.foldl (fun q t => insRev Ieee.less t q) []).reverse := by
  rw [List.foldl_append, List.foldl_cons]
  have : ∀ p : List (Ieee F), insRev Ieee.less .nan p = [] ++ .nan :: p := by
    intro p
    cases p with
    | nil => rfl
    | cons x p => simp [insRev, Ieee.nan_less]
  rw [this, foldl_nan]
  simp

theorem insertion_sorted (s : List (Ieee F)) (h : .nan ∉ s) (hl : s.length ≤ 32) :
    ((s.foldl (fun q t => insRev Ieee.less t q) []).reverse).Perm s ∧ Ordered Ieee.less ((s.foldl (fun q t => insRev Ieee.less t q) []).reverse) := by
  obtain ⟨ys, e, hp, ho⟩ := C113_sort s [] h
  have := quickSort_small (lt := Ieee.less) s [] hl
  rw [e, List.append_nil, List.append_nil, Except.ok.injEq] at this
  rw [← this]
  exact ⟨hp, ho⟩

theorem insertion_runs (s : List (Ieee F)) (ss : List (List (Ieee F))) (h : ∀ t ∈ s :: ss, .nan ∉ t) (hl : ([.nan].intercalate (s :: ss)).length ≤ 32) :
    ∃ s' ss', List.Forall₂ (fun r r' => r'.Perm r ∧ Ordered Ieee.less r') (s :: ss) (s' :: ss') ∧
      (([.nan].intercalate (s :: ss)).foldl (fun q t => insRev Ieee.less t q) []).reverse = [.nan].intercalate (s' :: ss') := by
  induction ss generalizing s with
  | nil =>
    simp only [List.intercalate_singleton] at hl ⊢
    obtain ⟨h1, h2⟩ := insertion_sorted s (h s (by simp)) hl
    exact ⟨_, [], .cons ⟨h1, h2⟩ .nil, (List.intercalate_singleton ..).symm⟩
  | cons t ss ih =>
    rw [List.intercalate_cons_cons] at hl
    have hl' := hl
    simp only [List.length_append, List.length_singleton] at hl
    obtain ⟨t', ss', f, e⟩ := ih t (fun r hr => h r (by simp [List.mem_cons.1 hr])) (by omega)
    obtain ⟨h1, h2⟩ := insertion_sorted s (h s (by simp)) (by omega)
    refine ⟨_, t' :: ss', .cons ⟨h1, h2⟩ f, ?_⟩
    rw [List.intercalate_cons_cons, List.intercalate_cons_cons, ← e, List.append_assoc, List.append_assoc, List.singleton_append, List.singleton_append,
      insertion_nan]

/-- **C113**, up to 32 elements: every NaN stays where it is, and the runs between them are sorted one by one. -/
theorem C113_runs (s : List (Ieee F)) (ss : List (List (Ieee F))) (rest : List (Ieee F)) (h : ∀ r ∈ s :: ss, .nan ∉ r)
    (hl : ([.nan].intercalate (s :: ss)).length ≤ 32) :
    ∃ s' ss', List.Forall₂ (fun r r' => r'.Perm r ∧ Ordered Ieee.less r') (s :: ss) (s' :: ss') ∧
      quickSort Ieee.less ([.nan].intercalate (s :: ss) ++ rest) ([.nan].intercalate (s :: ss)).length = .ok ([.nan].intercalate (s' :: ss') ++ rest) ∧
      ∀ k : Nat, k < ([.nan].intercalate (s :: ss)).length → ∃ y, ([.nan].intercalate (s' :: ss'))[k]? = some y ∧
        quickSelect Ieee.less ([.nan].intercalate (s :: ss) ++ rest) k ([.nan].intercalate (s :: ss)).length =
          .ok ([.nan].intercalate (s' :: ss') ++ rest, y) := by
  obtain ⟨s', ss', f, e⟩ := insertion_runs s ss h hl
  refine ⟨s', ss', f, ?_, ?_⟩
  · rw [quickSort_small _ _ hl, e]
  · intro k hk
    obtain ⟨y, h1, h2⟩ := quickSelect_small (lt := Ieee.less) _ rest k hl hk
    rw [e] at h1 h2
    exact ⟨y, h1, h2⟩

example : (∀ r ∈ [[.num false 3, .inf true], [.num false 2, .num true 1]], (.nan : Ieee .single) ∉ r) ∧
    ([(.nan : Ieee .single)].intercalate [[.num false 3, .inf true], [.num false 2, .num true 1]]).length ≤ 32 := by simp

/-- For instance 3, 1, NaN, 2, 0 becomes 1, 3, NaN, 0, 2. -/
theorem C113_unsorted : quickSort (α := Ieee .single) Ieee.less [3, 1, .nan, 2, 0] 5 = .ok [1, 3, .nan, 0, 2] := by decide +kernel

/-! ## A NaN in the middle of a large array -/

theorem bind_ok {γ δ : Type} {m : M γ} {x : γ} {k : γ → M δ} (h : m = .ok x) : (m >>= k) = k x := by subst h; rfl

theorem partLoop_nan (fuel : Nat) (a : List (Ieee F)) (i l h : Int) (hi : 0 ≤ i) (ha : h < a.length) (hf : h + 1 - i ≤ fuel) :
    partLoop Ieee.less .nan fuel a i l h = .ok (a, l, h) := by
  induction fuel generalizing i with
  | zero =>
    unfold partLoop
    rw [if_neg (by omega)]
  | succ fuel ih =>
    unfold partLoop
    by_cases h1 : i ≤ h
    · rw [if_pos h1, rd_ok hi (by omega)]
      simp only [bind, Except.bind, Ieee.less_nan, Ieee.nan_less]
      exact ih (i + 1) (by omega) (by omega)
    · rw [if_neg h1]

/-- If the pivot candidate in the middle is NaN then it remains there, and at most three others are moved. -/
theorem median_nan (A : List (Ieee F)) (a b c d e : Int) (h0 : 0 ≤ a) (h1 : a < b) (h2 : b < c) (h3 : c < d) (h4 : d < e) (h5 : e < A.length)
    (hc : ix A c = some .nan) :
    ∃ A', median Ieee.less A a b c d e = .ok A' ∧ A'.length = A.length ∧ A'.Perm A ∧
      ∀ i, i ≠ b → i ≠ d → i ≠ e → ix A' i = ix A i := by
  have hle : ∀ (B : List (Ieee F)) (i : Int), B.length = A.length → ix B c = some .nan → 0 ≤ i → i < A.length →
      less Ieee.less B i c = .ok false ∧ less Ieee.less B c i = .ok false := by
    intro B i hB hBc hi0 hi1
    obtain ⟨x, hx⟩ := ix_some (a := B) (i := i) hi0 (by omega)
    unfold less
    simp only [rd_iff.2 hx, rd_iff.2 hBc, bind, Except.bind, pure, Except.pure, Ieee.less_nan, Ieee.nan_less, and_self]
  have hsw : ∀ (B : List (Ieee F)) (i j : Int), B.length = A.length → 0 ≤ i → i < A.length → 0 ≤ j → j < A.length →
      ∃ C, M.ite (Ieee.less ((ix B i).getD .nan) ((ix B j).getD .nan)) (swap B j i) (pure B) = .ok C ∧ C.length = A.length ∧ C.Perm B ∧
        ∀ k, k ≠ i → k ≠ j → ix C k = ix B k := by
    intro B i j hB hi0 hi1 hj0 hj1
    obtain ⟨C, e, u, s1, s2, s3⟩ := swap_ok (a := B) (i := j) (j := i) (l := 0) (h := (A.length : Int) - 1) (by omega) (by omega) (by omega) (by omega)
    cases Ieee.less ((ix B i).getD .nan) ((ix B j).getD .nan) with
    | false => exact ⟨B, rfl, hB, .refl _, fun _ _ _ => rfl⟩
    | true => exact ⟨C, e, u.len.trans hB, u.perm, fun k h1 h2 => s3 k h2 h1⟩
  have hless : ∀ (B : List (Ieee F)) (i j : Int), B.length = A.length → 0 ≤ i → i < A.length → 0 ≤ j → j < A.length →
      less Ieee.less B i j = .ok (Ieee.less ((ix B i).getD .nan) ((ix B j).getD .nan)) := by
    intro B i j hB hi0 hi1 hj0 hj1
    obtain ⟨x, hx⟩ := ix_some (a := B) (i := i) hi0 (by omega)
    obtain ⟨y, hy⟩ := ix_some (a := B) (i := j) hj0 (by omega)
    unfold less
    simp only [rd_iff.2 hx, rd_iff.2 hy, hx, hy, bind, Except.bind, pure, Except.pure, Option.getD_some]
  obtain ⟨B, eB, lB, pB, oB⟩ := hsw A d b rfl (by omega) (by omega) (by omega) (by omega)
  have hcB : ix B c = some .nan := by rw [oB c (by omega) (by omega), hc]
  obtain ⟨C, eC, lC, pC, oC⟩ := hsw B e b lB (by omega) (by omega) (by omega) (by omega)
  have hcC : ix C c = some .nan := by rw [oC c (by omega) (by omega), hcB]
  refine ⟨C, ?_, lC, pC.trans pB, fun i h1 h2 h3 => by rw [oC i h3 h1, oB i h2 h1]⟩
  refine (bind_ok (hle A a rfl hc h0 (by omega)).2).trans ?_
  refine (bind_ok (x := A) rfl).trans ?_
  refine (bind_ok (hless A d b rfl (by omega) (by omega) (by omega) (by omega))).trans ?_
  refine (bind_ok eB).trans ?_
  refine (bind_ok (hle B d lB hcB (by omega) (by omega)).1).trans ?_
  refine (bind_ok (x := B) rfl).trans ?_
  refine (bind_ok (hless B e b lB (by omega) (by omega) (by omega) (by omega))).trans ?_
  refine (bind_ok eC).trans ?_
  refine (bind_ok (hle C e lC hcC (by omega) (by omega)).1).trans ?_
  exact bind_ok (hle C b lC hcC (by omega) (by omega)).2

theorem partition_nan (a : List (Ieee F)) (n : Nat) (hn : 33 ≤ n) (ha : n ≤ a.length) (hc : a[(n - 1) / 2]? = some .nan) :
    ∃ b, partition Ieee.less a 0 ((n : Int) - 1) = .ok (b, 0, (n : Int) - 1) ∧ b.Perm a ∧ b[(n - 1) / 2]? = some .nan ∧
      ∀ i : Nat, i ≠ (n - 1) / 4 → i ≠ (n - 1) / 2 + (n - 1) / 4 → i ≠ n - 1 → b[i]? = a[i]? := by
  have hix : ix a (0 + ((n : Int) - 1 - 0) / 2) = some .nan := by
    rw [show 0 + ((n : Int) - 1 - 0) / 2 = (((n - 1) / 2 : Nat) : Int) by omega, ix_nat, hc]
  obtain ⟨b, e, hl, hp, ho⟩ := median_nan a 0 (0 + ((n : Int) - 1 - 0) / 4) (0 + ((n : Int) - 1 - 0) / 2)
    (0 + ((n : Int) - 1 - 0) / 2 + ((n : Int) - 1 - 0) / 4) ((n : Int) - 1) (by omega) (by omega) (by omega) (by omega) (by omega) (by omega) hix
  have ho' : ∀ i : Nat, i ≠ (n - 1) / 4 → i ≠ (n - 1) / 2 + (n - 1) / 4 → i ≠ n - 1 → b[i]? = a[i]? := by
    intro i h1 h2 h3
    have := ho i (by omega) (by omega) (by omega)
    rwa [ix_nat, ix_nat] at this
  refine ⟨b, ?_, hp, by rw [ho' _ (by omega) (by omega) (by omega), hc], ho'⟩
  refine (bind_ok e).trans ?_
  refine (bind_ok (rd_iff.2 ((ho _ (by omega) (by omega) (by omega)).trans hix))).trans ?_
  exact partLoop_nan _ b 0 0 _ (by omega) (by omega) (by omega)

/-- **C113**, 33 elements and more: a NaN in the middle is taken as the pivot, and then nothing is sorted. At most the elements at the quarters and the end are exchanged. -/
theorem C113_middle (a rest : List (Ieee F)) (hn : 33 ≤ a.length) (hc : a[(a.length - 1) / 2]? = some .nan) :
    ∃ b, b.Perm a ∧
      (∀ i : Nat, i ≠ (a.length - 1) / 4 → i ≠ (a.length - 1) / 2 + (a.length - 1) / 4 → i ≠ a.length - 1 → b[i]? = a[i]?) ∧
      quickSort Ieee.less (a ++ rest) a.length = .ok (b ++ rest) ∧
      ∀ k : Nat, k < a.length → ∃ y, b[k]? = some y ∧ quickSelect Ieee.less (a ++ rest) k a.length = .ok (b ++ rest, y) := by
  obtain ⟨b, e, hp, -, ho⟩ := partition_nan a a.length hn (by omega) hc
  refine ⟨b, hp, ho, ?_, ?_⟩
  · apply quickSort_behind rest
    unfold quickSort
    obtain ⟨n, hn'⟩ : ∃ n, a.length = n + 1 := ⟨a.length - 1, by omega⟩
    rw [Int.toNat_natCast, hn']
    rw [hn'] at e
    unfold sort
    rw [if_pos (by omega), if_neg (by omega)]
    simp only
    refine (bind_ok e).trans ?_
    have h1 : sort Ieee.less n b 0 (0 - 1) = .ok b := by unfold sort; rw [if_neg (by omega)]
    refine (bind_ok h1).trans ?_
    show sort Ieee.less n b (((n + 1 : Nat) : Int) - 1 + 1) (((n + 1 : Nat) : Int) - 1) = .ok b
    unfold sort
    rw [if_neg (by omega)]
  · intro k hk
    have hl := hp.length_eq
    have hy : b[k]? = some (b[k]'(by omega)) := List.getElem?_eq_getElem _
    refine ⟨_, hy, ?_⟩
    apply quickSelect_behind rest Ieee.less a k a.length (b, b[k]'(by omega))
    have ha : assert (decide ((a.length : Int) ≠ 0 ∧ (k : Int) < a.length)) = .ok () := by
      rw [decide_eq_true (by omega)]; rfl
    have hs : select Ieee.less k (a.length : Int).toNat a 0 ((a.length : Int) - 1) = .ok b := by
      obtain ⟨n, hn'⟩ : ∃ n, a.length = n + 1 := ⟨a.length - 1, by omega⟩
      rw [Int.toNat_natCast, hn']
      rw [hn'] at e
      unfold select
      rw [if_pos (by omega), if_neg (by omega)]
      simp only
      refine (bind_ok e).trans ?_
      simp only
      rw [if_neg (by omega), if_neg (by omega)]
    refine (bind_ok ha).trans ?_
    refine (bind_ok hs).trans ?_
    refine (bind_ok (rd_iff.2 ((ix_nat b k).trans hy))).trans ?_
    rfl

/-- 33 numbers in descending order, the one in the middle replaced by NaN: only the second half's first and last quarter change places with the first half's. -/
example : 33 ≤ ((List.range 33).map fun i => if i = 16 then (.nan : Ieee .single) else ((33 - i : Int) : Ieee .single)).length ∧
    ((List.range 33).map fun i => if i = 16 then (.nan : Ieee .single) else ((33 - i : Int) : Ieee .single))[16]? = some .nan := by
  decide +kernel

end Quick

/-! ## Robust estimators -/

/-- `!=` of floating point numbers: a NaN differs from everything. -/
def Ieee.differ {F : Format} (a b : Ieee F) : Bool := !(a == b)

namespace RepeatedMedian

/-- **C113**, repeated median of seven points on the line `y = x`: one NaN for `y[4]` makes the result NaN; one NaN for `y[5]` and one wrong value for `y[1]` makes the slope 1000. By
`C28_robust` any two wrong values that are numbers would leave the slope 1. -/
theorem C113_repeated :
    let inner : List (Ieee .single) := List.replicate 6 0
    let outer : List (Ieee .single) := List.replicate 7 0
    (RepeatedMedian.compute Ieee.less Ieee.differ 7 inner outer [0, 1, 2, 3, 4, 5, 6] [0, 1, 2, 3, .nan, 5, 6] 7).map (fun l => (l.slope, l.yint)) =
      .ok (.nan, .nan) ∧
    (RepeatedMedian.compute Ieee.less Ieee.differ 7 inner outer [0, 1, 2, 3, 4, 5, 6] [0, 1000, 2, 3, 4, .nan, 6] 7).map (fun l => l.slope) =
      .ok 1000 ∧
    (RepeatedMedian.compute Ieee.less Ieee.differ 7 inner outer [0, 1, 2, 3, 4, 5, 6] [0, 1000, 2, 3, 4, 5000, 6] 7).map (fun l => l.slope) =
      .ok 1 := by
  decide +kernel

end RepeatedMedian

namespace TheilSen

/-- **C113**, Theil-Sen with seven points on the line `y = x`: one NaN for `y[1]` makes the result NaN. -/
theorem C113_theil :
    let temp : List (Ieee .single) := List.replicate 21 0
    (TheilSen.compute Ieee.less Ieee.differ 7 temp [0, 1, 2, 3, 4, 5, 6] [0, .nan, 2, 3, 4, 5, 6] 7).map (fun l => (l.slope, l.yint)) =
      .ok (.nan, .nan) ∧
    (TheilSen.compute Ieee.less Ieee.differ 7 temp [0, 1, 2, 3, 4, 5, 6] [0, 1000, 2, 3, 4, 5, 6] 7).map (fun l => l.slope) = .ok 1 := by
  decide +kernel

end TheilSen

end DSP
