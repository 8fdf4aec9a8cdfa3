import Verif.Props.NaturalSpline

/-!
# Cubic Hermite spline (C59)
-/

namespace DSP
namespace HermiteSpline

open Spec

/-! ### The spline -/

/-- The blend and its derivative with respect to the position. -/
noncomputable def blend1 (t y0 y1 w m0 m1 : ℝ) : ℝ :=
  (6 * t ^ 2 - 6 * t) * y0 + (1 - 4 * t + 3 * t ^ 2) * w * m0 + (6 * t - 6 * t ^ 2) * y1 + (3 * t ^ 2 - 2 * t) * w * m1

noncomputable def q0 (x y m : ℕ → ℝ) (k : ℕ) (t : ℝ) : ℝ :=
  blend ((t - x k) / (x (k + 1) - x k)) (y k) (y (k + 1)) (x (k + 1) - x k) (m k) (m (k + 1))

noncomputable def q1 (x y m : ℕ → ℝ) (k : ℕ) (t : ℝ) : ℝ :=
  blend1 ((t - x k) / (x (k + 1) - x k)) (y k) (y (k + 1)) (x (k + 1) - x k) (m k) (m (k + 1)) * (1 / (x (k + 1) - x k))

theorem blend_deriv (y0 y1 w m0 m1 t : ℝ) : HasDerivAt (fun t => blend t y0 y1 w m0 m1) (blend1 t y0 y1 w m0 m1) t := by
  have e : (fun t => blend t y0 y1 w m0 m1) =
      fun t => y0 + t * (w * m0 + t * ((3 * y1 - 3 * y0 - 2 * w * m0 - w * m1) + t * (2 * y0 - 2 * y1 + w * m0 + w * m1))) := by
    funext t; simp only [blend, h00, h10, h01, h11]; ring
  rw [e]
  have h : HasDerivAt (fun t : ℝ => t) 1 t := hasDerivAt_id t
  have := (h.mul ((h.mul ((h.mul_const (2 * y0 - 2 * y1 + w * m0 + w * m1)).const_add (3 * y1 - 3 * y0 - 2 * w * m0 - w * m1))).const_add (w * m0))).const_add y0
  refine this.congr_deriv ?_
  simp only [blend1, Pi.mul_apply]; ring

theorem q0_deriv (x y m : ℕ → ℝ) (k : ℕ) (t : ℝ) : HasDerivAt (q0 x y m k) (q1 x y m k t) t := by
  have h : HasDerivAt (fun t : ℝ => (t - x k) / (x (k + 1) - x k)) (1 / (x (k + 1) - x k)) t :=
    ((hasDerivAt_id t).sub_const (x k)).div_const _
  exact (blend_deriv (y k) (y (k + 1)) (x (k + 1) - x k) (m k) (m (k + 1)) ((t - x k) / (x (k + 1) - x k))).comp t h

theorem q1_continuous (x y m : ℕ → ℝ) (k : ℕ) : Continuous (q1 x y m k) := by
  unfold q1 blend1; fun_prop

theorem q0_left (x y m : ℕ → ℝ) (k : ℕ) : q0 x y m k (x k) = y k := by
  simp [q0, blend, h00, h10, h01, h11]

theorem q0_right (x y m : ℕ → ℝ) (k : ℕ) (h : x k < x (k + 1)) : q0 x y m k (x (k + 1)) = y (k + 1) := by
  have : x (k + 1) - x k ≠ 0 := by linarith
  simp only [q0, div_self this]
  simp [blend, h00, h10, h01, h11]; ring

theorem q1_left (x y m : ℕ → ℝ) (k : ℕ) (h : x k < x (k + 1)) : q1 x y m k (x k) = m k := by
  have : x (k + 1) - x k ≠ 0 := by linarith
  simp only [q1, blend1, sub_self, zero_div]
  field_simp; ring

theorem q1_right (x y m : ℕ → ℝ) (k : ℕ) (h : x k < x (k + 1)) : q1 x y m k (x (k + 1)) = m (k + 1) := by
  have : x (k + 1) - x k ≠ 0 := by linarith
  simp only [q1, blend1, div_self this]
  field_simp; ring

noncomputable def S (n : ℕ) (x y m : ℕ → ℝ) : ℝ → ℝ := pieces x (q0 x y m) (n - 2)

theorem increasing (n : ℕ) (x : ℕ → ℝ) (hx : ∀ i, i + 1 < n → x i < x (i + 1)) (i j : ℕ) (h : i < j) (hj : j < n) : x i < x j := by
  induction j with
  | zero => omega
  | succ j ih =>
    by_cases c : i = j
    · subst c; exact hx i hj
    · exact (ih (by omega) (by omega)).trans (hx j hj)

theorem S_closed (n : ℕ) (x y m : ℕ → ℝ) (hx : ∀ i, i + 1 < n → x i < x (i + 1)) (k : ℕ) (hk : k ≤ n - 2) (hn : 2 ≤ n) (t : ℝ)
    (h0 : k = 0 ∨ x k ≤ t) (h1 : k = n - 2 ∨ t ≤ x (k + 1)) : S n x y m t = q0 x y m k t :=
  pieces_closed x _ _ (fun i j h1 h2 => increasing n x hx i j h1 (by omega))
    (fun k hk => by rw [q0_right x y m k (hx k (by omega)), q0_left]) k hk t h0 h1

theorem S_hermite (n : ℕ) (hn : 2 ≤ n) (x y m : ℕ → ℝ) (hx : ∀ i, i + 1 < n → x i < x (i + 1)) : IsHermiteSpline n x y m (S n x y m) := by
  have hX : ∀ i j, i ≤ j → j ≤ n - 2 → x i ≤ x j := fun i j h1 h2 => by
    rcases lt_or_eq_of_le h1 with h | h
    · exact (increasing n x hx i j h (by omega)).le
    · rw [h]
  have m0 : ∀ k, k < n - 2 → q0 x y m k (x (k + 1)) = q0 x y m (k + 1) (x (k + 1)) := fun k hk => by
    rw [q0_right x y m k (hx k (by omega)), q0_left]
  have m1 : ∀ k, k < n - 2 → q1 x y m k (x (k + 1)) = q1 x y m (k + 1) (x (k + 1)) := fun k hk => by
    rw [q1_right x y m k (hx k (by omega)), q1_left x y m (k + 1) (hx _ (by omega))]
  refine ⟨?_, ⟨pieces x (q1 x y m) (n - 2), ?_, ?_, ?_⟩, ?_⟩
  · intro i hi
    by_cases c : i + 1 = n
    · obtain ⟨k, rfl⟩ : ∃ k, i = k + 1 := ⟨i - 1, by omega⟩
      rw [S_closed n x y m hx k (by omega) hn _ (Or.inr (hx k hi).le) (Or.inr le_rfl), q0_right x y m k (hx k hi)]
    · rw [S_closed n x y m hx i (by omega) hn _ (Or.inr le_rfl) (Or.inr (hx i (by omega)).le), q0_left]
  · exact fun t => pieces_deriv x _ _ _ (q0_deriv x y m) m0 m1 hX t
  · exact pieces_continuous x _ _ (q1_continuous x y m) m1 hX
  · intro i hi
    have cl := fun (k : ℕ) (hk : k ≤ n - 2) (t : ℝ) => pieces_closed x (q1 x y m) (n - 2) (fun i j h1 h2 => increasing n x hx i j h1 (by omega)) m1 k hk t
    by_cases c : i + 1 = n
    · obtain ⟨k, rfl⟩ : ∃ k, i = k + 1 := ⟨i - 1, by omega⟩
      rw [cl k (by omega) _ (Or.inr (hx k hi).le) (Or.inr le_rfl), q1_right x y m k (hx k hi)]
    · rw [cl i (by omega) _ (Or.inr le_rfl) (Or.inr (hx i (by omega)).le), q1_left x y m i (hx i (by omega))]
  · intro k hk
    generalize hw : x (k + 1) - x k = w
    have hw0 : w ≠ 0 := by have := hx k hk; rw [← hw]; intro h; linarith
    generalize hA : y k = A
    generalize hB : m k = B
    generalize hC : (3 * y (k + 1) - 3 * y k - 2 * w * m k - w * m (k + 1)) / w ^ 2 = C
    generalize hD : (2 * y k - 2 * y (k + 1) + w * m k + w * m (k + 1)) / w ^ 3 = D
    refine ⟨A - B * x k + C * x k ^ 2 - D * x k ^ 3, B - 2 * C * x k + 3 * D * x k ^ 2, C - 3 * D * x k, D, fun t h0 h1 => ?_⟩
    rw [S_closed n x y m hx k (by omega) hn t h0 (by rcases h1 with h1 | h1; exact Or.inl (by omega); exact Or.inr h1)]
    rw [q0, hw, ← hD, ← hC, ← hB, ← hA]
    simp only [blend, h00, h10, h01, h11]
    field_simp
    ring

/-! ### The code computes it -/

theorem rd_table (n : ℕ) (f : ℕ → ℝ) (i : ℤ) (h0 : 0 ≤ i) (h1 : i < n) : rd ((List.range n).map f) i = .ok (f i.toNat) := by
  apply rd_of_getElem? h0
  rw [List.getElem?_map, List.getElem?_range (by omega)]
  rfl

variable (n : ℕ) (x y : ℕ → ℝ) (hx : ∀ i, i + 1 < n → x i < x (i + 1))

noncomputable def slope (k : ℕ) : ℝ := (y (k + 1) - y k) / (x (k + 1) - x k)

include hx in
theorem left_ok (p : ℕ) (h0 : 1 ≤ p) (h1 : p < n) : left ((List.range n).map x) ((List.range n).map y) p = .ok (slope x y (p - 1)) := by
  obtain ⟨q, rfl⟩ : ∃ q, p = q + 1 := ⟨p - 1, by omega⟩
  have := hx q h1
  simp only [left, bind, Except.bind]
  rw [rd_table n y _ (by omega) (by omega), rd_table n y _ (by omega) (by omega), rd_table n x _ (by omega) (by omega),
    rd_table n x _ (by omega) (by omega)]
  simp only [Int.toNat_natCast, show (((q + 1 : ℕ) : ℤ) - 1).toNat = q by omega]
  rw [fdiv_ok (by intro h; linarith)]
  rfl

include hx in
theorem right_ok (p : ℕ) (h1 : p + 1 < n) : right ((List.range n).map x) ((List.range n).map y) p = .ok (slope x y p) := by
  have := hx p h1
  simp only [right, bind, Except.bind]
  rw [rd_table n y _ (by omega) (by omega), rd_table n y _ (by omega) (by omega), rd_table n x _ (by omega) (by omega),
    rd_table n x _ (by omega) (by omega)]
  simp only [Int.toNat_natCast, show (((p : ℕ) : ℤ) + 1).toNat = p + 1 by omega]
  rw [fdiv_ok (by intro h; linarith)]
  rfl

include hx in
theorem central_ok (p : ℕ) (h0 : 1 ≤ p) (h1 : p + 1 < n) :
    central ((List.range n).map x) ((List.range n).map y) p = .ok (chordSlopes n x y p) := by
  simp only [central, bind, Except.bind, left_ok n x y hx p h0 (by omega), right_ok n x y hx p h1, pure, Except.pure]
  congr 1
  simp only [chordSlopes]
  rw [if_neg (by omega), if_neg (by omega)]
  simp only [slope]; ring

theorem slopes_first : chordSlopes n x y 0 = slope x y 0 := by simp [chordSlopes, slope]

theorem slopes_last (h : 2 ≤ n) : chordSlopes n x y (n - 1) = slope x y (n - 1 - 1) := by
  simp only [chordSlopes, slope]
  rw [if_neg (by omega), if_pos (by omega)]

include hx in
theorem segment_ok (hn : 3 ≤ n) (t : ℝ) (k : ℤ) (j : ℕ) (hj : (k < 1 ∧ j = 0) ∨ (1 ≤ k ∧ k < (n : ℤ) - 2 ∧ (j : ℤ) = k) ∨ (n : ℤ) - 2 ≤ k ∧ j = n - 2) :
    segment ((List.range n).map x) ((List.range n).map y) t k n =
      .ok (blend t (y j) (y (j + 1)) (x (j + 1) - x j) (chordSlopes n x y j) (chordSlopes n x y (j + 1))) := by
  unfold segment
  by_cases c1 : k < 1
  · have hj : j = 0 := by omega
    subst hj
    rw [if_pos c1]
    have r := right_ok n x y hx 0 (by omega)
    have c := central_ok n x y hx 1 le_rfl (by omega)
    rw [Nat.cast_zero] at r
    rw [Nat.cast_one] at c
    simp only [bind, Except.bind, pure, Except.pure, r, c]
    rw [rd_table n y _ (by omega) (by omega), rd_table n y _ (by omega) (by omega), rd_table n x _ (by omega) (by omega),
      rd_table n x _ (by omega) (by omega), slopes_first]
    rfl
  · rw [if_neg c1]
    by_cases c2 : k < (n : ℤ) - 2
    · have hj : (j : ℤ) = k := by omega
      rw [if_pos c2, ← hj]
      have c := central_ok n x y hx j (by omega) (by omega)
      have c' := central_ok n x y hx (j + 1) (by omega) (by omega)
      rw [Nat.cast_add, Nat.cast_one] at c'
      simp only [bind, Except.bind, pure, Except.pure, c, c']
      rw [rd_table n y _ (by omega) (by omega), rd_table n y _ (by omega) (by omega), rd_table n x _ (by omega) (by omega),
        rd_table n x _ (by omega) (by omega)]
      simp only [Int.toNat_natCast, show (((j : ℕ) : ℤ) + 1).toNat = j + 1 by omega]
    · have hj : j = n - 2 := by omega
      subst hj
      rw [if_neg c2]
      have e2 : (n : ℤ) - 2 = ((n - 2 : ℕ) : ℤ) := by omega
      have e1 : (n : ℤ) - 1 = ((n - 1 : ℕ) : ℤ) := by omega
      have c := central_ok n x y hx (n - 2) (by omega) (by omega)
      have l := left_ok n x y hx (n - 1) (by omega) (by omega)
      rw [e1, e2]
      simp only [bind, Except.bind, pure, Except.pure, c, l]
      rw [rd_table n y _ (by omega) (by omega), rd_table n y _ (by omega) (by omega), rd_table n x _ (by omega) (by omega),
        rd_table n x _ (by omega) (by omega), ← slopes_last n x y (by omega), show n - 2 + 1 = n - 1 by omega]
      simp only [Int.toNat_natCast]

theorem takeWhile_spec (l : List ℝ) (p : ℝ → Bool) :
    (l.takeWhile p).length ≤ l.length ∧ (∀ i v, i < (l.takeWhile p).length → l[i]? = some v → p v = true) ∧
      ∀ v, l[(l.takeWhile p).length]? = some v → p v = false := by
  induction l with
  | nil => simp
  | cons a l ih =>
    obtain ⟨h1, h2, h3⟩ := ih
    rw [List.takeWhile_cons]
    by_cases c : p a = true
    · rw [if_pos c]
      refine ⟨by simpa using h1, ?_, ?_⟩
      · intro i v hi hv
        cases i with
        | zero => simp at hv; rw [← hv]; exact c
        | succ i => exact h2 i v (by simpa using hi) (by simpa using hv)
      · intro v hv; exact h3 v (by simpa using hv)
    · rw [if_neg c]
      refine ⟨by simp, by simp, ?_⟩
      intro v hv
      simp at hv
      rw [← hv]; simpa using c

include hx in
theorem eval_ok (hn : 3 ≤ n) (t : ℝ) :
    eval ((List.range n).map x) ((List.range n).map y) t = .ok (S n x y (chordSlopes n x y) t) := by
  obtain ⟨h1, h2, h3⟩ := takeWhile_spec ((List.range n).map x) (fun v => decide (v < t))
  simp only [eval]
  generalize (((List.range n).map x).takeWhile (fun v => decide (v < t))).length = k at h1 h2 h3 ⊢
  simp only [List.length_map, List.length_range] at h1 ⊢
  have lt : ∀ i, i < k → x i < t := fun i hi => by
    have := h2 i (x i) hi (by rw [List.getElem?_map, List.getElem?_range (by omega)]; rfl)
    simpa using this
  have ge : k < n → t ≤ x k := fun hk => by
    have := h3 (x k) (by rw [List.getElem?_map, List.getElem?_range hk]; rfl)
    simpa using this
  have pos : ∀ j : ℕ, j + 1 < n → position ((List.range n).map x) t j (j + 1) = .ok ((t - x j) / (x (j + 1) - x j)) := by
    intro j hj
    have := hx j hj
    simp only [position, bind, Except.bind]
    rw [rd_table n x _ (by omega) (by omega), rd_table n x _ (by omega) (by omega)]
    simp only [Int.toNat_natCast, show (((j : ℕ) : ℤ) + 1).toNat = j + 1 by omega]
    rw [fdiv_ok (by intro h; linarith)]
  by_cases c1 : (k : ℤ) < 1
  · rw [if_pos c1]
    have p := pos 0 (by omega)
    rw [Nat.cast_zero, zero_add] at p
    simp only [bind, Except.bind, p]
    rw [segment_ok n x y hx hn _ 0 0 (Or.inl ⟨by omega, rfl⟩)]
    have hk : k = 0 := by omega
    subst hk
    rw [S_closed n x y _ hx 0 (by omega) (by omega) t (Or.inl rfl) (Or.inr ((ge (by omega)).trans (hx 0 (by omega)).le))]
    rfl
  · rw [if_neg c1]
    by_cases c2 : (k : ℤ) < n
    · rw [if_pos c2]
      obtain ⟨j, rfl⟩ : ∃ j, k = j + 1 := ⟨k - 1, by omega⟩
      have p := pos j (by omega)
      have e1 : ((j + 1 : ℕ) : ℤ) - 1 = j := by omega
      have e2 : ((j + 1 : ℕ) : ℤ) = (j : ℤ) + 1 := by omega
      rw [e1, e2]
      simp only [bind, Except.bind, p]
      rw [segment_ok n x y hx hn _ j j (by omega)]
      rw [S_closed n x y _ hx j (by omega) (by omega) t (Or.inr (lt j (by omega)).le) (Or.inr (ge (by omega)))]
      rfl
    · rw [if_neg c2]
      have p := pos (n - 2) (by omega)
      have e1 : ((n - 2 : ℕ) : ℤ) = (n : ℤ) - 2 := by omega
      rw [e1, show (n : ℤ) - 2 + 1 = (n : ℤ) - 1 by ring] at p
      simp only [bind, Except.bind, p]
      rw [segment_ok n x y hx hn _ _ (n - 2) (by omega)]
      rw [S_closed n x y _ hx (n - 2) le_rfl (by omega) t (Or.inr (lt (n - 2) (by omega)).le) (Or.inl rfl)]
      rfl

include hx in
/-- With at least three increasing knots the evaluation never reads outside the arrays or divides by zero, for every argument, and gives the Hermite spline with the mean
of the chord slopes. -/
theorem C59_hermite (hn : 3 ≤ n) :
    ∃ S, IsHermiteSpline n x y (chordSlopes n x y) S ∧ ∀ t, eval ((List.range n).map x) ((List.range n).map y) t = .ok (S t) :=
  ⟨S n x y (chordSlopes n x y), S_hermite n (by omega) x y _ hx, eval_ok n x y hx hn⟩

include hx in
theorem S_line (hn : 2 ≤ n) (a b : ℝ) (t : ℝ) : S n x (fun i => a + b * x i) (chordSlopes n x (fun i => a + b * x i)) t = a + b * t := by
  have hs : ∀ k, k + 1 < n → slope x (fun i => a + b * x i) k = b := fun k hk => by
    have := hx k hk
    simp only [slope]
    rw [div_eq_iff (by intro h; linarith)]; ring
  have hm : ∀ k, k < n → chordSlopes n x (fun i => a + b * x i) k = b := fun k hk => by
    by_cases c0 : k = 0
    · subst c0; rw [slopes_first, hs 0 (by omega)]
    · by_cases c1 : k + 1 = n
      · have : k = n - 1 := by omega
        subst this
        rw [slopes_last n x _ hn, hs _ (by omega)]
      · have h1 := hs (k - 1) (by omega)
        have h2 := hs k (by omega)
        simp only [slope] at h1 h2
        simp only [chordSlopes]
        rw [if_neg c0, if_neg c1, h1, h2]; ring
  have hq : ∀ k, k + 1 < n → q0 x (fun i => a + b * x i) (chordSlopes n x (fun i => a + b * x i)) k t = a + b * t := fun k hk => by
    have := hx k hk
    have hw : x (k + 1) - x k ≠ 0 := by intro h; linarith
    simp only [q0, hm k (by omega), hm (k + 1) hk, blend, h00, h10, h01, h11]
    field_simp
    ring
  unfold S
  have : ∀ m, m + 1 < n → pieces x (q0 x (fun i => a + b * x i) (chordSlopes n x (fun i => a + b * x i))) m t = a + b * t := by
    intro m
    induction m with
    | zero => intro h; exact hq 0 h
    | succ m ih =>
      intro h
      simp only [pieces]
      split
      · exact ih (by omega)
      · exact hq (m + 1) h
  exact this (n - 2) (by omega)

/-! ### Uniform knots -/

theorem leftU_ok (p : ℕ) (h0 : 1 ≤ p) (h1 : p < n) : leftU ((List.range n).map y) p = .ok (slope (fun i => (i : ℝ)) y (p - 1)) := by
  obtain ⟨q, rfl⟩ : ∃ q, p = q + 1 := ⟨p - 1, by omega⟩
  simp only [leftU, bind, Except.bind, pure, Except.pure]
  rw [rd_table n y _ (by omega) (by omega), rd_table n y _ (by omega) (by omega)]
  simp only [Int.toNat_natCast, show (((q + 1 : ℕ) : ℤ) - 1).toNat = q by omega, slope]
  congr 1; push_cast; simp

theorem rightU_ok (p : ℕ) (h1 : p + 1 < n) : rightU ((List.range n).map y) p = .ok (slope (fun i => (i : ℝ)) y p) := by
  simp only [rightU, bind, Except.bind, pure, Except.pure]
  rw [rd_table n y _ (by omega) (by omega), rd_table n y _ (by omega) (by omega)]
  simp only [Int.toNat_natCast, show (((p : ℕ) : ℤ) + 1).toNat = p + 1 by omega, slope]
  congr 1; push_cast; simp

theorem centralU_ok (p : ℕ) (h0 : 1 ≤ p) (h1 : p + 1 < n) :
    centralU ((List.range n).map y) p = .ok (chordSlopes n (fun i => (i : ℝ)) y p) := by
  obtain ⟨q, rfl⟩ : ∃ q, p = q + 1 := ⟨p - 1, by omega⟩
  simp only [centralU, bind, Except.bind, pure, Except.pure]
  rw [rd_table n y _ (by omega) (by omega), rd_table n y _ (by omega) (by omega)]
  simp only [show (((q + 1 : ℕ) : ℤ) - 1).toNat = q by omega, show (((q + 1 : ℕ) : ℤ) + 1).toNat = q + 1 + 1 by omega, chordSlopes]
  rw [if_neg (by omega), if_neg (by omega)]
  congr 1
  rw [show q + 1 - 1 = q by omega]; push_cast; ring_nf

theorem segmentU_ok (hn : 3 ≤ n) (t : ℝ) (k : ℤ) (j : ℕ) (hj : (k < 1 ∧ j = 0) ∨ (1 ≤ k ∧ k < (n : ℤ) - 2 ∧ (j : ℤ) = k) ∨ (n : ℤ) - 2 ≤ k ∧ j = n - 2) :
    segmentU ((List.range n).map y) t k n =
      .ok (blend t (y j) (y (j + 1)) 1 (chordSlopes n (fun i => (i : ℝ)) y j) (chordSlopes n (fun i => (i : ℝ)) y (j + 1))) := by
  have hb : ∀ a b c d : ℝ, blendU t a b c d = blend t a b 1 c d := fun a b c d => by simp only [blend, blendU]; ring
  unfold segmentU
  by_cases c1 : k < 1
  · have hj : j = 0 := by omega
    subst hj
    rw [if_pos c1]
    have r := rightU_ok n y 0 (by omega)
    have c := centralU_ok n y 1 le_rfl (by omega)
    rw [Nat.cast_zero] at r
    rw [Nat.cast_one] at c
    simp only [bind, Except.bind, pure, Except.pure, r, c]
    rw [rd_table n y _ (by omega) (by omega), rd_table n y _ (by omega) (by omega), slopes_first]
    simp only [hb]
    rfl
  · rw [if_neg c1]
    by_cases c2 : k < (n : ℤ) - 2
    · have hj : (j : ℤ) = k := by omega
      rw [if_pos c2, ← hj]
      have c := centralU_ok n y j (by omega) (by omega)
      have c' := centralU_ok n y (j + 1) (by omega) (by omega)
      rw [Nat.cast_add, Nat.cast_one] at c'
      simp only [bind, Except.bind, pure, Except.pure, c, c']
      rw [rd_table n y _ (by omega) (by omega), rd_table n y _ (by omega) (by omega)]
      simp only [Int.toNat_natCast, show (((j : ℕ) : ℤ) + 1).toNat = j + 1 by omega, hb]
    · have hj : j = n - 2 := by omega
      subst hj
      rw [if_neg c2]
      have e2 : (n : ℤ) - 2 = ((n - 2 : ℕ) : ℤ) := by omega
      have e1 : (n : ℤ) - 1 = ((n - 1 : ℕ) : ℤ) := by omega
      have c := centralU_ok n y (n - 2) (by omega) (by omega)
      have l := leftU_ok n y (n - 1) (by omega) (by omega)
      rw [e1, e2]
      simp only [bind, Except.bind, pure, Except.pure, c, l]
      rw [rd_table n y _ (by omega) (by omega), rd_table n y _ (by omega) (by omega), ← slopes_last n (fun i => (i : ℝ)) y (by omega),
        show n - 2 + 1 = n - 1 by omega]
      simp only [Int.toNat_natCast, hb]

theorem uniform (i : ℕ) (_ : i + 1 < n) : (fun i : ℕ => (i : ℝ)) i < (fun i : ℕ => (i : ℝ)) (i + 1) := by
  simp

theorem evalU_ok (hn : 3 ≤ n) (x0 dx : ℝ) (hdx : dx ≠ 0) (t : ℝ) (ht : |(t - x0) / dx| < 2147483648) :
    evalU ((List.range n).map y) t x0 dx = .ok (S n (fun i => (i : ℝ)) y (chordSlopes n (fun i => (i : ℝ)) y) ((t - x0) / dx)) := by
  simp only [evalU, bind, Except.bind]
  rw [fdiv_ok hdx]
  generalize (t - x0) / dx = tx at ht ⊢
  obtain ⟨k, e3, k1, k2⟩ := NaturalSpline.toInt_ok tx ht
  simp only [e3, List.length_map, List.length_range]
  have q : ∀ j : ℕ, q0 (fun i => (i : ℝ)) y (chordSlopes n (fun i => (i : ℝ)) y) j tx =
      blend (tx - j) (y j) (y (j + 1)) 1 (chordSlopes n (fun i => (i : ℝ)) y j) (chordSlopes n (fun i => (i : ℝ)) y (j + 1)) := by
    intro j; simp only [q0]; congr 1 <;> push_cast <;> ring
  by_cases c : 0 ≤ tx
  · have k1 := k1 c
    have k0 : 0 ≤ k := by rw [k1]; exact Int.floor_nonneg.mpr c
    have l1 : (k : ℝ) ≤ tx := by rw [k1]; exact Int.floor_le tx
    have l2 : tx < k + 1 := by rw [k1]; exact Int.lt_floor_add_one tx
    rw [if_neg (by omega)]
    by_cases c2 : k < (n : ℤ) - 1
    · rw [if_pos c2]
      have hkn : ((k.toNat : ℕ) : ℤ) = k := Int.toNat_of_nonneg k0
      have hkr : ((k.toNat : ℕ) : ℝ) = k := by rw [← Int.cast_natCast, hkn]
      rw [segmentU_ok n y hn _ k k.toNat (by omega), S_closed n _ y _ (uniform n) k.toNat (by omega) (by omega) tx
        (Or.inr (by simp only [hkr]; exact l1)) (Or.inr (by push_cast; rw [hkr]; exact l2.le)), q, hkr]
    · rw [if_neg c2]
      have h3 : (((n : ℤ) - 1 : ℤ) : ℝ) ≤ k := by exact_mod_cast not_lt.mp c2
      have h4 : ((n - 2 : ℕ) : ℝ) = (((n : ℤ) - 2 : ℤ) : ℝ) := by rw [Nat.cast_sub (by omega)]; push_cast; rfl
      rw [segmentU_ok n y hn _ _ (n - 2) (by omega), S_closed n _ y _ (uniform n) (n - 2) le_rfl (by omega) tx
        (Or.inr (by rw [h4]; push_cast at h3 ⊢; linarith)) (Or.inl rfl), q, h4]
  · have c := not_le.mp c
    obtain ⟨-, k2⟩ := k2 c
    have hS := S_closed n _ y (chordSlopes n (fun i => (i : ℝ)) y) (uniform n) 0 (by omega) (by omega) tx (Or.inl rfl) (Or.inr (by push_cast; linarith))
    rw [hS, q]
    by_cases c3 : k < 0
    · rw [if_pos c3, segmentU_ok n y hn _ 0 0 (by omega)]; simp
    · obtain rfl : k = 0 := by omega
      rw [if_neg c3, if_pos (by omega), segmentU_ok n y hn _ 0 0 (by omega)]; simp

/-- The same for data at equal distances. -/
theorem C59_uniform (hn : 3 ≤ n) (x0 dx : ℝ) (hdx : dx ≠ 0) :
    ∃ S, IsHermiteSpline n (fun i => (i : ℝ)) y (chordSlopes n (fun i => (i : ℝ)) y) S ∧
      ∀ t, |(t - x0) / dx| < 2147483648 → evalU ((List.range n).map y) t x0 dx = .ok (S ((t - x0) / dx)) :=
  ⟨_, S_hermite n (by omega) _ y _ (uniform n), fun t ht => evalU_ok n y hn x0 dx hdx t ht⟩

include hx in
/-- Data on a straight line gives the line. -/
theorem C59_line (hn : 3 ≤ n) (a b : ℝ) (t : ℝ) :
    eval ((List.range n).map x) ((List.range n).map (fun i => a + b * x i)) t = .ok (a + b * t) := by
  rw [eval_ok n x _ hx hn t, S_line n x hx (by omega) a b t]

/-- The same for data at equal distances. -/
theorem C59_line_uniform (hn : 3 ≤ n) (x0 dx : ℝ) (hdx : dx ≠ 0) (a b t : ℝ) (ht : |(t - x0) / dx| < 2147483648) :
    evalU ((List.range n).map (fun i : ℕ => a + b * (i : ℝ))) t x0 dx = .ok (a + b * ((t - x0) / dx)) := by
  rw [evalU_ok n _ hn x0 dx hdx t ht]
  congr 1
  exact S_line n (fun i => (i : ℝ)) (uniform n) (by omega) a b _

theorem segment_two (x0 x1 y0 y1 t : ℝ) (h : x0 < x1) (k : ℤ) : segment [x0, x1] [y0, y1] t k 2 = .error .bounds := by
  have h1 : x1 - x0 ≠ 0 := by intro h'; linarith
  unfold segment
  split_ifs
  · simp [left, right, central, rd, fdiv, h1, bind, Except.bind]
  · omega
  · simp [left, central, rd, bind, Except.bind]

theorem segmentU_two (y0 y1 t : ℝ) (k : ℤ) : segmentU [y0, y1] t k 2 = .error .bounds := by
  unfold segmentU
  split_ifs
  · simp [rightU, centralU, rd, bind, Except.bind, pure, Except.pure]
  · omega
  · simp [centralU, rd, bind, Except.bind]

/-- Why three knots are needed: with two, every evaluation reads outside of the arrays, since the slope at the inner end of a segment always takes both neighbours. -/
theorem C59_two_knots (x0 x1 y0 y1 t : ℝ) (h : x0 < x1) (ht : |t| < 2147483648) :
    eval [x0, x1] [y0, y1] t = .error .bounds ∧ evalU [y0, y1] t 0 1 = .error .bounds := by
  have h1 : x1 - x0 ≠ 0 := by intro h'; linarith
  constructor
  · have hp : ∀ k : ℕ, ¬ (k : ℤ) < 1 → k < 2 → position [x0, x1] t ((k : ℤ) - 1) k = .ok ((t - x0) / (x1 - x0)) := by
      intro k c1 c2
      obtain rfl : k = 1 := by omega
      simp [position, rd, fdiv, h1, bind, Except.bind]
    have p0 : position [x0, x1] t 0 1 = .ok ((t - x0) / (x1 - x0)) := by simp [position, rd, fdiv, h1, bind, Except.bind]
    simp only [eval]
    generalize (([x0, x1] : List ℝ).takeWhile (fun v => decide (v < t))).length = k
    simp only [List.length_cons, List.length_nil, show ((0 + 1 + 1 : ℕ) : ℤ) = 2 from rfl, show (2 : ℤ) - 2 = 0 from rfl, show (2 : ℤ) - 1 = 1 from rfl]
    split_ifs with c1 c2
    · simp only [bind, Except.bind, p0, segment_two x0 x1 y0 y1 _ h]
    · simp only [bind, Except.bind, hp k c1 (by omega), segment_two x0 x1 y0 y1 _ h]
    · simp only [bind, Except.bind, p0, segment_two x0 x1 y0 y1 _ h]
  · simp only [evalU, bind, Except.bind]
    rw [fdiv_ok one_ne_zero, sub_zero, div_one]
    obtain ⟨k, e3, -, -⟩ := NaturalSpline.toInt_ok t ht
    simp only [e3, List.length_cons, List.length_nil, show ((0 + 1 + 1 : ℕ) : ℤ) = 2 from rfl, segmentU_two]
    split_ifs <;> rfl

example : ∀ i, i + 1 < 4 → (fun i : ℕ => ((i : ℝ)) ^ 2) i < (fun i : ℕ => ((i : ℝ)) ^ 2) (i + 1) := by
  intro i _; push_cast; nlinarith [(Nat.cast_nonneg i : (0 : ℝ) ≤ i)]

end HermiteSpline
end DSP
