import Verif.Model.Spline
import Verif.Spec.Spline
import Verif.Lemmas.Loops
import Verif.Lemmas.Piecewise
import Verif.Props.Phasor
import Mathlib.Tactic.IntervalCases

/-!
# Natural cubic spline (C58)
-/

namespace DSP
namespace NaturalSpline

open Spec

/-! ### The recursions -/

noncomputable def us : ℕ → ℝ
  | 0 => 0
  | i + 1 => 1 / (4 - us i)

noncomputable def zs (y : ℕ → ℝ) : ℕ → ℝ
  | 0 => 0
  | i + 1 => (3 * (y (i + 2) - 2 * y (i + 1) + y i) - zs y i) / (4 - us i)

/-- `cr j` is the coefficient `j` places before the end. -/
noncomputable def cr (y : ℕ → ℝ) (K : ℕ) : ℕ → ℝ
  | 0 => 0
  | j + 1 => zs y (K - 2 - j) - us (K - 2 - j) * cr y K j

/-- The coefficients `c 0, ..., c (K-1)`. -/
noncomputable def cs (y : ℕ → ℝ) (K : ℕ) (i : ℕ) : ℝ := cr y K (K - 1 - i)

theorem us_bounds (i : ℕ) : 0 ≤ us i ∧ us i ≤ 1 := by
  induction i with
  | zero => simp [us]
  | succ i ih =>
    simp only [us]
    exact ⟨by apply div_nonneg <;> linarith, by rw [div_le_one (by linarith)]; linarith⟩

theorem us_ne (i : ℕ) : 4 - us i ≠ 0 := by have := us_bounds i; intro h; linarith

theorem cs_last (y : ℕ → ℝ) (K : ℕ) : cs y K (K - 1) = 0 := by simp [cs, cr]

theorem cs_rec (y : ℕ → ℝ) (K i : ℕ) (h : i + 2 ≤ K) : cs y K i = zs y i - us i * cs y K (i + 1) := by
  unfold cs
  obtain ⟨j, hj⟩ : ∃ j, K - 1 - i = j + 1 := ⟨K - 2 - i, by omega⟩
  rw [hj, cr, show K - 1 - (i + 1) = j by omega, show K - 2 - j = i by omega]

theorem cs_zero (y : ℕ → ℝ) (K : ℕ) (h : 2 ≤ K) : cs y K 0 = 0 := by
  rw [cs_rec y K 0 (by omega)]; simp [zs, us]

/-- The equations the elimination solves. -/
theorem tridiagonal (y : ℕ → ℝ) (K i : ℕ) (h : i + 3 ≤ K) :
    cs y K i + 4 * cs y K (i + 1) + cs y K (i + 2) = 3 * (y (i + 2) - 2 * y (i + 1) + y i) := by
  have h1 := cs_rec y K i (by omega)
  have h2 := cs_rec y K (i + 1) (by omega)
  have hu : us (i + 1) * (4 - us i) = 1 := by simp only [us]; exact div_mul_cancel₀ _ (us_ne i)
  have hz : zs y (i + 1) * (4 - us i) = 3 * (y (i + 2) - 2 * y (i + 1) + y i) - zs y i := by
    simp only [zs]; exact div_mul_cancel₀ _ (us_ne i)
  linear_combination h1 + (4 - us i) * h2 + hz - cs y K (i + 2) * hu

/-! ### The spline -/

/-- The slope at the start of piece `k`. -/
noncomputable def bs (y : ℕ → ℝ) (K k : ℕ) : ℝ := y (k + 1) - y k - (cs y K (k + 1) + 2 * cs y K k) / 3

noncomputable def ds (y : ℕ → ℝ) (K k : ℕ) : ℝ := (cs y K (k + 1) - cs y K k) / 3

noncomputable def p0 (y : ℕ → ℝ) (K k : ℕ) (x : ℝ) : ℝ := y k + (x - k) * (bs y K k + (x - k) * (cs y K k + (x - k) * ds y K k))
noncomputable def p1 (y : ℕ → ℝ) (K k : ℕ) (x : ℝ) : ℝ := bs y K k + (x - k) * (2 * cs y K k + (x - k) * (3 * ds y K k))
noncomputable def p2 (y : ℕ → ℝ) (K k : ℕ) (x : ℝ) : ℝ := 2 * cs y K k + (x - k) * (6 * ds y K k)

theorem p0_deriv (y : ℕ → ℝ) (K k : ℕ) (x : ℝ) : HasDerivAt (p0 y K k) (p1 y K k x) x := by
  have h : HasDerivAt (fun x : ℝ => x - k) 1 x := (hasDerivAt_id x).sub_const _
  have := (h.mul ((h.mul ((h.mul_const (ds y K k)).const_add (cs y K k))).const_add (bs y K k))).const_add (y k)
  refine this.congr_deriv ?_
  simp only [p1, Pi.mul_apply]; ring

theorem p1_deriv (y : ℕ → ℝ) (K k : ℕ) (x : ℝ) : HasDerivAt (p1 y K k) (p2 y K k x) x := by
  have h : HasDerivAt (fun x : ℝ => x - k) 1 x := (hasDerivAt_id x).sub_const _
  have := (h.mul ((h.mul_const (3 * ds y K k)).const_add (2 * cs y K k))).const_add (bs y K k)
  refine this.congr_deriv ?_
  simp only [p2]; ring

theorem p2_continuous (y : ℕ → ℝ) (K k : ℕ) : Continuous (p2 y K k) := by
  unfold p2; fun_prop

theorem match0 (y : ℕ → ℝ) (K k : ℕ) : p0 y K k ((k + 1 : ℕ) : ℝ) = p0 y K (k + 1) ((k + 1 : ℕ) : ℝ) := by
  simp only [p0, bs, ds]; push_cast; ring

theorem match1 (y : ℕ → ℝ) (K k : ℕ) (h : k + 3 ≤ K) : p1 y K k ((k + 1 : ℕ) : ℝ) = p1 y K (k + 1) ((k + 1 : ℕ) : ℝ) := by
  have := tridiagonal y K k h
  simp only [p1, bs, ds]; push_cast
  linear_combination this / 3

theorem match2 (y : ℕ → ℝ) (K k : ℕ) : p2 y K k ((k + 1 : ℕ) : ℝ) = p2 y K (k + 1) ((k + 1 : ℕ) : ℝ) := by
  simp only [p2, ds]; push_cast; ring

/-- The pieces put together. -/
noncomputable def S (y : ℕ → ℝ) (K : ℕ) : ℝ → ℝ := pieces (fun k => (k : ℝ)) (p0 y K) (K - 2)

theorem mono (m : ℕ) : ∀ i j : ℕ, i ≤ j → j ≤ m → (fun k : ℕ => (k : ℝ)) i ≤ (fun k : ℕ => (k : ℝ)) j := fun i j h _ => by
  simp only; exact_mod_cast h

theorem S_natural (y : ℕ → ℝ) (K : ℕ) (hK : 2 ≤ K) : IsNaturalSpline K y (S y K) := by
  constructor
  · intro i hi
    by_cases h : i + 1 = K
    · rw [S, pieces_eq _ _ _ (mono _) (K - 2) le_rfl _ (Or.inr (by exact_mod_cast (by omega))) (Or.inl rfl)]
      obtain ⟨k, rfl⟩ : ∃ k, K = k + 2 := ⟨K - 2, by omega⟩
      obtain rfl : i = k + 1 := by omega
      rw [show k + 2 - 2 = k by omega, match0]
      simp [p0]
    · rw [S, pieces_eq _ _ _ (mono _) i (by omega) _ (Or.inr le_rfl) (Or.inr (by exact_mod_cast (by omega)))]
      simp [p0]
  · refine ⟨pieces (fun k => (k : ℝ)) (p1 y K) (K - 2), pieces (fun k => (k : ℝ)) (p2 y K) (K - 2), ?_, ?_, ?_, ?_, ?_⟩
    · exact fun t => pieces_deriv _ _ _ _ (p0_deriv y K) (fun k _ => match0 y K k) (fun k hk => match1 y K k (by omega)) (mono _) t
    · exact fun t => pieces_deriv _ _ _ _ (p1_deriv y K) (fun k hk => match1 y K k (by omega)) (fun k _ => match2 y K k) (mono _) t
    · exact pieces_continuous _ _ _ (p2_continuous y K) (fun k _ => match2 y K k) (mono _)
    · rw [pieces_eq _ _ _ (mono _) 0 (by omega) _ (Or.inl rfl) (Or.inr (by simp))]
      simp [p2, cs_zero y K hK]
    · obtain ⟨k, rfl⟩ : ∃ k, K = k + 2 := ⟨K - 2, by omega⟩
      rw [show k + 2 - 2 = k by omega, pieces_last _ _ _ _ (Or.inr (by push_cast; linarith))]
      have h0 : cs y (k + 2) (k + 1) = 0 := cs_last y (k + 2)
      simp only [p2, ds, h0]; push_cast; ring
  · intro k hk
    refine ⟨y k - bs y K k * k + cs y K k * k ^ 2 - ds y K k * k ^ 3, bs y K k - 2 * cs y K k * k + 3 * ds y K k * k ^ 2, cs y K k - 3 * ds y K k * k,
      ds y K k, fun t h0 h1 => ?_⟩
    have e : S y K t = p0 y K k t := by
      by_cases c : k + 2 = K
      · exact pieces_eq _ _ _ (mono _) k (by omega) _ h0 (Or.inl (by omega))
      · have h1 : t ≤ k + 1 := by rcases h1 with h1 | h1; exact absurd h1 c; exact h1
        rcases lt_or_eq_of_le h1 with h2 | h2
        · exact pieces_eq _ _ _ (mono _) k (by omega) _ h0 (Or.inr (by push_cast; exact h2))
        · have h3 : t = ((k + 1 : ℕ) : ℝ) := by push_cast; exact h2
          rw [h3, match0]
          exact pieces_eq _ _ _ (mono _) (k + 1) (by omega) _ (Or.inr le_rfl)
            (by by_cases c2 : k + 1 = K - 2
                · exact Or.inl c2
                · exact Or.inr (by push_cast; linarith))
    rw [e, p0]; ring

/-! ### The code computes it -/

theorem forward_ok (K : ℕ) (hK : 2 ≤ K) (Y : List ℝ) (st : ℕ) (y : ℕ → ℝ) (hy : ∀ i, i < K → rd Y ((i : ℤ) * st) = .ok (y i)) (U Z : List ℝ)
    (hU : U.length = K - 1) (hZ : Z.length = K - 1) (hU0 : U[0]? = some 0) (hZ0 : Z[0]? = some 0) :
    ∃ U' Z', (List.range (K - 2)).foldlM (fun s (j : ℕ) => forward Y st s (j + 1)) (U, Z) = .ok (U', Z') ∧
      (∀ i, i < K - 1 → U'[i]? = some (us i) ∧ Z'[i]? = some (zs y i)) := by
  obtain ⟨⟨U', Z'⟩, e, h1, h2, h3⟩ := foldlM_inv
    (fun k (s : List ℝ × List ℝ) => s.1.length = K - 1 ∧ s.2.length = K - 1 ∧ ∀ i, i ≤ k → i < K - 1 → s.1[i]? = some (us i) ∧ s.2[i]? = some (zs y i))
    (fun s (j : ℕ) => forward Y st s (j + 1)) (K - 2) (U, Z)
    ⟨hU, hZ, fun i hi _ => by obtain rfl : i = 0 := by omega
                              exact ⟨hU0, hZ0⟩⟩
    (by
      rintro k hk ⟨U, Z⟩ ⟨h1, h2, h3⟩
      simp only at h1 h2 h3
      refine ⟨(U.set (k + 1) (us (k + 1)), Z.set (k + 1) (zs y (k + 1))), ?_, by simp [h1], by simp [h2], ?_⟩
      · have e1 : ((k : ℤ) + 1 - 1) = k := by ring
        have y2 : rd Y (((k : ℤ) + 1 + 1) * st) = .ok (y (k + 2)) := by rw [← hy (k + 2) (by omega)]; congr 1
        have y1 : rd Y (((k : ℤ) + 1) * st) = .ok (y (k + 1)) := by rw [← hy (k + 1) (by omega)]; congr 1
        have y0 : rd Y ((k : ℤ) * st) = .ok (y k) := hy k (by omega)
        simp only [forward, e1, bind, Except.bind, pure, Except.pure, y0, y1, y2]
        rw [rd_of_getElem? (by omega) (by simpa using (h3 k le_rfl (by omega)).1)]
        simp only []
        rw [fdiv_ok (us_ne k)]
        simp only []
        rw [show ((k : ℤ) + 1) = ((k + 1 : ℕ) : ℤ) by push_cast; ring, wr_nat (by omega)]
        simp only []
        rw [rd_of_getElem? (by omega) (by simpa using (h3 k le_rfl (by omega)).2)]
        simp only []
        rw [fdiv_ok (us_ne k)]
        simp only []
        rw [wr_nat (by omega)]
        rfl
      · intro i hi hi2
        simp only [List.getElem?_set]
        by_cases c : k + 1 = i
        · subst c
          rw [if_pos rfl, if_pos rfl, if_pos (by omega), if_pos (by omega)]
          exact ⟨rfl, rfl⟩
        · rw [if_neg c, if_neg c]; exact h3 i (by omega) hi2)
  exact ⟨U', Z', e, fun i hi => h3 i (by omega) hi⟩

theorem set_get {l : List ℝ} {n : ℕ} (i : ℕ) (v : ℝ) (hl : l.length = n) (hi : i < n) : (l.set i v)[i]? = some v := by
  rw [List.getElem?_set, if_pos rfl, if_pos (by omega)]

theorem backward_ok (K : ℕ) (hK : 2 ≤ K) (Y : List ℝ) (st : ℕ) (y : ℕ → ℝ) (hy : ∀ i, i < K → rd Y ((i : ℤ) * st) = .ok (y i)) (U Z junk : List ℝ)
    (hj : junk.length = K - 1) (hUZ : ∀ i, i < K - 1 → U[i]? = some (us i) ∧ Z[i]? = some (zs y i)) :
    ∃ s, (List.range (K - 1)).foldlM (fun s (j : ℕ) => backward Y st U Z s (K - 2 - j)) ⟨junk, junk, junk, junk, 0⟩ = .ok s ∧
      ∀ i, i < K - 1 → s.A[i]? = some (y i) ∧ s.B[i]? = some (bs y K i) ∧ s.C[i]? = some (cs y K i) ∧ s.D[i]? = some (ds y K i) := by
  obtain ⟨s, e, -, -, -, -, -, h⟩ := foldlM_inv
    (fun k (s : Tables) => s.A.length = K - 1 ∧ s.B.length = K - 1 ∧ s.C.length = K - 1 ∧ s.D.length = K - 1 ∧ s.c = cs y K (K - 1 - k) ∧
      ∀ i, K - 1 ≤ i + k → i < K - 1 → s.A[i]? = some (y i) ∧ s.B[i]? = some (bs y K i) ∧ s.C[i]? = some (cs y K i) ∧ s.D[i]? = some (ds y K i))
    (fun s (j : ℕ) => backward Y st U Z s (K - 2 - j)) (K - 1) ⟨junk, junk, junk, junk, 0⟩
    ⟨hj, hj, hj, hj, by simp [cs_last], fun i h1 h2 => by omega⟩
    (by
      rintro k hk ⟨A, B, C, D, c⟩ ⟨hA, hB, hC, hD, hc, h⟩
      simp only at hA hB hC hD hc h
      obtain ⟨i, hi⟩ : ∃ i, i + k = K - 2 := ⟨K - 2 - k, by omega⟩
      have ei : (K : ℤ) - 2 - k = (i : ℕ) := by omega
      have hc : c = cs y K (i + 1) := by rw [hc]; congr 1; omega
      have hci : zs y i - us i * c = cs y K i := by rw [hc, ← cs_rec y K i (by omega)]
      refine ⟨⟨A.set i (y i), B.set i (bs y K i), C.set i (cs y K i), D.set i (ds y K i), cs y K i⟩, ?_, by simp [hA], by simp [hB], by simp [hC],
        by simp [hD], by simp only; congr 1; omega, ?_⟩
      · have y1 : rd Y (((i : ℤ) + 1) * st) = .ok (y (i + 1)) := by rw [← hy (i + 1) (by omega)]; congr 1
        have y0 : rd Y ((i : ℤ) * st) = .ok (y i) := hy i (by omega)
        have hCi : rd (C.set i (cs y K i)) (i : ℤ) = .ok (cs y K i) :=
          rd_of_getElem? (by omega) (by rw [Int.toNat_natCast]; exact set_get i _ hC (by omega))
        simp only [backward, ei, bind, Except.bind, pure, Except.pure, y0, y1]
        rw [wr_nat (by omega), rd_of_getElem? (by omega) (by simpa using (hUZ i (by omega)).2),
          rd_of_getElem? (by omega) (by simpa using (hUZ i (by omega)).1)]
        simp only [hci]
        rw [wr_nat (by omega)]
        simp only [hCi]
        rw [fdiv_ok (by norm_num : (3 : ℝ) ≠ 0)]
        simp only []
        rw [wr_nat (by omega)]
        simp only []
        rw [fdiv_ok (by norm_num : (3 : ℝ) ≠ 0)]
        simp only []
        rw [wr_nat (by omega)]
        simp only [hc]
        rfl
      · intro j h1 h2
        simp only [List.getElem?_set]
        by_cases cj : i = j
        · subst cj
          simp only [if_true, hA, hB, hC, hD, h2]
          exact ⟨trivial, trivial, trivial, trivial⟩
        · simp only [if_neg cj]; exact h j (by omega) h2)
  exact ⟨s, e, fun i hi => h i (by omega) hi⟩

/-- Conversion to `int` of numbers that fit. -/
theorem toInt_ok (x : ℝ) (h : |x| < 2147483648) : ∃ k : ℤ, toInt x = .ok k ∧ (0 ≤ x → k = ⌊x⌋) ∧ (x < 0 → k = ⌈x⌉ ∧ k ≤ 0) := by
  rw [abs_lt] at h
  unfold toInt int32
  by_cases c : 0 ≤ x
  · rw [if_pos c]
    have h1 : 0 ≤ ⌊x⌋ := Int.floor_nonneg.mpr c
    have h2 : ⌊x⌋ < 2147483648 := by rw [Int.floor_lt]; exact_mod_cast h.2
    rw [if_pos ⟨by omega, by omega⟩]
    exact ⟨_, rfl, fun _ => rfl, fun h => absurd c (not_le.mpr h)⟩
  · rw [if_neg c]
    have h1 : ⌈x⌉ ≤ 0 := Int.ceil_le.mpr (by push_cast; linarith)
    have h2 : -2147483648 ≤ ⌈x⌉ := by
      have : -2147483648 < ⌈x⌉ := by rw [Int.lt_ceil]; push_cast; linarith
      omega
    rw [if_pos ⟨h2, by omega⟩]
    exact ⟨_, rfl, fun h => absurd h c, fun _ => ⟨rfl, h1⟩⟩

theorem locate_ok (K : ℕ) (hK : 2 ≤ K) (tx : ℝ) (k : ℤ) (k1 : 0 ≤ tx → k = ⌊tx⌋) (k2 : tx < 0 → k = ⌈tx⌉ ∧ k ≤ 0) :
    ∃ m : ℕ, m ≤ K - 2 ∧ (m = 0 ∨ (m : ℝ) ≤ tx) ∧ (m = K - 2 ∨ tx < (m + 1 : ℕ)) ∧ locate K tx k = (tx - (m : ℝ), (m : ℤ)) := by
  unfold locate
  by_cases c : 0 ≤ tx
  · have k1 := k1 c
    have k0 : 0 ≤ k := by rw [k1]; exact Int.floor_nonneg.mpr c
    have l1 : (k : ℝ) ≤ tx := by rw [k1]; exact Int.floor_le tx
    have l2 : tx < k + 1 := by rw [k1]; exact Int.lt_floor_add_one tx
    simp only [if_neg (not_lt.mpr k0)]
    by_cases c2 : k ≥ (K : ℤ) - 1
    · rw [if_pos c2]
      refine ⟨K - 2, le_rfl, Or.inr ?_, Or.inl rfl, ?_⟩
      · have h3 : ((K : ℤ) : ℝ) - 1 ≤ k := by exact_mod_cast c2
        rw [Nat.cast_sub hK]; push_cast at h3 ⊢; linarith
      · rw [Nat.cast_sub hK, Nat.cast_sub hK]; push_cast; rfl
    · rw [if_neg c2]
      have hkn : ((k.toNat : ℕ) : ℤ) = k := Int.toNat_of_nonneg k0
      have hkr : ((k.toNat : ℕ) : ℝ) = k := by rw [← Int.cast_natCast, hkn]
      refine ⟨k.toNat, by omega, Or.inr (by rw [hkr]; exact l1), Or.inr (by push_cast; rw [hkr]; exact l2), ?_⟩
      rw [hkr, hkn]
  · have c := not_le.mp c
    obtain ⟨-, k2⟩ := k2 c
    refine ⟨0, by omega, Or.inl rfl, Or.inr (by push_cast; linarith), ?_⟩
    by_cases c3 : k < 0
    · simp only [if_pos c3]; rw [if_neg (by omega)]; simp
    · obtain rfl : k = 0 := by omega
      simp only [if_neg c3]; rw [if_neg (by omega)]; simp

theorem code_ok (K : ℕ) (hK : 2 ≤ K) (junk Y : List ℝ) (hj : junk.length = K - 1) (st : ℕ) (y : ℕ → ℝ) (hy : ∀ i, i < K → Y[i * st]? = some (y i)) (x0 dx : ℝ)
    (hdx : dx ≠ 0) :
    ∃ s, make K junk Y x0 dx st = .ok s ∧ (∀ x, |(x - x0) / dx| < 2147483648 → s.call K x = .ok (S y K ((x - x0) / dx))) ∧
      ∀ x, 2147483648 ≤ (x - x0) / dx → s.call K x = .error .overflow := by
  have hy' : ∀ i, i < K → rd Y ((i : ℤ) * st) = .ok (y i) := fun i hi => by
    have : ((i : ℤ) * st) = ((i * st : ℕ) : ℤ) := by push_cast; ring
    rw [this, rd_of_getElem? (by omega) (by rw [Int.toNat_natCast]; exact hy i hi)]
  have w0 : wr junk 0 0 = .ok (junk.set 0 0) := wr_nat (i := 0) (by omega)
  have g0 : (junk.set 0 (0 : ℝ))[0]? = some 0 := set_get 0 _ hj (by omega)
  obtain ⟨U, Z, e1, hUZ⟩ := forward_ok K hK Y st y hy' (junk.set 0 0) (junk.set 0 0) (by simp [hj]) (by simp [hj]) g0 g0
  obtain ⟨t, e2, ht⟩ := backward_ok K hK Y st y hy' U Z junk hj hUZ
  refine ⟨⟨t.A, t.B, t.C, t.D, x0, dx⟩, ?_, ?_, ?_⟩
  · simp only [make, w0, bind, Except.bind, pure, Except.pure]
    simp only [e1, e2]
  · intro x hx
    simp only [call, bind, Except.bind, pure, Except.pure]
    rw [fdiv_ok hdx]
    simp only []
    generalize (x - x0) / dx = tx at hx ⊢
    obtain ⟨k, e3, k1, k2⟩ := toInt_ok tx hx
    rw [e3]
    simp only []
    obtain ⟨m, m1, m2, m3, m4⟩ := locate_ok K hK tx k k1 k2
    obtain ⟨a1, a2, a3, a4⟩ := ht m (by omega)
    have hS : S y K tx = p0 y K m tx := pieces_eq _ _ _ (mono _) m m1 _ m2 m3
    rw [hS, m4]
    simp only []
    rw [rd_of_getElem? (by omega) (by simpa using a1), rd_of_getElem? (by omega) (by simpa using a2), rd_of_getElem? (by omega) (by simpa using a3),
      rd_of_getElem? (by omega) (by simpa using a4)]
    rfl
  · intro x hx
    simp only [call, bind, Except.bind, pure, Except.pure]
    rw [fdiv_ok hdx]
    simp only [toInt]
    have h0 : (0 : ℝ) ≤ (x - x0) / dx := by linarith
    have h1 : 2147483648 ≤ ⌊(x - x0) / dx⌋ := by rw [Int.le_floor]; exact_mod_cast hx
    rw [if_pos h0, int32, if_neg (by omega)]

/-- The constructor and every evaluation stay inside their arrays, never divide by zero, and the values are those of the natural spline through the data (here with a stride
between the data, an offset and a step of the abscissae). -/
theorem C58_natural (K : ℕ) (hK : 2 ≤ K) (junk Y : List ℝ) (hj : junk.length = K - 1) (st : ℕ) (y : ℕ → ℝ) (hy : ∀ i, i < K → Y[i * st]? = some (y i)) (x0 dx : ℝ)
    (hdx : dx ≠ 0) :
    ∃ s, make K junk Y x0 dx st = .ok s ∧ ∃ S, IsNaturalSpline K y S ∧
      ∀ x, |(x - x0) / dx| < 2147483648 → s.call K x = .ok (S ((x - x0) / dx)) := by
  obtain ⟨s, e, h, -⟩ := code_ok K hK junk Y hj st y hy x0 dx hdx
  exact ⟨s, e, S y K, S_natural y K hK, h⟩

/-- Why the magnitude is limited: farther away the conversion to `int` is undefined. -/
theorem C58_far (K : ℕ) (hK : 2 ≤ K) (junk Y : List ℝ) (hj : junk.length = K - 1) (st : ℕ) (y : ℕ → ℝ) (hy : ∀ i, i < K → Y[i * st]? = some (y i)) (x0 dx : ℝ)
    (hdx : dx ≠ 0) :
    ∃ s, make K junk Y x0 dx st = .ok s ∧ ∀ x, 2147483648 ≤ (x - x0) / dx → s.call K x = .error .overflow := by
  obtain ⟨s, e, -, h⟩ := code_ok K hK junk Y hj st y hy x0 dx hdx
  exact ⟨s, e, h⟩

theorem zs_line (y : ℕ → ℝ) (a b : ℝ) (h : ∀ i, y i = a + b * i) (i : ℕ) : zs y i = 0 := by
  induction i with
  | zero => rfl
  | succ i ih => simp only [zs, ih, h]; push_cast; rw [div_eq_zero_iff]; left; ring

theorem cs_line (y : ℕ → ℝ) (a b : ℝ) (h : ∀ i, y i = a + b * i) (K i : ℕ) : cs y K i = 0 := by
  unfold cs
  induction K - 1 - i with
  | zero => rfl
  | succ j ih => rw [cr, ih, zs_line y a b h]; ring

theorem S_line (y : ℕ → ℝ) (a b : ℝ) (h : ∀ i, y i = a + b * i) (K : ℕ) (t : ℝ) : S y K t = a + b * t := by
  unfold S
  induction K - 2 with
  | zero => simp [pieces, p0, bs, ds, cs_line y a b h, h]; ring
  | succ m ih =>
    simp only [pieces]
    split
    · exact ih
    · simp [p0, bs, ds, cs_line y a b h, h]; ring

/-- Data on a straight line gives the line. -/
theorem C58_line (K : ℕ) (hK : 2 ≤ K) (junk Y : List ℝ) (hj : junk.length = K - 1) (st : ℕ) (a b : ℝ) (hy : ∀ i : ℕ, i < K → Y[i * st]? = some (a + b * i))
    (x0 dx : ℝ) (hdx : dx ≠ 0) :
    ∃ s, make K junk Y x0 dx st = .ok s ∧ ∀ x, |(x - x0) / dx| < 2147483648 → s.call K x = .ok (a + b * ((x - x0) / dx)) := by
  obtain ⟨s, e, h, -⟩ := code_ok K hK junk Y hj st (fun i => a + b * i) hy x0 dx hdx
  refine ⟨s, e, fun x hx => ?_⟩
  rw [h x hx, S_line _ a b (fun _ => rfl)]

/-- Four knots, every second element of the array. -/
example : ∀ i, i < 4 → ([1, 7, 5, 7, 2, 7, 0] : List ℝ)[i * 2]? = some ((fun i => ([1, 5, 2, 0] : List ℝ).getD i 0) i) := by
  intro i hi
  interval_cases i <;> rfl

example : ∀ i : ℕ, i < 3 → ([1, 3, 5] : List ℝ)[i * 1]? = some (1 + 2 * (i : ℝ)) := by
  intro i hi
  interval_cases i <;> norm_num

end NaturalSpline
end DSP
