import Verif.Model.SplineIeee
import Verif.Props.NaturalSplineError
import Verif.Props.HermiteSplineError
import Verif.Props.Range

/-!
# Splines with infinities and NaN, and at the limits of the range (C128)
-/

namespace DSP

open Ieee Silence Range

namespace NaturalSpline.Any

section
variable {V : Type} [Zero V] [Add V] [Sub V] [Mul V] [Neg V] [Div V] [IntCast V] [BEq V]

/-! ### The recursions as computed, in any arithmetic -/

variable (V) in
def ub : ℕ → V
  | 0 => ((0 : ℤ) : V)
  | i + 1 => ((1 : ℤ) : V) / (((4 : ℤ) : V) - ub i)

def zb (y : ℕ → V) : ℕ → V
  | 0 => ((0 : ℤ) : V)
  | i + 1 => (((3 : ℤ) : V) * (y (i + 2) - ((2 : ℤ) : V) * y (i + 1) + y i) - zb y i) / (((4 : ℤ) : V) - ub V i)

def crb (y : ℕ → V) (K : ℕ) : ℕ → V
  | 0 => ((0 : ℤ) : V)
  | j + 1 => zb y (K - 2 - j) - ub V (K - 2 - j) * crb y K j

def cb (y : ℕ → V) (K i : ℕ) : V := crb y K (K - 1 - i)

def bb (y : ℕ → V) (K k : ℕ) : V := y (k + 1) - y k - (cb y K (k + 1) + ((2 : ℤ) : V) * cb y K k) / ((3 : ℤ) : V)

def db (y : ℕ → V) (K k : ℕ) : V := (cb y K (k + 1) - cb y K k) / ((3 : ℤ) : V)

theorem cb_rec (y : ℕ → V) (K i : ℕ) (h : i + 2 ≤ K) : cb y K i = zb y i - ub V i * cb y K (i + 1) := by
  unfold cb
  obtain ⟨j, hj⟩ : ∃ j, K - 1 - i = j + 1 := ⟨K - 2 - i, by omega⟩
  rw [hj, crb, show K - 1 - (i + 1) = j by omega, show K - 2 - j = i by omega]

theorem fdiv_any (a b : V) (h : (b == 0) = false) : Fir.Rounded.fdiv a b = .ok (a / b) := by
  simp only [Fir.Rounded.fdiv, h, M.ite, Bool.false_eq_true, if_false]
  rfl

theorem getElem_set {l : List V} {n : ℕ} (i : ℕ) (v : V) (hl : l.length = n) (hi : i < n) : (l.set i v)[i]? = some v := by
  rw [List.getElem?_set, if_pos rfl, if_pos (by omega)]

variable (y : ℕ → V) (K : ℕ)

theorem forward_ok (hl : ∀ i, ((((4 : ℤ) : V) - ub V i) == 0) = false) (hK : 2 ≤ K) (Y : List V) (st : ℕ) (hy : ∀ i, i < K → rd Y ((i : ℤ) * st) = .ok (y i)) (U Z : List V)
    (hU : U.length = K - 1) (hZ : Z.length = K - 1) (hU0 : U[0]? = some (ub V 0)) (hZ0 : Z[0]? = some (zb y 0)) :
    ∃ U' Z', (List.range (K - 2)).foldlM (fun s (j : ℕ) => Rounded.forward Y st s (j + 1)) (U, Z) = .ok (U', Z') ∧
      (∀ i, i < K - 1 → U'[i]? = some (ub V i) ∧ Z'[i]? = some (zb y i)) := by
  obtain ⟨⟨U', Z'⟩, e, h1, h2, h3⟩ := foldlM_inv
    (fun k (s : List V × List V) => s.1.length = K - 1 ∧ s.2.length = K - 1 ∧ ∀ i, i ≤ k → i < K - 1 → s.1[i]? = some (ub V i) ∧ s.2[i]? = some (zb y i))
    (fun s (j : ℕ) => Rounded.forward Y st s (j + 1)) (K - 2) (U, Z)
    ⟨hU, hZ, fun i hi _ => by obtain rfl : i = 0 := by omega
                              exact ⟨hU0, hZ0⟩⟩
    (by
      rintro k hk ⟨U, Z⟩ ⟨h1, h2, h3⟩
      simp only at h1 h2 h3
      refine ⟨(U.set (k + 1) (ub V (k + 1)), Z.set (k + 1) (zb y (k + 1))), ?_, by simp [h1], by simp [h2], ?_⟩
      · have e1 : ((k : ℤ) + 1 - 1) = k := by ring
        have y2 : rd Y (((k : ℤ) + 1 + 1) * st) = .ok (y (k + 2)) := by rw [← hy (k + 2) (by omega)]; congr 1
        have y1 : rd Y (((k : ℤ) + 1) * st) = .ok (y (k + 1)) := by rw [← hy (k + 1) (by omega)]; congr 1
        have y0 : rd Y ((k : ℤ) * st) = .ok (y k) := hy k (by omega)
        simp only [Rounded.forward, e1, bind, Except.bind, pure, Except.pure, y0, y1, y2]
        rw [rd_of_getElem? (by omega) (by simpa using (h3 k le_rfl (by omega)).1)]
        simp only []
        rw [fdiv_any _ _ (hl k)]
        simp only []
        rw [show ((k : ℤ) + 1) = ((k + 1 : ℕ) : ℤ) by push_cast; ring, wr_nat (by omega)]
        simp only []
        rw [rd_of_getElem? (by omega) (by simpa using (h3 k le_rfl (by omega)).2)]
        simp only []
        rw [fdiv_any _ _ (hl k)]
        simp only []
        rw [wr_nat (by omega)]
        rfl
      · intro i hi hi2
        simp only [List.getElem?_set]
        by_cases c : k + 1 = i
        · subst c
          rw [if_pos rfl, if_pos rfl, if_pos (by omega), if_pos (by omega)]
          exact ⟨rfl, rfl⟩
        · rw [if_neg c, if_neg c]; exact h3 i (by omega) hi2)
  exact ⟨U', Z', e, fun i hi => h3 i (by omega) hi⟩

theorem backward_ok (h3 : (((3 : ℤ) : V) == 0) = false) (hK : 2 ≤ K) (Y : List V) (st : ℕ) (hy : ∀ i, i < K → rd Y ((i : ℤ) * st) = .ok (y i)) (U Z junk : List V)
    (hj : junk.length = K - 1) (hUZ : ∀ i, i < K - 1 → U[i]? = some (ub V i) ∧ Z[i]? = some (zb y i)) :
    ∃ s, (List.range (K - 1)).foldlM (fun s (j : ℕ) => Rounded.backward Y st U Z s (K - 2 - j)) ⟨junk, junk, junk, junk, ((0 : ℤ) : V)⟩ = .ok s ∧
      ∀ i, i < K - 1 → s.A[i]? = some (y i) ∧ s.B[i]? = some (bb y K i) ∧ s.C[i]? = some (cb y K i) ∧ s.D[i]? = some (db y K i) := by
  obtain ⟨s, e, -, -, -, -, -, h⟩ := foldlM_inv
    (fun k (s : Rounded.Tables V) => s.A.length = K - 1 ∧ s.B.length = K - 1 ∧ s.C.length = K - 1 ∧ s.D.length = K - 1 ∧ s.c = cb y K (K - 1 - k) ∧
      ∀ i, K - 1 ≤ i + k → i < K - 1 → s.A[i]? = some (y i) ∧ s.B[i]? = some (bb y K i) ∧ s.C[i]? = some (cb y K i) ∧ s.D[i]? = some (db y K i))
    (fun s (j : ℕ) => Rounded.backward Y st U Z s (K - 2 - j)) (K - 1) ⟨junk, junk, junk, junk, ((0 : ℤ) : V)⟩
    ⟨hj, hj, hj, hj, by simp [cb, crb], fun i h1 h2 => by omega⟩
    (by
      rintro k hk ⟨A, B, C, D, c⟩ ⟨hA, hB, hC, hD, hc, h⟩
      simp only at hA hB hC hD hc h
      obtain ⟨i, hi⟩ : ∃ i, i + k = K - 2 := ⟨K - 2 - k, by omega⟩
      have ei : (K : ℤ) - 2 - k = (i : ℕ) := by omega
      have hc : c = cb y K (i + 1) := by rw [hc]; congr 1; omega
      have hci : zb y i - ub V i * c = cb y K i := by rw [hc, ← cb_rec y K i (by omega)]
      refine ⟨⟨A.set i (y i), B.set i (bb y K i), C.set i (cb y K i), D.set i (db y K i), cb y K i⟩, ?_, by simp [hA], by simp [hB], by simp [hC],
        by simp [hD], by simp only; congr 1; omega, ?_⟩
      · have y1 : rd Y (((i : ℤ) + 1) * st) = .ok (y (i + 1)) := by rw [← hy (i + 1) (by omega)]; congr 1
        have y0 : rd Y ((i : ℤ) * st) = .ok (y i) := hy i (by omega)
        have hCi : rd (C.set i (cb y K i)) (i : ℤ) = .ok (cb y K i) :=
          rd_of_getElem? (by omega) (by rw [Int.toNat_natCast]; exact getElem_set i _ hC (by omega))
        simp only [Rounded.backward, ei, bind, Except.bind, pure, Except.pure, y0, y1]
        rw [wr_nat (by omega), rd_of_getElem? (by omega) (by simpa using (hUZ i (by omega)).2),
          rd_of_getElem? (by omega) (by simpa using (hUZ i (by omega)).1)]
        simp only [hci]
        rw [wr_nat (by omega)]
        simp only [hCi]
        rw [fdiv_any _ _ h3]
        simp only []
        rw [wr_nat (by omega)]
        simp only []
        rw [fdiv_any _ _ h3]
        simp only []
        rw [wr_nat (by omega)]
        simp only [hc]
        rfl
      · intro j h1 h2
        simp only [List.getElem?_set]
        by_cases cj : i = j
        · subst cj
          simp only [if_true, hA, hB, hC, hD, h2]
          exact ⟨trivial, trivial, trivial, trivial⟩
        · simp only [if_neg cj]; exact h j (by omega) h2)
  exact ⟨s, e, fun i hi => h i (by omega) hi⟩

/-- The piece that is used for the integer part `k` of a position. -/
def piece (K : ℕ) (k : ℤ) : ℕ := if k < 0 then 0 else if (K : ℤ) - 1 ≤ k then K - 2 else k.toNat

/-- The offset into it. -/
def offset (K : ℕ) (τ : V) (k : ℤ) : V := if k < 0 then τ else if (K : ℤ) - 1 ≤ k then τ - (((K : ℤ) - 2 : ℤ) : V) else τ - (k : V)

theorem locate_ok (hK : 2 ≤ K) (τ : V) (k : ℤ) : Rounded.locate K τ k = (offset K τ k, (piece K k : ℤ)) ∧ piece K k + 2 ≤ K := by
  unfold Rounded.locate offset piece
  by_cases c : k < 0
  · simp only [if_pos c]
    rw [if_neg (by omega)]
    exact ⟨rfl, by omega⟩
  · simp only [if_neg c]
    by_cases c2 : (K : ℤ) - 1 ≤ k
    · simp only [ge_iff_le, if_pos c2]
      refine ⟨?_, by omega⟩
      rw [show ((K - 2 : ℕ) : ℤ) = (K : ℤ) - 2 by omega]
    · simp only [ge_iff_le, if_neg c2]
      refine ⟨?_, by omega⟩
      rw [show ((k.toNat : ℕ) : ℤ) = k by omega]

/-- What an object made from data computes. -/
theorem code_ok (hl : ∀ i, ((((4 : ℤ) : V) - ub V i) == 0) = false) (h3 : (((3 : ℤ) : V) == 0) = false) (hK : 2 ≤ K) (junk Y : List V) (hj : junk.length = K - 1) (st : ℕ)
    (hy : ∀ i, i < K → Y[i * st]? = some (y i)) (x0 dx : V) :
    ∃ s, Rounded.make K junk Y x0 dx st = .ok s ∧ s.x0 = x0 ∧ s.dx = dx ∧ ∀ (trunc : V → ℤ) (x τ : V) (k : ℤ), Fir.Rounded.fdiv (x - x0) dx = .ok τ → int32 (trunc τ) = .ok k →
      s.call trunc K x = .ok (y (piece K k) + offset K τ k * (bb y K (piece K k) + offset K τ k * (cb y K (piece K k) + offset K τ k * db y K (piece K k)))) := by
  have hy' : ∀ i, i < K → rd Y ((i : ℤ) * st) = .ok (y i) := fun i hi => by
    have : ((i : ℤ) * st) = ((i * st : ℕ) : ℤ) := by push_cast; ring
    rw [this, rd_of_getElem? (by omega) (by rw [Int.toNat_natCast]; exact hy i hi)]
  have w0 : wr junk 0 ((0 : ℤ) : V) = .ok (junk.set 0 ((0 : ℤ) : V)) := wr_nat (i := 0) (by omega)
  have g0 : (junk.set 0 ((0 : ℤ) : V))[0]? = some ((0 : ℤ) : V) := getElem_set 0 _ hj (by omega)
  obtain ⟨U, Z, e1, hUZ⟩ := forward_ok y K hl hK Y st hy' (junk.set 0 ((0 : ℤ) : V)) (junk.set 0 ((0 : ℤ) : V)) (by simp [hj]) (by simp [hj]) g0 g0
  obtain ⟨t, e2, ht⟩ := backward_ok y K h3 hK Y st hy' U Z junk hj hUZ
  refine ⟨⟨t.A, t.B, t.C, t.D, x0, dx⟩, ?_, rfl, rfl, ?_⟩
  · simp only [Rounded.make, w0, bind, Except.bind, pure, Except.pure]
    simp only [e1, e2]
  · intro trunc x τ k e3 e4
    obtain ⟨l1, l2⟩ := locate_ok K hK τ k
    obtain ⟨a1, a2, a3, a4⟩ := ht (piece K k) (by omega)
    simp only [Rounded.call, bind, Except.bind, pure, Except.pure, e3, e4, l1]
    rw [rd_of_getElem? (by omega) (by simpa using a1), rd_of_getElem? (by omega) (by simpa using a2), rd_of_getElem? (by omega) (by simpa using a3),
      rd_of_getElem? (by omega) (by simpa using a4)]

end
end NaturalSpline.Any

namespace SplineSpecial

variable {F : Format}

/-! ### Positions -/

theorem fdiv_finite (a b : Ieee F) (h : (a / b).Finite) : Fir.Rounded.fdiv a b = .ok (a / b) := by
  refine NaturalSpline.Any.fdiv_any a b ?_
  rcases b with _ | t | ⟨t, m⟩
  · rfl
  · rfl
  · show decide (signed t m = signed false 0) = false
    rw [decide_eq_false_iff_not, signed_zero]
    intro e
    have hm : m = 0 := by
      have := signed_abs t m
      rw [e, abs_zero] at this
      exact abs_eq_zero.mp this.symm
    subst hm
    rcases a with _ | s | ⟨s, m⟩
    · exact h
    · exact h
    · have : ((num s m / num t 0 : Ieee F)) = if m = 0 then nan else inf (s ^^ t) := rfl
      rw [this] at h
      split at h <;> exact h

theorem fdiv_or (a b : Ieee F) : Fir.Rounded.fdiv a b = .ok (a / b) ∨ Fir.Rounded.fdiv a b = .error .divZero := by
  unfold Fir.Rounded.fdiv M.ite
  by_cases h : (b == 0) = true
  · right; rw [if_pos h]
  · left; rw [if_neg h]; rfl

theorem trunc_bad (a : Ieee F) (h : ¬a.Finite) : int32 a.trunc = .error .overflow := by
  rcases a with _ | s | ⟨s, m⟩
  · rfl
  · rfl
  · exact absurd trivial h

theorem trunc_ok (a : Ieee F) (h : a.Finite) (hs : |a.val| < 2147483648) : int32 a.trunc = .ok a.trunc ∧ (0 ≤ a.val → a.trunc = ⌊a.val⌋) ∧ (a.val < 0 → a.trunc = ⌈a.val⌉ ∧ a.trunc ≤ 0) := by
  obtain ⟨s, m, rfl⟩ := (finite_iff a).mp h
  have e : (num s m : Ieee F).trunc = if signed s m < 0 then ⌈signed s m⌉ else ⌊signed s m⌋ := rfl
  rw [e]
  simp only [val] at hs ⊢
  generalize signed s m = v at hs ⊢
  rw [abs_lt] at hs
  by_cases c : v < 0
  · rw [if_pos c]
    have h1 : ⌈v⌉ ≤ 0 := Int.ceil_le.mpr (by push_cast; linarith)
    have h2 : -2147483648 < ⌈v⌉ := by rw [Int.lt_ceil]; push_cast; linarith
    exact ⟨by rw [int32, if_pos ⟨by omega, by omega⟩], fun h => absurd c (not_lt.mpr h), fun _ => ⟨rfl, h1⟩⟩
  · rw [if_neg c]
    have h1 : 0 ≤ ⌊v⌋ := Int.floor_nonneg.mpr (not_lt.mp c)
    have h2 : ⌊v⌋ < 2147483648 := by rw [Int.floor_lt]; exact_mod_cast hs.2
    exact ⟨by rw [int32, if_pos ⟨by omega, by omega⟩], fun _ => rfl, fun h => absurd h c⟩

/-! ### The constants of the natural spline -/

theorem within_of (hp : 0 < F.p) {B : ℚ} (hB : Fits F B) (hlt : B < 2 ^ F.emax) {v x : ℚ} (h : |x| ≤ B) (hv : v = roundTo F x) : |v| ≤ B ∧ |roundTo F x| < 2 ^ F.emax := by
  have : |roundTo F x| ≤ B := by rw [roundTo_abs hp]; exact roundTo_le hp _ _ hB h
  exact ⟨by rw [hv]; exact this, this.trans_lt hlt⟩

theorem sub_within (hp : 0 < F.p) {B : ℚ} (hB : Fits F B) (hlt : B < 2 ^ F.emax) {a b : Ieee F} (fa : a.Finite) (fb : b.Finite) (h : |a.val - b.val| ≤ B) : Within B (a - b) ∧ (a - b).val = roundTo F (a.val - b.val) := by
  have e : a.val + (-b).val = a.val - b.val := by rw [neg_val, sub_eq_add_neg]
  have hr := (within_of hp hB hlt h rfl)
  have fin : (a + -b).Finite := (add_finite a (-b) fa (neg_finite b fb)).mpr (by rw [e]; exact hr.2)
  have hv := add_val hp a (-b) fa (neg_finite b fb) fin
  rw [e] at hv
  exact ⟨⟨fin, add_valid hp _ _, by show |(a + -b).val| ≤ B; rw [hv]; exact hr.1⟩, hv⟩

theorem plus_within (hp : 0 < F.p) {B : ℚ} (hB : Fits F B) (hlt : B < 2 ^ F.emax) {a b : Ieee F} (fa : a.Finite) (fb : b.Finite) (h : |a.val + b.val| ≤ B) : Within B (a + b) := by
  have hr := (within_of hp hB hlt h rfl)
  have fin : (a + b).Finite := (add_finite a b fa fb).mpr hr.2
  exact ⟨fin, add_valid hp _ _, by rw [add_val hp a b fa fb fin]; exact hr.1⟩

theorem mul_within (hp : 0 < F.p) {B : ℚ} (hB : Fits F B) (hlt : B < 2 ^ F.emax) {a b : Ieee F} (fa : a.Finite) (fb : b.Finite) (va : a.Valid) (vb : b.Valid) (h : |a.val * b.val| ≤ B) : Within B (a * b) ∧ (a * b).val = roundTo F (a.val * b.val) := by
  have hr := (within_of hp hB hlt h rfl)
  have fin : (a * b).Finite := (mul_finite a b fa fb).mpr hr.2
  exact ⟨⟨fin, mul_valid hp _ _, by rw [mul_val hp a b fa fb va vb fin]; exact hr.1⟩, mul_val hp a b fa fb va vb fin⟩

theorem quot_within (hp : 0 < F.p) {B : ℚ} (hB : Fits F B) (hlt : B < 2 ^ F.emax) {a b : Ieee F} (fa : a.Finite) (fb : b.Finite) (va : a.Valid) (vb : b.Valid) (h0 : b.val ≠ 0) (h : |a.val / b.val| ≤ B) :
    Within B (a / b) ∧ (a / b).val = roundTo F (a.val / b.val) := by
  have hr := (within_of hp hB hlt h rfl)
  have fin : (a / b).Finite := (div_finite a b fa fb h0).mpr hr.2
  have e := div_val hp a b fa fb va vb fin h0
  exact ⟨⟨fin, div_valid hp _ _, by rw [e]; exact hr.1⟩, e⟩

theorem small (u : Usual F) (n : ℕ) (hn : n < 16) : ((n : ℤ) : Ieee F).Finite ∧ ((n : ℤ) : Ieee F).Valid ∧ ((n : ℤ) : Ieee F).val = n := by
  have hp : 0 < F.p := by have := u.p; omega
  have h16 : (16 : ℤ) ≤ 2 ^ F.p := by
    calc (16 : ℤ) = 2 ^ 4 := by norm_num
      _ ≤ 2 ^ F.p := pow_le_pow_right₀ (by norm_num) u.p
  obtain ⟨a, b, c⟩ := cast_exact hp (by have := u.emin; omega) u.emax (n : ℤ) (by rw [Nat.abs_cast]; omega)
  exact ⟨a, b, by rw [c]; norm_num⟩

theorem sixteen_lt (u : Usual F) : (15 : ℚ) < 2 ^ F.emax := by
  have h1 := u.p
  have h2 := u.emax
  calc (15 : ℚ) < 2 ^ (4 : ℤ) := by norm_num
    _ ≤ 2 ^ F.emax := zpow_le_zpow_right₀ (by norm_num) (by omega)

open NaturalSpline.Any in
/-- The divisors are between three and a half and four, the factors at most one half. -/
theorem factors (u : Usual F) (i : ℕ) : (ub (Ieee F) i).Finite ∧ (ub (Ieee F) i).Valid ∧ 0 ≤ (ub (Ieee F) i).val ∧ (ub (Ieee F) i).val ≤ 1 / 2 ∧
    (((4 : ℤ) : Ieee F) - ub (Ieee F) i).Finite ∧ (((4 : ℤ) : Ieee F) - ub (Ieee F) i).Valid ∧ 7 / 2 ≤ (((4 : ℤ) : Ieee F) - ub (Ieee F) i).val ∧ (((4 : ℤ) : Ieee F) - ub (Ieee F) i).val ≤ 4 := by
  have hp : 0 < F.p := by have := u.p; omega
  have h16 := sixteen_lt u
  have f4 : Fits F 4 := by have := u.fits 4 0 (by have := u.sixteen; rw [abs_of_nonneg (by norm_num)]; omega) (by omega); norm_num at this; exact this
  have f72 : Fits F (7 / 2) := by have := u.fits 7 1 (by have := u.sixteen; rw [abs_of_nonneg (by norm_num)]; omega) (by omega); norm_num at this; exact this
  have f12 : Fits F (1 / 2) := by have := u.fits 1 1 (by have := u.sixteen; rw [abs_of_nonneg (by norm_num)]; omega) (by omega); rw [Int.cast_one, pow_one] at this; exact this
  obtain ⟨a4, b4, c4⟩ := small u 4 (by norm_num)
  obtain ⟨a1, b1, c1⟩ := small u 1 (by norm_num)
  obtain ⟨a0, b0, c0⟩ := small u 0 (by norm_num)
  have step : ∀ v : Ieee F, v.Finite → 0 ≤ v.val → v.val ≤ 1 / 2 → (((4 : ℤ) : Ieee F) - v).Finite ∧ (((4 : ℤ) : Ieee F) - v).Valid ∧ 7 / 2 ≤ (((4 : ℤ) : Ieee F) - v).val ∧ (((4 : ℤ) : Ieee F) - v).val ≤ 4 := by
    intro v fv h0 h1
    have c4' : ((4 : ℤ) : Ieee F).val = 4 := by exact_mod_cast c4
    obtain ⟨w, e⟩ := sub_within hp f4 (by linarith) (a := ((4 : ℤ) : Ieee F)) (b := v) a4 fv (by rw [c4', abs_le]; constructor <;> linarith)
    rw [c4'] at e
    refine ⟨w.1, w.2.1, ?_, ?_⟩
    · rw [e]; exact le_roundTo hp _ _ f72 (by linarith)
    · rw [e]; exact roundTo_le hp _ _ f4 (by linarith)
  have main : (ub (Ieee F) i).Finite ∧ (ub (Ieee F) i).Valid ∧ 0 ≤ (ub (Ieee F) i).val ∧ (ub (Ieee F) i).val ≤ 1 / 2 := by
    induction i with
    | zero =>
      have c0' : ((0 : ℤ) : Ieee F).val = 0 := by exact_mod_cast c0
      exact ⟨a0, b0, by show 0 ≤ ((0 : ℤ) : Ieee F).val; rw [c0'], by show ((0 : ℤ) : Ieee F).val ≤ 1 / 2; rw [c0']; norm_num⟩
    | succ i ih =>
      obtain ⟨s1, s2, s3, s4⟩ := step _ ih.1 ih.2.2.1 ih.2.2.2
      have c1' : ((1 : ℤ) : Ieee F).val = 1 := by exact_mod_cast c1
      have hpos : 0 < (((4 : ℤ) : Ieee F) - ub (Ieee F) i).val := by linarith
      have hle : 1 / (((4 : ℤ) : Ieee F) - ub (Ieee F) i).val ≤ 1 / 2 := by
        rw [div_le_div_iff₀ hpos (by norm_num)]; linarith
      obtain ⟨w, e⟩ := quot_within hp f12 (by linarith) (a := ((1 : ℤ) : Ieee F)) a1 s1 b1 s2 hpos.ne' (by rw [c1', abs_of_nonneg (by positivity)]; exact hle)
      rw [c1'] at e
      refine ⟨w.1, w.2.1, ?_, ?_⟩
      · show 0 ≤ (((1 : ℤ) : Ieee F) / (((4 : ℤ) : Ieee F) - ub (Ieee F) i)).val
        rw [e]; exact roundTo_nonneg hp _ (by positivity)
      · exact (le_abs_self _).trans w.2.2
  exact ⟨main.1, main.2.1, main.2.2.1, main.2.2.2, step _ main.1 main.2.2.1 main.2.2.2⟩

theorem beq_zero_false {a : Ieee F} (h : a.Finite) (h0 : a.val ≠ 0) : (a == 0) = false := by
  obtain ⟨s, m, rfl⟩ := (finite_iff a).mp h
  show decide (signed s m = signed false 0) = false
  rw [decide_eq_false_iff_not, signed_zero]
  exact h0

open NaturalSpline.Any in
theorem divisor (u : Usual F) (i : ℕ) : ((((4 : ℤ) : Ieee F) - ub (Ieee F) i) == 0) = false := by
  obtain ⟨-, -, -, -, h1, -, h2, -⟩ := factors u i
  exact beq_zero_false h1 (by intro h; rw [h] at h2; norm_num at h2)

theorem three (u : Usual F) : (((3 : ℤ) : Ieee F) == 0) = false := by
  obtain ⟨a, -, c⟩ := small u 3 (by norm_num)
  exact beq_zero_false a (by have : ((3 : ℤ) : Ieee F).val = 3 := by exact_mod_cast c
                             rw [this]; norm_num)

/-! ### Values that are not finite -/

open NaturalSpline.Any

theorem zb_bad (y : ℕ → Ieee F) (K j : ℕ) (hK : 3 ≤ K) (hj : j < K) (hb : ¬(y j).Finite) : ¬(zb y (K - 2)).Finite := by
  have start : ∃ i, i + 3 ≤ K ∧ ¬(zb y (i + 1)).Finite := by
    refine ⟨if j = 0 then 0 else if j = K - 1 then K - 3 else j - 1, by split_ifs <;> omega, ?_⟩
    rw [zb]
    refine div_bad _ _ (sub_bad_left _ _ (mul_bad_right _ _ ?_))
    split_ifs with c1 c2
    · subst c1; exact add_bad_right _ _ hb
    · exact add_bad_left _ _ (sub_bad_left _ _ (by rw [show K - 3 + 2 = j by omega]; exact hb))
    · exact add_bad_left _ _ (sub_bad_right _ _ (mul_bad_right _ _ (by rw [show j - 1 + 1 = j by omega]; exact hb)))
  obtain ⟨i, hi, h⟩ := start
  have go : ∀ d, ¬(zb y (i + 1 + d)).Finite := by
    intro d
    induction d with
    | zero => exact h
    | succ d ih => rw [← Nat.add_assoc, zb]; exact div_bad _ _ (sub_bad_right _ _ ih)
  have := go (K - 3 - i)
  rwa [show i + 1 + (K - 3 - i) = K - 2 by omega] at this

theorem cb_bad (y : ℕ → Ieee F) (K j : ℕ) (hK : 3 ≤ K) (hj : j < K) (hb : ¬(y j).Finite) (i : ℕ) (hi : i + 2 ≤ K) : ¬(cb y K i).Finite := by
  have go : ∀ d, d + 2 ≤ K → ¬(cb y K (K - 2 - d)).Finite := by
    intro d hd
    rw [cb_rec y K _ (by omega)]
    induction d with
    | zero => exact sub_bad_left _ _ (zb_bad y K j hK hj hb)
    | succ d ih =>
      have := ih (by omega)
      rw [← cb_rec y K _ (by omega)] at this
      exact sub_bad_right _ _ (mul_bad_right _ _ (by rw [show K - 2 - (d + 1) + 1 = K - 2 - d by omega]; exact this))
  have := go (K - 2 - i) (by omega)
  rwa [show K - 2 - (K - 2 - i) = i by omega] at this

end SplineSpecial

open SplineSpecial NaturalSpline.Any

variable {F : Format}

namespace NaturalSpline

/-- **C128** One infinite or NaN datum ruins the natural spline everywhere: no evaluation at any position that can be converted to `int`, near to the datum or far from it, gives a finite value. -/
theorem C128_ruined (u : Usual F) (K : ℕ) (hK : 2 ≤ K) (junk Y : List (Ieee F)) (hj : junk.length = K - 1) (st : ℕ) (y : ℕ → Ieee F) (hy : ∀ i, i < K → Y[i * st]? = some (y i)) (x0 dx : Ieee F)
    (j : ℕ) (hjK : j < K) (hb : ¬(y j).Finite) :
    ∃ s, Rounded.make K junk Y x0 dx st = .ok s ∧ ∀ x, ((x - x0) / dx).Finite → |((x - x0) / dx).val| < 2147483648 → ∃ r, s.call Ieee.trunc K x = .ok r ∧ ¬r.Finite := by
  obtain ⟨s, h1, -, -, h2⟩ := Any.code_ok y K (divisor u) (three u) hK junk Y hj st hy x0 dx
  refine ⟨s, h1, fun x hf hs => ?_⟩
  refine ⟨_, h2 Ieee.trunc x _ _ (fdiv_finite _ _ hf) (SplineSpecial.trunc_ok _ hf hs).1, ?_⟩
  generalize hk : ((x - x0) / dx).trunc = k
  have hp := (NaturalSpline.Any.locate_ok K hK ((x - x0) / dx) k).2
  by_cases c : K = 2
  · subst c
    have e : piece 2 k = 0 := by omega
    rw [e]
    by_cases c0 : j = 0
    · subst c0; exact add_bad_left _ _ hb
    · obtain rfl : j = 1 := by omega
      exact add_bad_right _ _ (mul_bad_right _ _ (add_bad_left _ _ (sub_bad_left _ _ (sub_bad_left _ _ hb))))
  · exact add_bad_right _ _ (mul_bad_right _ _ (add_bad_right _ _ (mul_bad_right _ _ (add_bad_left _ _ (cb_bad y K j (by omega) hjK hb _ hp)))))

/-- **C128** Where the position is infinite or NaN (because the argument is, or the origin, or the step is zero or NaN), its conversion to `int` is undefined. -/
theorem C128_nowhere (s : NaturalSpline.Rounded (Ieee F)) (K : ℕ) (x : Ieee F) (h : ¬((x - s.x0) / s.dx).Finite) : ∃ e, s.call Ieee.trunc K x = .error e := by
  simp only [Rounded.call, bind, Except.bind, pure, Except.pure]
  rcases fdiv_or (x - s.x0) s.dx with e | e <;> rw [e]
  · simp only [trunc_bad _ h]
    exact ⟨_, rfl⟩
  · exact ⟨_, rfl⟩

end NaturalSpline

/-! ### The range -/

namespace SplineSpecial

variable (u : Usual F) (k : ℤ) (hk : F.emin ≤ k) (hmax : k + 5 ≤ F.emax) (h5 : 5 ≤ F.p)
include u hk hmax h5

omit u hmax in
theorem multiple (n : ℕ) (hn : n ≤ 32) : Fits F (n * 2 ^ k) := by
  refine fits_multiple (by omega) n (hn.trans ?_) k hk
  calc 32 = 2 ^ 5 := by norm_num
    _ ≤ 2 ^ F.p := Nat.pow_le_pow_right (by norm_num) h5

omit u hk h5 in
theorem below (n : ℕ) (hn : n < 32) : (n : ℚ) * 2 ^ k < 2 ^ F.emax := by
  calc (n : ℚ) * 2 ^ k < 2 ^ (5 : ℤ) * 2 ^ k := mul_lt_mul_of_pos_right (by norm_num; exact_mod_cast hn) (by positivity)
    _ = 2 ^ (5 + k) := (zpow_add₀ (by norm_num) _ _).symm
    _ ≤ 2 ^ F.emax := zpow_le_zpow_right₀ (by norm_num) (by omega)

/-- Multiples of the largest datum. -/
abbrev Size (F : Format) (k : ℤ) (n : ℕ) (a : Ieee F) : Prop := Within (n * 2 ^ k) a

variable {a b : Ieee F} {m n : ℕ}

omit u in
theorem Size.add (ha : Size F k m a) (hb : Size F k n b) (l : ℕ) (hl : m + n ≤ l) (hl2 : l < 32) : Size F k l (a + b) := by
  refine plus_within (by omega) (multiple k hk h5 l (by omega)) (below k hmax l hl2) ha.1 hb.1 ?_
  have h : ((m : ℚ) + n) * 2 ^ k ≤ l * 2 ^ k := mul_le_mul_of_nonneg_right (by exact_mod_cast hl) (by positivity)
  exact (abs_add_le _ _).trans (by linarith [ha.2.2, hb.2.2])

omit u in
theorem Size.sub (ha : Size F k m a) (hb : Size F k n b) (l : ℕ) (hl : m + n ≤ l) (hl2 : l < 32) : Size F k l (a - b) := by
  refine (sub_within (by omega) (multiple k hk h5 l (by omega)) (below k hmax l hl2) ha.1 hb.1 ?_).1
  have h : ((m : ℚ) + n) * 2 ^ k ≤ l * 2 ^ k := mul_le_mul_of_nonneg_right (by exact_mod_cast hl) (by positivity)
  exact (abs_sub _ _).trans (by linarith [ha.2.2, hb.2.2])

omit u in
theorem Size.mul (c : ℚ) (ha : Within c a) (hb : Size F k n b) (l : ℕ) (hl : c * n ≤ l) (hl2 : l < 32) : Size F k l (a * b) := by
  refine (mul_within (by omega) (multiple k hk h5 l (by omega)) (below k hmax l hl2) ha.1 hb.1 ha.2.1 hb.2.1 ?_).1
  have hc : 0 ≤ c := (abs_nonneg _).trans ha.2.2
  have h : (c * n) * 2 ^ k ≤ l * 2 ^ k := mul_le_mul_of_nonneg_right hl (by positivity)
  rw [abs_mul]
  exact (mul_le_mul ha.2.2 hb.2.2 (abs_nonneg _) hc).trans (by linarith)

omit u in
theorem Size.div (c : ℚ) (hc : 0 < c) (fb : b.Finite) (vb : b.Valid) (hb : c ≤ b.val) (ha : Size F k n a) (l : ℕ) (hl : n / c ≤ l) (hl2 : l < 32) : Size F k l (a / b) := by
  have hb0 : 0 < b.val := by linarith
  refine (quot_within (by omega) (multiple k hk h5 l (by omega)) (below k hmax l hl2) ha.1 fb ha.2.1 vb hb0.ne' ?_).1
  have h : (n / c) * 2 ^ k ≤ l * 2 ^ k := mul_le_mul_of_nonneg_right hl (by positivity)
  rw [abs_div, abs_of_pos hb0]
  calc |a.val| / b.val ≤ (n * 2 ^ k) / c := div_le_div₀ (by positivity) ha.2.2 hc hb
    _ = n / c * 2 ^ k := by ring
    _ ≤ l * 2 ^ k := h

omit hk hmax h5 in
theorem number (i : ℕ) (hi : i < 16) : Within (i : ℚ) (((i : ℕ) : ℤ) : Ieee F) := by
  obtain ⟨x, y, z⟩ := small u i hi
  exact ⟨x, y, by rw [z, Nat.abs_cast]⟩

omit hk hmax h5 in
theorem nought : Size F k 0 (((0 : ℤ) : Ieee F)) := by
  obtain ⟨x, y, z⟩ := small u 0 (by norm_num)
  refine ⟨x, y, ?_⟩
  have : ((0 : ℤ) : Ieee F).val = 0 := by exact_mod_cast z
  rw [this]; simp

variable (y : ℕ → Ieee F) (K : ℕ) (hy : ∀ i < K, Size F k 1 (y i))
include hy

theorem zb_size (i : ℕ) (hi : i + 2 ≤ K) : Size F k 5 (zb y i) := by
  induction i with
  | zero => exact ⟨(nought u k).1, (nought u k).2.1, (nought u k).2.2.trans (by push_cast; nlinarith [show (0 : ℚ) < 2 ^ k by positivity])⟩
  | succ i ih =>
    obtain ⟨-, -, -, -, f1, f2, f3, -⟩ := factors u i
    have t2 : Within ((2 : ℕ) : ℚ) (((2 : ℤ) : Ieee F)) := number u 2 (by norm_num)
    have t3 : Within ((3 : ℕ) : ℚ) (((3 : ℤ) : Ieee F)) := number u 3 (by norm_num)
    have s1 : Size F k 2 _ := Size.mul k hk hmax h5 _ t2 (hy (i + 1) (by omega)) 2 (by norm_num) (by norm_num)
    have s2 : Size F k 3 _ := Size.sub k hk hmax h5 (hy (i + 2) (by omega)) s1 3 (by norm_num) (by norm_num)
    have s3 : Size F k 4 _ := Size.add k hk hmax h5 s2 (hy i (by omega)) 4 (by norm_num) (by norm_num)
    have s4 : Size F k 12 _ := Size.mul k hk hmax h5 _ t3 s3 12 (by norm_num) (by norm_num)
    have s5 : Size F k 17 _ := Size.sub k hk hmax h5 s4 (ih (by omega)) 17 (by norm_num) (by norm_num)
    exact Size.div k hk hmax h5 (7 / 2) (by norm_num) f1 f2 f3 s5 5 (by norm_num) (by norm_num)

theorem cb_size (i : ℕ) (hi : i + 1 ≤ K) : Size F k 10 (cb y K i) := by
  have base : Size F k 10 (((0 : ℤ) : Ieee F)) := ⟨(nought u k).1, (nought u k).2.1, (nought u k).2.2.trans (by push_cast; nlinarith [show (0 : ℚ) < 2 ^ k by positivity])⟩
  have go : ∀ d, d + 1 ≤ K → Size F k 10 (cb y K (K - 1 - d)) := by
    intro d hd
    induction d with
    | zero =>
      have e : cb y K (K - 1 - 0) = ((0 : ℤ) : Ieee F) := by simp [cb, crb]
      rw [e]; exact base
    | succ d ih =>
      rw [cb_rec y K _ (by omega), show K - 1 - (d + 1) + 1 = K - 1 - d by omega]
      obtain ⟨f1, f2, f3, f4, -⟩ := factors u (K - 1 - (d + 1))
      have s1 : Size F k 5 _ := Size.mul k hk hmax h5 (1 / 2) ⟨f1, f2, by rw [abs_of_nonneg f3]; exact f4⟩ (ih (by omega)) 5 (by norm_num) (by norm_num)
      exact Size.sub k hk hmax h5 (zb_size u k hk hmax h5 y K hy _ (by omega)) s1 10 (by norm_num) (by norm_num)
  have := go (K - 1 - i) (by omega)
  rwa [show K - 1 - (K - 1 - i) = i by omega] at this

/-- The value of a piece, at offsets between zero and one. -/
theorem value_size (i : ℕ) (hi : i + 2 ≤ K) (t : Ieee F) (ht : Within 1 t) : Size F k 30 (y i + t * (bb y K i + t * (cb y K i + t * db y K i))) := by
  have t2 : Within ((2 : ℕ) : ℚ) (((2 : ℤ) : Ieee F)) := number u 2 (by norm_num)
  obtain ⟨a3, b3, c3⟩ := small u 3 (by norm_num)
  have c3' : (3 : ℚ) ≤ ((3 : ℤ) : Ieee F).val := by
    have : ((3 : ℤ) : Ieee F).val = 3 := by exact_mod_cast c3
    rw [this]
  have C0 := cb_size u k hk hmax h5 y K hy i (by omega)
  have C1 := cb_size u k hk hmax h5 y K hy (i + 1) (by omega)
  have d1 : Size F k 20 _ := Size.sub k hk hmax h5 C1 C0 20 (by norm_num) (by norm_num)
  have d2 : Size F k 7 (db y K i) := Size.div k hk hmax h5 3 (by norm_num) a3 b3 c3' d1 7 (by norm_num) (by norm_num)
  have b1 : Size F k 20 _ := Size.mul k hk hmax h5 _ t2 C0 20 (by norm_num) (by norm_num)
  have b2 : Size F k 30 _ := Size.add k hk hmax h5 C1 b1 30 (by norm_num) (by norm_num)
  have b4 : Size F k 10 _ := Size.div k hk hmax h5 3 (by norm_num) a3 b3 c3' b2 10 (by norm_num) (by norm_num)
  have b5 : Size F k 2 _ := Size.sub k hk hmax h5 (hy (i + 1) (by omega)) (hy i (by omega)) 2 (by norm_num) (by norm_num)
  have b6 : Size F k 12 (bb y K i) := Size.sub k hk hmax h5 b5 b4 12 (by norm_num) (by norm_num)
  have v1 : Size F k 7 _ := Size.mul k hk hmax h5 1 ht d2 7 (by norm_num) (by norm_num)
  have v2 : Size F k 17 _ := Size.add k hk hmax h5 C0 v1 17 (by norm_num) (by norm_num)
  have v3 : Size F k 17 _ := Size.mul k hk hmax h5 1 ht v2 17 (by norm_num) (by norm_num)
  have v4 : Size F k 29 _ := Size.add k hk hmax h5 b6 v3 29 (by norm_num) (by norm_num)
  have v5 : Size F k 29 _ := Size.mul k hk hmax h5 1 ht v4 29 (by norm_num) (by norm_num)
  exact Size.add k hk hmax h5 (hy i (by omega)) v5 30 (by norm_num) (by norm_num)

end SplineSpecial

namespace SplineSpecial

theorem integer (u : Usual F) (n : ℤ) (hn : |n| < 2 ^ F.p) : (n : Ieee F).Finite ∧ (n : Ieee F).val = n := by
  obtain ⟨a, -, c⟩ := cast_exact (F := F) (by have := u.p; omega) (by have := u.emin; omega) u.emax n hn
  exact ⟨a, c⟩

theorem fits_one (u : Usual F) : Fits F 1 := by
  have := fits_pow (F := F) (by have := u.p; omega) 0 (by have := u.emin; omega)
  rwa [zpow_zero] at this

/-- The offset from an integer that is at most one away. -/
theorem offset_within (u : Usual F) (τ : Ieee F) (hf : τ.Finite) (n : ℤ) (hn : |n| < 2 ^ F.p) (h : |τ.val - n| ≤ 1) : Within 1 (τ - (n : Ieee F)) := by
  obtain ⟨a, c⟩ := integer u n hn
  exact (sub_within (by have := u.p; omega) (fits_one u) (by linarith [sixteen_lt u]) hf a (by rw [c]; exact h)).1

end SplineSpecial

namespace NaturalSpline

/-- **C128** No overflow in the natural spline if the data are at most `2^k` in magnitude, five binary digits below the limit of the format: inside of the data every value is finite, and at most thirty times that. -/
theorem C128_range (u : Usual F) (h5 : 5 ≤ F.p) (K : ℕ) (hK : 2 ≤ K) (hKp : K ≤ 2 ^ F.p) (hK31 : K ≤ 2147483648) (junk Y : List (Ieee F)) (hj : junk.length = K - 1) (st : ℕ) (y : ℕ → Ieee F)
    (hy : ∀ i, i < K → Y[i * st]? = some (y i)) (x0 dx : Ieee F) (k : ℤ) (hk : F.emin ≤ k) (hmax : k + 5 ≤ F.emax) (hyk : ∀ i < K, (y i).Finite ∧ (y i).Valid ∧ |(y i).val| ≤ 2 ^ k) :
    ∃ s, Rounded.make K junk Y x0 dx st = .ok s ∧ ∀ x, ((x - x0) / dx).Finite → 0 ≤ ((x - x0) / dx).val → ((x - x0) / dx).val ≤ K - 1 →
      ∃ r, s.call Ieee.trunc K x = .ok r ∧ r.Finite ∧ |r.val| ≤ 30 * 2 ^ k := by
  obtain ⟨s, h1, -, -, h2⟩ := Any.code_ok y K (divisor u) (three u) hK junk Y hj st hy x0 dx
  refine ⟨s, h1, fun x hf h0 hle => ?_⟩
  have hK31' : (K : ℚ) ≤ 2147483648 := by exact_mod_cast hK31
  obtain ⟨t1, t2, -⟩ := SplineSpecial.trunc_ok ((x - x0) / dx) hf (by rw [abs_of_nonneg h0]; linarith)
  refine ⟨_, h2 Ieee.trunc x _ _ (fdiv_finite _ _ hf) t1, ?_⟩
  have t2 := t2 h0
  generalize ((x - x0) / dx) = τ at hf h0 hle t2 ⊢
  generalize τ.trunc = n at t2 ⊢
  have n0 : 0 ≤ n := by rw [t2]; exact Int.floor_nonneg.mpr h0
  have l1 : (n : ℚ) ≤ τ.val := by rw [t2]; exact Int.floor_le _
  have l2 : τ.val < n + 1 := by rw [t2]; exact Int.lt_floor_add_one _
  have hKp' : (K : ℤ) ≤ 2 ^ F.p := by exact_mod_cast hKp
  have ho : Within 1 (offset K τ n) := by
    unfold offset
    rw [if_neg (by omega)]
    split_ifs with c
    · have cq : (K : ℚ) - 1 ≤ n := by exact_mod_cast c
      refine offset_within u τ hf _ (by rw [abs_lt]; constructor <;> omega) ?_
      push_cast
      rw [abs_le]; constructor <;> linarith
    · refine offset_within u τ hf n (by rw [abs_lt]; constructor <;> omega) ?_
      rw [abs_le]; constructor <;> linarith
  have hv := value_size u k hk hmax h5 y K (fun i hi => ⟨(hyk i hi).1, (hyk i hi).2.1, by simpa using (hyk i hi).2.2⟩) (piece K n) (NaturalSpline.Any.locate_ok K hK τ n).2 _ ho
  exact ⟨hv.1, by have := hv.2.2; push_cast at this; exact this⟩

end NaturalSpline

/-! ### The Hermite splines -/

namespace HermiteSpline.Any

section
variable {V : Type} [Zero V] [Add V] [Sub V] [Mul V] [Neg V] [Div V] [IntCast V] [BEq V]
variable (half : V) (n : ℕ) (x y : ℕ → V)

/-- The slopes for data at equal distances. -/
def mu (i : ℕ) : V := if i = 0 then y 1 - y 0 else if i + 1 = n then y i - y (i - 1) else half * (y (i + 1) - y (i - 1))

/-- The slope of a chord, and the slopes for data at any places. -/
def sl (k : ℕ) : V := (y (k + 1) - y k) / (x (k + 1) - x k)

def mb (i : ℕ) : V := if i = 0 then sl x y 0 else if i + 1 = n then sl x y (i - 1) else half * (sl x y (i - 1) + sl x y i)

theorem rd_any (f : ℕ → V) (i : ℤ) (h0 : 0 ≤ i) (h1 : i < n) : rd ((List.range n).map f) i = .ok (f i.toNat) := by
  apply rd_of_getElem? h0
  rw [List.getElem?_map, List.getElem?_range (by omega)]
  rfl

theorem segmentU_ok (hn : 3 ≤ n) (t : V) (k : ℤ) (j : ℕ) (hj : (k < 1 ∧ j = 0) ∨ (1 ≤ k ∧ k < (n : ℤ) - 2 ∧ (j : ℤ) = k) ∨ (n : ℤ) - 2 ≤ k ∧ j = n - 2) :
    Rounded.segmentU half ((List.range n).map y) t k n = .ok (Rounded.blendU t (y j) (y (j + 1)) (mu half n y j) (mu half n y (j + 1))) := by
  have cen : ∀ q : ℕ, 1 ≤ q → q + 1 < n → Rounded.centralU half ((List.range n).map y) q = .ok (mu half n y q) := by
    intro q h0 h1
    simp only [Rounded.centralU, bind, Except.bind, pure, Except.pure]
    rw [rd_any n y _ (by omega) (by omega), rd_any n y _ (by omega) (by omega)]
    simp only [show ((q : ℤ) - 1).toNat = q - 1 by omega, show ((q : ℤ) + 1).toNat = q + 1 by omega]
    rw [mu, if_neg (by omega), if_neg (by omega)]
  unfold Rounded.segmentU
  by_cases c1 : k < 1
  · have hj : j = 0 := by omega
    subst hj
    rw [if_pos c1]
    have c := cen 1 le_rfl (by omega)
    rw [Nat.cast_one] at c
    simp only [bind, Except.bind, pure, Except.pure, c, Rounded.rightU]
    rw [rd_any n y _ (by omega) (by omega), rd_any n y _ (by omega) (by omega), zero_add, rd_any n y _ (by omega) (by omega)]
    rfl
  · rw [if_neg c1]
    by_cases c2 : k < (n : ℤ) - 2
    · have hj : (j : ℤ) = k := by omega
      rw [if_pos c2, ← hj]
      have c := cen j (by omega) (by omega)
      have c' := cen (j + 1) (by omega) (by omega)
      rw [Nat.cast_add, Nat.cast_one] at c'
      simp only [bind, Except.bind, pure, Except.pure, c, c']
      rw [rd_any n y _ (by omega) (by omega), rd_any n y _ (by omega) (by omega)]
      simp only [Int.toNat_natCast, show (((j : ℕ) : ℤ) + 1).toNat = j + 1 by omega]
    · have hj : j = n - 2 := by omega
      subst hj
      rw [if_neg c2]
      have e2 : (n : ℤ) - 2 = ((n - 2 : ℕ) : ℤ) := by omega
      have e1 : (n : ℤ) - 1 = ((n - 1 : ℕ) : ℤ) := by omega
      have c := cen (n - 2) (by omega) (by omega)
      have em : mu half n y (n - 2 + 1) = y (n - 1) - y (n - 2) := by
        rw [mu, if_neg (by omega), if_pos (by omega), show n - 2 + 1 = n - 1 by omega, show n - 1 - 1 = n - 2 by omega]
      rw [e1, e2]
      simp only [bind, Except.bind, pure, Except.pure, c, Rounded.leftU]
      rw [rd_any n y _ (by omega) (by omega), rd_any n y _ (by omega) (by omega), rd_any n y _ (by omega) (by omega), em, show n - 2 + 1 = n - 1 by omega]
      simp only [Int.toNat_natCast, show (((n - 1 : ℕ) : ℤ) - 1).toNat = n - 2 by omega]

/-- What the code computes from the integer part of the position. -/
theorem evalU_ok (hn : 3 ≤ n) (trunc : V → ℤ) (t x0 dx τ : V) (k : ℤ) (e1 : Fir.Rounded.fdiv (t - x0) dx = .ok τ) (e2 : int32 (trunc τ) = .ok k) :
    Rounded.evalU half trunc ((List.range n).map y) t x0 dx =
      .ok (Rounded.blendU (NaturalSpline.Any.offset n τ k) (y (NaturalSpline.Any.piece n k)) (y (NaturalSpline.Any.piece n k + 1)) (mu half n y (NaturalSpline.Any.piece n k)) (mu half n y (NaturalSpline.Any.piece n k + 1))) := by
  simp only [Rounded.evalU, bind, Except.bind, e1, e2, List.length_map, List.length_range, NaturalSpline.Any.offset, NaturalSpline.Any.piece]
  by_cases c : k < 0
  · simp only [if_pos c]
    exact segmentU_ok half n y hn _ _ 0 (by omega)
  · simp only [if_neg c]
    by_cases c2 : (n : ℤ) - 1 ≤ k
    · simp only [if_pos c2]
      rw [if_neg (by omega)]
      exact segmentU_ok half n y hn _ _ (n - 2) (by omega)
    · simp only [if_neg c2]
      rw [if_pos (by omega)]
      exact segmentU_ok half n y hn _ _ k.toNat (by omega)

end

end HermiteSpline.Any

namespace SplineSpecial

theorem blendU_bad (t y0 y1 m0 m1 : Ieee F) (h : ¬y0.Finite ∨ ¬y1.Finite ∨ ¬m0.Finite ∨ ¬m1.Finite) : ¬(HermiteSpline.Rounded.blendU t y0 y1 m0 m1).Finite := by
  unfold HermiteSpline.Rounded.blendU
  rcases h with h | h | h | h
  · exact add_bad_left _ _ (add_bad_left _ _ (add_bad_left _ _ (mul_bad_right _ _ h)))
  · exact add_bad_left _ _ (add_bad_right _ _ (mul_bad_right _ _ h))
  · exact add_bad_left _ _ (add_bad_left _ _ (add_bad_right _ _ (mul_bad_right _ _ h)))
  · exact add_bad_right _ _ (mul_bad_right _ _ h)

open HermiteSpline.Any in
theorem mu_bad (half : Ieee F) (n : ℕ) (y : ℕ → Ieee F) (j i : ℕ) (hj : j + 2 ≤ n) (hi : i < n) (h1 : j ≤ i + 1) (h2 : i ≤ j + 2) (hb : ¬(y i).Finite) :
    ¬(y j).Finite ∨ ¬(y (j + 1)).Finite ∨ ¬(mu half n y j).Finite ∨ ¬(mu half n y (j + 1)).Finite := by
  rcases (by omega : i = j ∨ i = j + 1 ∨ j = i + 1 ∨ i = j + 2) with rfl | rfl | rfl | rfl
  · exact .inl hb
  · exact .inr (.inl hb)
  · right; right; left
    rw [mu, if_neg (by omega), if_neg (by omega)]
    exact mul_bad_right _ _ (sub_bad_right _ _ hb)
  · right; right; right
    rw [mu, if_neg (by omega), if_neg (by omega)]
    exact mul_bad_right _ _ (sub_bad_left _ _ hb)

/-- The piece of a position. -/
theorem piece_eq (n j : ℕ) (hj : j + 2 ≤ n) (τ : Ieee F) (hf : τ.Finite) (hs : |τ.val| < 2147483648) (h0 : j = 0 ∨ (j : ℚ) ≤ τ.val) (h1 : j = n - 2 ∨ τ.val < j + 1) : piece n τ.trunc = j := by
  obtain ⟨-, t1, t2⟩ := SplineSpecial.trunc_ok τ hf hs
  unfold piece
  by_cases c : 0 ≤ τ.val
  · have t1 := t1 c
    have n0 : 0 ≤ τ.trunc := by rw [t1]; exact Int.floor_nonneg.mpr c
    have l1 : j = 0 ∨ (j : ℤ) ≤ τ.trunc := h0.imp_right fun h => by rw [t1, Int.le_floor]; exact_mod_cast h
    have l2 : j = n - 2 ∨ τ.trunc < j + 1 := h1.imp_right fun h => by rw [t1, Int.floor_lt]; exact_mod_cast h
    rw [if_neg (by omega)]
    split_ifs <;> omega
  · have t2 := (t2 (not_le.mp c)).2
    have hj0 : j = 0 := by
      rcases h0 with h | h
      · exact h
      · have : (0 : ℚ) ≤ j := by positivity
        linarith
    split_ifs <;> omega

end SplineSpecial

namespace HermiteSpline

/-- **C128** The Hermite spline is local: a value on the piece between the knots `j` and `j+1` depends on nothing but the data at these knots and their neighbours, whatever the other data are, infinities and NaN included. But if one of
these four is infinite or NaN then so is the value, at the knots as well. -/
theorem C128_local (half : Ieee F) (n : ℕ) (hn : 3 ≤ n) (y : ℕ → Ieee F) (x x0 dx : Ieee F) (hf : ((x - x0) / dx).Finite) (hs : |((x - x0) / dx).val| < 2147483648) (j : ℕ) (hj : j + 2 ≤ n)
    (h0 : j = 0 ∨ (j : ℚ) ≤ ((x - x0) / dx).val) (h1 : j = n - 2 ∨ ((x - x0) / dx).val < j + 1) :
    ∃ r, Rounded.evalU half Ieee.trunc ((List.range n).map y) x x0 dx = .ok r ∧
      (∀ z : ℕ → Ieee F, (∀ i < n, j ≤ i + 1 → i ≤ j + 2 → z i = y i) → Rounded.evalU half Ieee.trunc ((List.range n).map z) x x0 dx = .ok r) ∧
      ∀ i < n, j ≤ i + 1 → i ≤ j + 2 → ¬(y i).Finite → ¬r.Finite := by
  have ev := fun z => Any.evalU_ok half n z hn Ieee.trunc x x0 dx _ _ (fdiv_finite _ _ hf) (SplineSpecial.trunc_ok _ hf hs).1
  rw [piece_eq n j hj _ hf hs h0 h1] at ev
  refine ⟨_, ev y, fun z hz => ?_, fun i hi g1 g2 hb => blendU_bad _ _ _ _ _ (mu_bad half n y j i hj hi g1 g2 hb)⟩
  rw [ev z]
  have m : ∀ i, j ≤ i → i ≤ j + 1 → Any.mu half n z i = Any.mu half n y i := by
    intro i g1 g2
    unfold Any.mu
    split_ifs with c1 c2
    · rw [hz 1 (by omega) (by omega) (by omega), hz 0 (by omega) (by omega) (by omega)]
    · rw [hz i (by omega) (by omega) (by omega), hz (i - 1) (by omega) (by omega) (by omega)]
    · rw [hz (i + 1) (by omega) (by omega) (by omega), hz (i - 1) (by omega) (by omega) (by omega)]
  rw [hz j (by omega) (by omega) (by omega), hz (j + 1) (by omega) (by omega) (by omega), m j le_rfl (by omega), m (j + 1) (by omega) le_rfl]

end HermiteSpline

namespace HermiteSpline.Any

section
variable {V : Type} [Zero V] [Add V] [Sub V] [Mul V] [Neg V] [Div V] [IntCast V] [BEq V]
variable (half : V) (n : ℕ) (x y : ℕ → V) (hx : ∀ i, i + 1 < n → ((x (i + 1) - x i) == 0) = false)
include hx

theorem left_ok (q : ℕ) (h0 : 1 ≤ q) (h1 : q < n) : Rounded.left ((List.range n).map x) ((List.range n).map y) q = .ok (sl x y (q - 1)) := by
  simp only [Rounded.left, bind, Except.bind]
  rw [rd_any n y _ (by omega) (by omega), rd_any n y _ (by omega) (by omega), rd_any n x _ (by omega) (by omega), rd_any n x _ (by omega) (by omega)]
  simp only [Int.toNat_natCast, show ((q : ℤ) - 1).toNat = q - 1 by omega]
  have := hx (q - 1) (by omega)
  rw [show q - 1 + 1 = q by omega] at this
  rw [NaturalSpline.Any.fdiv_any _ _ this, sl, show q - 1 + 1 = q by omega]

theorem right_ok (q : ℕ) (h1 : q + 1 < n) : Rounded.right ((List.range n).map x) ((List.range n).map y) q = .ok (sl x y q) := by
  simp only [Rounded.right, bind, Except.bind]
  rw [rd_any n y _ (by omega) (by omega), rd_any n y _ (by omega) (by omega), rd_any n x _ (by omega) (by omega), rd_any n x _ (by omega) (by omega)]
  simp only [Int.toNat_natCast, show ((q : ℤ) + 1).toNat = q + 1 by omega]
  rw [NaturalSpline.Any.fdiv_any _ _ (hx q h1), sl]

theorem central_ok (q : ℕ) (h0 : 1 ≤ q) (h1 : q + 1 < n) : Rounded.central half ((List.range n).map x) ((List.range n).map y) q = .ok (mb half n x y q) := by
  simp only [Rounded.central, bind, Except.bind, left_ok n x y hx q h0 (by omega), right_ok n x y hx q h1]
  rw [mb, if_neg (by omega), if_neg (by omega)]
  rfl

theorem segment_ok (hn : 3 ≤ n) (t : V) (k : ℤ) (j : ℕ) (hj : (k < 1 ∧ j = 0) ∨ (1 ≤ k ∧ k < (n : ℤ) - 2 ∧ (j : ℤ) = k) ∨ (n : ℤ) - 2 ≤ k ∧ j = n - 2) :
    Rounded.segment half ((List.range n).map x) ((List.range n).map y) t k n =
      .ok (Rounded.blend t (y j) (y (j + 1)) (x (j + 1) - x j) (mb half n x y j) (mb half n x y (j + 1))) := by
  unfold Rounded.segment
  by_cases c1 : k < 1
  · have hj : j = 0 := by omega
    subst hj
    rw [if_pos c1]
    have r := right_ok n x y hx 0 (by omega)
    have c := central_ok half n x y hx 1 le_rfl (by omega)
    rw [Nat.cast_zero] at r
    rw [Nat.cast_one] at c
    simp only [bind, Except.bind, pure, Except.pure, r, c]
    rw [rd_any n y _ (by omega) (by omega), rd_any n y _ (by omega) (by omega), rd_any n x _ (by omega) (by omega), rd_any n x _ (by omega) (by omega)]
    rfl
  · rw [if_neg c1]
    by_cases c2 : k < (n : ℤ) - 2
    · have hj : (j : ℤ) = k := by omega
      rw [if_pos c2, ← hj]
      have c := central_ok half n x y hx j (by omega) (by omega)
      have c' := central_ok half n x y hx (j + 1) (by omega) (by omega)
      rw [Nat.cast_add, Nat.cast_one] at c'
      simp only [bind, Except.bind, pure, Except.pure, c, c']
      rw [rd_any n y _ (by omega) (by omega), rd_any n y _ (by omega) (by omega), rd_any n x _ (by omega) (by omega), rd_any n x _ (by omega) (by omega)]
      simp only [Int.toNat_natCast, show (((j : ℕ) : ℤ) + 1).toNat = j + 1 by omega]
    · have hj : j = n - 2 := by omega
      subst hj
      rw [if_neg c2]
      have e2 : (n : ℤ) - 2 = ((n - 2 : ℕ) : ℤ) := by omega
      have e1 : (n : ℤ) - 1 = ((n - 1 : ℕ) : ℤ) := by omega
      have c := central_ok half n x y hx (n - 2) (by omega) (by omega)
      have l := left_ok n x y hx (n - 1) (by omega) (by omega)
      have em : mb half n x y (n - 2 + 1) = sl x y (n - 1 - 1) := by
        rw [mb, if_neg (by omega), if_pos (by omega), show n - 2 + 1 - 1 = n - 1 - 1 by omega]
      rw [e1, e2]
      simp only [bind, Except.bind, pure, Except.pure, c, l]
      rw [rd_any n y _ (by omega) (by omega), rd_any n y _ (by omega) (by omega), rd_any n x _ (by omega) (by omega), rd_any n x _ (by omega) (by omega), em, show n - 2 + 1 = n - 1 by omega]
      simp only [Int.toNat_natCast]

theorem position_ok (t : V) (j : ℕ) (h1 : j + 1 < n) (a b : ℤ) (ha : a = j) (hb : b = j + 1) : Rounded.position ((List.range n).map x) t a b = .ok ((t - x j) / (x (j + 1) - x j)) := by
  subst ha hb
  simp only [Rounded.position, bind, Except.bind]
  rw [rd_any n x _ (by omega) (by omega), rd_any n x _ (by omega) (by omega)]
  simp only [Int.toNat_natCast, show ((j : ℤ) + 1).toNat = j + 1 by omega]
  exact NaturalSpline.Any.fdiv_any _ _ (hx j h1)

omit [Zero V] [Add V] [Sub V] [Mul V] [Neg V] [Div V] [IntCast V] [BEq V] hx in
theorem takeWhile_count (q : V → Bool) (m : ℕ) (hm : m ≤ n) (h1 : ∀ i < m, q (x i) = true) (h2 : m = n ∨ q (x m) = false) : (((List.range n).map x).takeWhile q).length = m := by
  have split : (List.range n).map x = (List.range m).map x ++ (List.range (n - m)).map fun i => x (m + i) := by
    conv_lhs => rw [show n = m + (n - m) by omega, List.range_add, List.map_append, List.map_map]
    rfl
  rw [split, List.takeWhile_append_of_pos (by simpa using h1)]
  rcases h2 with h2 | h2
  · subst h2; simp
  · by_cases c : m = n
    · subst c; simp
    · obtain ⟨d, hd⟩ : ∃ d, n - m = d + 1 := ⟨n - m - 1, by omega⟩
      rw [hd, List.range_succ_eq_map]
      simp [h2]

/-- What the code computes on a piece. -/
theorem eval_ok (hn : 3 ≤ n) (less : V → V → Bool) (t : V) (j : ℕ) (hj : j + 2 ≤ n) (h0 : j = 0 ∨ ∀ i ≤ j, less (x i) t = true) (h1 : j = n - 2 ∨ less (x (j + 1)) t = false) :
    Rounded.eval half less ((List.range n).map x) ((List.range n).map y) t =
      .ok (Rounded.blend ((t - x j) / (x (j + 1) - x j)) (y j) (y (j + 1)) (x (j + 1) - x j) (mb half n x y j) (mb half n x y (j + 1))) := by
  unfold Rounded.eval
  simp only [List.length_map, List.length_range, bind, Except.bind]
  have cnt := takeWhile_count n x (fun v => less v t)
  by_cases all : ∀ i ≤ j, less (x i) t = true
  · by_cases next : less (x (j + 1)) t = true
    · have hjn : j = n - 2 := h1.resolve_right (by rw [next]; decide)
      rw [cnt n le_rfl (fun i hi => by
        rcases (by omega : i ≤ j ∨ i = j + 1) with h | h
        · exact all i h
        · rw [h]; exact next) (.inl rfl)]
      rw [if_neg (by omega), if_neg (by omega), position_ok n x hx t j (by omega) _ _ (by omega) (by omega)]
      exact segment_ok half n x y hx hn _ _ j (by omega)
    · rw [cnt (j + 1) (by omega) (fun i hi => all i (by omega)) (.inr (by simpa using next))]
      rw [if_neg (by push_cast; omega), if_pos (by push_cast; omega), position_ok n x hx t j (by omega) _ _ (by push_cast; ring) (by push_cast; ring)]
      exact segment_ok half n x y hx hn _ _ j (by push_cast; omega)
  · have hj0 : j = 0 := h0.resolve_right all
    subst hj0
    rw [cnt 0 (by omega) (fun i hi => absurd hi (by omega)) (.inr (by
      simp only [Nat.le_zero, forall_eq] at all
      simpa using all))]
    rw [if_pos (by norm_num), position_ok n x hx t 0 (by omega) _ _ (by norm_num) (by norm_num)]
    exact segment_ok half n x y hx hn _ _ 0 (by omega)

end
end HermiteSpline.Any

namespace SplineSpecial

theorem blend_bad (t y0 y1 w m0 m1 : Ieee F) (h : ¬t.Finite ∨ ¬y0.Finite ∨ ¬y1.Finite ∨ ¬m0.Finite ∨ ¬m1.Finite) : ¬(HermiteSpline.Rounded.blend t y0 y1 w m0 m1).Finite := by
  unfold HermiteSpline.Rounded.blend
  rcases h with h | h | h | h | h
  · exact add_bad_right _ _ (mul_bad_left _ _ (mul_bad_left _ _ (mul_bad_left _ _ (mul_bad_left _ _ h))))
  · exact add_bad_left _ _ (add_bad_left _ _ (add_bad_left _ _ (mul_bad_right _ _ h)))
  · exact add_bad_left _ _ (add_bad_right _ _ (mul_bad_right _ _ h))
  · exact add_bad_left _ _ (add_bad_left _ _ (add_bad_right _ _ (mul_bad_right _ _ h)))
  · exact add_bad_right _ _ (mul_bad_right _ _ h)

open HermiteSpline.Any in
theorem mb_bad (half : Ieee F) (n : ℕ) (x y : ℕ → Ieee F) (j i : ℕ) (hj : j + 2 ≤ n) (hi : i < n) (h1 : j ≤ i + 1) (h2 : i ≤ j + 2) (hb : ¬(y i).Finite) :
    ¬(y j).Finite ∨ ¬(y (j + 1)).Finite ∨ ¬(mb half n x y j).Finite ∨ ¬(mb half n x y (j + 1)).Finite := by
  rcases (by omega : i = j ∨ i = j + 1 ∨ j = i + 1 ∨ i = j + 2) with rfl | rfl | rfl | rfl
  · exact .inl hb
  · exact .inr (.inl hb)
  · right; right; left
    rw [mb, if_neg (by omega), if_neg (by omega)]
    exact mul_bad_right _ _ (add_bad_left _ _ (div_bad _ _ (sub_bad_right _ _ hb)))
  · right; right; right
    rw [mb, if_neg (by omega), if_neg (by omega)]
    exact mul_bad_right _ _ (add_bad_right _ _ (div_bad _ _ (sub_bad_left _ _ hb)))

/-- Numbers that differ have a difference that is not zero, thanks to gradual underflow. -/
theorem diff_ne (hp : 0 < F.p) (a b : Ieee F) (fa : a.Finite) (fb : b.Finite) (va : a.Valid) (vb : b.Valid) (h : a.val ≠ b.val) : ((a - b) == 0) = false := by
  by_cases fin : (a - b).Finite
  · refine beq_zero_false fin ?_
    have e : (a - b).val = roundTo F (a.val - b.val) := by
      have := add_val hp a (-b) fa (neg_finite b fb) fin
      rwa [neg_val, ← sub_eq_add_neg] at this
    rw [e]
    obtain ⟨m, hm⟩ := (valid_fits va).2
    obtain ⟨l, hl⟩ := (valid_fits vb).2
    have hne : m - l ≠ 0 := by
      intro c
      apply h
      rw [hm, hl, show m = l by omega]
    have hsize : (2 : ℚ) ^ F.emin ≤ |a.val - b.val| := by
      rw [hm, hl, ← sub_mul, abs_mul, abs_of_pos (show (0 : ℚ) < 2 ^ F.emin by positivity)]
      have h1 : 1 ≤ |m - l| := Int.one_le_abs hne
      have h2 : (1 : ℚ) ≤ |(m : ℚ) - l| := by exact_mod_cast h1
      nlinarith [show (0 : ℚ) < 2 ^ F.emin by positivity]
    have := le_roundTo hp _ _ (fits_pow hp F.emin le_rfl) hsize
    rw [← roundTo_abs hp] at this
    intro c
    rw [c, abs_zero] at this
    exact absurd this (not_le.mpr (by positivity))
  · rcases hd : a - b with _ | s | ⟨s, m⟩
    · rfl
    · rfl
    · rw [hd] at fin; exact absurd trivial fin

end SplineSpecial

namespace HermiteSpline

/-- **C128** The same for data at any increasing places. Here an infinite or NaN argument is no fault, and its value is not finite. -/
theorem C128_places (hp : 0 < F.p) (half : Ieee F) (n : ℕ) (hn : 3 ≤ n) (x y : ℕ → Ieee F) (hx : ∀ i < n, (x i).Finite ∧ (x i).Valid) (hlt : ∀ i, i + 1 < n → (x i).val < (x (i + 1)).val)
    (t : Ieee F) (j : ℕ) (hj : j + 2 ≤ n) (h0 : j = 0 ∨ ∀ i ≤ j, Ieee.less (x i) t = true) (h1 : j = n - 2 ∨ Ieee.less (x (j + 1)) t = false) :
    ∃ r, Rounded.eval half Ieee.less ((List.range n).map x) ((List.range n).map y) t = .ok r ∧
      (∀ z : ℕ → Ieee F, (∀ i < n, j ≤ i + 1 → i ≤ j + 2 → z i = y i) → Rounded.eval half Ieee.less ((List.range n).map x) ((List.range n).map z) t = .ok r) ∧
      (∀ i < n, j ≤ i + 1 → i ≤ j + 2 → ¬(y i).Finite → ¬r.Finite) ∧ (¬t.Finite → ¬r.Finite) := by
  have hne : ∀ i, i + 1 < n → ((x (i + 1) - x i) == 0) = false := fun i hi =>
    diff_ne hp _ _ (hx (i + 1) hi).1 (hx i (by omega)).1 (hx (i + 1) hi).2 (hx i (by omega)).2 (hlt i hi).ne'
  have ev := fun z => Any.eval_ok half n x z hne hn Ieee.less t j hj h0 h1
  refine ⟨_, ev y, fun z hz => ?_, fun i hi g1 g2 hb => blend_bad _ _ _ _ _ _ (.inr (mb_bad half n x y j i hj hi g1 g2 hb)), fun hb => blend_bad _ _ _ _ _ _ (.inl (div_bad _ _ (sub_bad_left _ _ hb)))⟩
  rw [ev z]
  have s : ∀ i, j ≤ i + 1 → i ≤ j + 1 → i + 1 < n → Any.sl x z i = Any.sl x y i := by
    intro i g1 g2 g3
    unfold Any.sl
    rw [hz (i + 1) g3 (by omega) (by omega), hz i (by omega) (by omega) (by omega)]
  have m : ∀ i, j ≤ i → i ≤ j + 1 → Any.mb half n x z i = Any.mb half n x y i := by
    intro i g1 g2
    unfold Any.mb
    split_ifs with c1 c2
    · rw [s 0 (by omega) (by omega) (by omega)]
    · rw [s (i - 1) (by omega) (by omega) (by omega)]
    · rw [s (i - 1) (by omega) (by omega) (by omega), s i (by omega) (by omega) (by omega)]
  rw [hz j (by omega) (by omega) (by omega), hz (j + 1) (by omega) (by omega) (by omega), m j le_rfl (by omega), m (j + 1) (by omega) le_rfl]

end HermiteSpline

namespace SplineSpecial

theorem weights (u : Usual F) (h5 : 5 ≤ F.p) (t : Ieee F) (ht : t.Finite ∧ t.Valid) (h0 : 0 ≤ t.val) (h1 : t.val ≤ 1) :
    Within 3 (HermiteSpline.Rounded.h00 t) ∧ Within 1 (HermiteSpline.Rounded.h10 t) ∧ Within 3 (HermiteSpline.Rounded.h01 t) ∧ Within 1 (HermiteSpline.Rounded.h11 t) := by
  have hk : F.emin ≤ 0 := by have := u.emin; omega
  have hmax : (0 : ℤ) + 5 ≤ F.emax := by have := u.emax; omega
  have hp : 0 < F.p := by omega
  have one : ∀ (n : ℕ) (c : ℚ) (a : Ieee F), (n : ℚ) = c → (Size F 0 n a ↔ Within c a) := fun n c a h => by
    show Within ((n : ℚ) * 2 ^ (0 : ℤ)) a ↔ Within c a
    rw [zpow_zero, mul_one, h]
  obtain ⟨a1, b1, c1⟩ : ((1 : ℤ) : Ieee F).Finite ∧ ((1 : ℤ) : Ieee F).Valid ∧ ((1 : ℤ) : Ieee F).val = 1 := by
    obtain ⟨a, b, c⟩ := small u 1 (by norm_num)
    exact ⟨a, b, by exact_mod_cast c⟩
  obtain ⟨a2, b2, c2⟩ : ((2 : ℤ) : Ieee F).Finite ∧ ((2 : ℤ) : Ieee F).Valid ∧ ((2 : ℤ) : Ieee F).val = 2 := by
    obtain ⟨a, b, c⟩ := small u 2 (by norm_num)
    exact ⟨a, b, by exact_mod_cast c⟩
  obtain ⟨a3, b3, c3⟩ : ((3 : ℤ) : Ieee F).Finite ∧ ((3 : ℤ) : Ieee F).Valid ∧ ((3 : ℤ) : Ieee F).val = 3 := by
    obtain ⟨a, b, c⟩ := small u 3 (by norm_num)
    exact ⟨a, b, by exact_mod_cast c⟩
  have h16 := sixteen_lt u
  have f1 := fits_one u
  have f2 : Fits F 2 := by have := multiple 0 hk h5 2 (by norm_num); simpa using this
  have f3 : Fits F 3 := by have := multiple 0 hk h5 3 (by norm_num); simpa using this
  have wt : Within 1 t := ⟨ht.1, ht.2, by rw [abs_of_nonneg h0]; exact h1⟩
  have w2t := mul_within hp f2 (by linarith) a2 ht.1 b2 ht.2 (by rw [c2, abs_le]; constructor <;> linarith)
  have v2t : 0 ≤ (((2 : ℤ) : Ieee F) * t).val := by rw [w2t.2]; exact roundTo_nonneg hp _ (by rw [c2]; linarith)
  have v2t' : (((2 : ℤ) : Ieee F) * t).val ≤ 2 := (le_abs_self _).trans w2t.1.2.2
  have wl : Within 3 (((1 : ℤ) : Ieee F) + ((2 : ℤ) : Ieee F) * t) := plus_within hp f3 (by linarith) a1 w2t.1.1 (by rw [c1, abs_le]; constructor <;> linarith)
  have wr : Within 1 (((1 : ℤ) : Ieee F) - t) := (sub_within hp f1 (by linarith) a1 ht.1 (by rw [c1, abs_le]; constructor <;> linarith)).1
  have ws : Within 1 (t - ((1 : ℤ) : Ieee F)) := (sub_within hp f1 (by linarith) ht.1 a1 (by rw [c1, abs_le]; constructor <;> linarith)).1
  have wd : Within 3 (((3 : ℤ) : Ieee F) - ((2 : ℤ) : Ieee F) * t) := (sub_within hp f3 (by linarith) a3 w2t.1.1 (by rw [c3, abs_le]; constructor <;> linarith)).1
  have wr' : Size F 0 1 (((1 : ℤ) : Ieee F) - t) := (one 1 1 _ (by norm_num)).mpr wr
  have tt : Size F 0 1 (t * t) := Size.mul 0 hk hmax h5 1 wt ((one 1 1 _ (by norm_num)).mpr wt) 1 (by norm_num) (by norm_num)
  have l1 : Size F 0 3 _ := Size.mul 0 hk hmax h5 3 wl wr' 3 (by norm_num) (by norm_num)
  have l2 : Size F 0 3 _ := Size.mul 0 hk hmax h5 3 ((one 3 3 _ (by norm_num)).mp l1) wr' 3 (by norm_num) (by norm_num)
  have t1 : Size F 0 1 _ := Size.mul 0 hk hmax h5 1 wt wr' 1 (by norm_num) (by norm_num)
  have t2 : Size F 0 1 _ := Size.mul 0 hk hmax h5 1 ((one 1 1 _ (by norm_num)).mp t1) wr' 1 (by norm_num) (by norm_num)
  have d1 : Size F 0 3 _ := Size.mul 0 hk hmax h5 1 ((one 1 1 _ (by norm_num)).mp tt) ((one 3 3 _ (by norm_num)).mpr wd) 3 (by norm_num) (by norm_num)
  have s1 : Size F 0 1 _ := Size.mul 0 hk hmax h5 1 ((one 1 1 _ (by norm_num)).mp tt) ((one 1 1 _ (by norm_num)).mpr ws) 1 (by norm_num) (by norm_num)
  exact ⟨(one 3 3 _ (by norm_num)).mp l2, (one 1 1 _ (by norm_num)).mp t2, (one 3 3 _ (by norm_num)).mp d1, (one 1 1 _ (by norm_num)).mp s1⟩

open HermiteSpline.Any in
theorem mu_size (u : Usual F) (k : ℤ) (hk : F.emin ≤ k) (hmax : k + 5 ≤ F.emax) (h5 : 5 ≤ F.p) (half : Ieee F) (hh : half.Finite ∧ half.Valid) (hv : half.val = 1 / 2) (n : ℕ) (hn : 3 ≤ n) (y : ℕ → Ieee F)
    (hy : ∀ i < n, Size F k 1 (y i)) (i : ℕ) (hi : i < n) : Size F k 2 (mu half n y i) := by
  have wh : Within (1 / 2) half := ⟨hh.1, hh.2, by rw [hv, abs_of_nonneg (by norm_num)]⟩
  unfold mu
  split_ifs with c1 c2
  · exact Size.sub k hk hmax h5 (hy 1 (by omega)) (hy 0 (by omega)) 2 (by norm_num) (by norm_num)
  · exact Size.sub k hk hmax h5 (hy i (by omega)) (hy (i - 1) (by omega)) 2 (by norm_num) (by norm_num)
  · have s : Size F k 2 _ := Size.sub k hk hmax h5 (hy (i + 1) (by omega)) (hy (i - 1) (by omega)) 2 (by norm_num) (by norm_num)
    exact Size.mul k hk hmax h5 (1 / 2) wh s 2 (by norm_num) (by norm_num)

end SplineSpecial

namespace HermiteSpline

/-- **C128** No overflow in the Hermite spline for data at equal distances either: inside of the data every value is finite and at most ten times the bound of the data. -/
theorem C128_range (u : Usual F) (h5 : 5 ≤ F.p) (half : Ieee F) (hh : half.Finite ∧ half.Valid) (hv : half.val = 1 / 2) (n : ℕ) (hn : 3 ≤ n) (hnp : n ≤ 2 ^ F.p) (hn31 : n ≤ 2147483648) (y : ℕ → Ieee F)
    (k : ℤ) (hk : F.emin ≤ k) (hmax : k + 5 ≤ F.emax) (hyk : ∀ i < n, (y i).Finite ∧ (y i).Valid ∧ |(y i).val| ≤ 2 ^ k) (x x0 dx : Ieee F) (hf : ((x - x0) / dx).Finite) (h0 : 0 ≤ ((x - x0) / dx).val)
    (h1 : ((x - x0) / dx).val ≤ n - 1) : ∃ r, Rounded.evalU half Ieee.trunc ((List.range n).map y) x x0 dx = .ok r ∧ r.Finite ∧ |r.val| ≤ 10 * 2 ^ k := by
  have hn31' : (n : ℚ) ≤ 2147483648 := by exact_mod_cast hn31
  obtain ⟨t1, t2, -⟩ := SplineSpecial.trunc_ok ((x - x0) / dx) hf (by rw [abs_of_nonneg h0]; linarith)
  refine ⟨_, Any.evalU_ok half n y hn Ieee.trunc x x0 dx _ _ (fdiv_finite _ _ hf) t1, ?_⟩
  have t2 := t2 h0
  generalize ((x - x0) / dx) = τ at hf h0 h1 t2 ⊢
  generalize τ.trunc = m at t2 ⊢
  have n0 : 0 ≤ m := by rw [t2]; exact Int.floor_nonneg.mpr h0
  have l1 : (m : ℚ) ≤ τ.val := by rw [t2]; exact Int.floor_le _
  have l2 : τ.val < m + 1 := by rw [t2]; exact Int.lt_floor_add_one _
  have hnp' : (n : ℤ) ≤ 2 ^ F.p := by exact_mod_cast hnp
  have hp : 0 < F.p := by omega
  have hoff : ∀ l : ℤ, |l| < 2 ^ F.p → 0 ≤ τ.val - l → τ.val - l ≤ 1 → (τ - (l : Ieee F)).Finite ∧ (τ - (l : Ieee F)).Valid ∧ 0 ≤ (τ - (l : Ieee F)).val ∧ (τ - (l : Ieee F)).val ≤ 1 := by
    intro l hl g0 g1
    obtain ⟨a, c⟩ := integer u l hl
    obtain ⟨w, e⟩ := sub_within hp (fits_one u) (by linarith [sixteen_lt u]) hf a (by rw [c, abs_le]; constructor <;> linarith)
    exact ⟨w.1, w.2.1, by rw [e, c]; exact roundTo_nonneg hp _ g0, (le_abs_self _).trans w.2.2⟩
  have ho : (offset n τ m).Finite ∧ (offset n τ m).Valid ∧ 0 ≤ (offset n τ m).val ∧ (offset n τ m).val ≤ 1 := by
    unfold offset
    rw [if_neg (by omega)]
    split_ifs with c
    · have cq : (n : ℚ) - 1 ≤ m := by exact_mod_cast c
      refine hoff _ (by rw [abs_lt]; constructor <;> omega) ?_ ?_ <;> push_cast <;> linarith
    · exact hoff m (by rw [abs_lt]; constructor <;> omega) (by linarith) (by linarith)
  obtain ⟨w1, w2, w3, w4⟩ := SplineSpecial.weights u h5 _ ⟨ho.1, ho.2.1⟩ ho.2.2.1 ho.2.2.2
  have hpc := (NaturalSpline.Any.locate_ok n (by omega) τ m).2
  generalize piece n m = j at hpc ⊢
  have hy : ∀ i < n, Size F k 1 (y i) := fun i hi => ⟨(hyk i hi).1, (hyk i hi).2.1, by simpa using (hyk i hi).2.2⟩
  have m0 := mu_size u k hk hmax h5 half hh hv n hn y hy j (by omega)
  have m1 := mu_size u k hk hmax h5 half hh hv n hn y hy (j + 1) (by omega)
  have s1 : Size F k 3 _ := Size.mul k hk hmax h5 3 w1 (hy j (by omega)) 3 (by norm_num) (by norm_num)
  have s2 : Size F k 2 _ := Size.mul k hk hmax h5 1 w2 m0 2 (by norm_num) (by norm_num)
  have s3 : Size F k 3 _ := Size.mul k hk hmax h5 3 w3 (hy (j + 1) (by omega)) 3 (by norm_num) (by norm_num)
  have s4 : Size F k 2 _ := Size.mul k hk hmax h5 1 w4 m1 2 (by norm_num) (by norm_num)
  have a1 : Size F k 5 _ := Size.add k hk hmax h5 s1 s2 5 (by norm_num) (by norm_num)
  have a2 : Size F k 8 _ := Size.add k hk hmax h5 a1 s3 8 (by norm_num) (by norm_num)
  have a3 : Size F k 10 _ := Size.add k hk hmax h5 a2 s4 10 (by norm_num) (by norm_num)
  exact ⟨a3.1, by have := a3.2.2; push_cast at this; exact this⟩

end HermiteSpline

/-- The value of a natural spline in single precision. -/
def naturalAt (y : List (Ieee .single)) (x : Ieee .single) : M (Ieee .single) := do
  let s ← NaturalSpline.Rounded.make y.length (y.drop 1) y 0 1 1
  s.call Ieee.trunc y.length x

/-- Whether the result is a value for which something holds. -/
def Gives (r : M (Ieee .single)) (P : Ieee .single → Bool) : Bool :=
  match r with
  | .ok v => P v
  | .error _ => false

set_option maxRecDepth 100000 in
/-- **C128** Some reserve is needed: with the finite data `0, 2^127, 0` of single precision the natural spline is not finite anywhere, not even at the first knot, where the datum is zero. With an eighth of that all is well. And a single
NaN at the end of the data makes even the value at the first knot NaN, while the Hermite spline still gives the datum. -/
theorem C128_limits :
    Gives (naturalAt [0, num false (2 ^ 127), 0] 0) (fun v => decide (v = nan)) ∧
    Gives (naturalAt [0, num false (2 ^ 124), 0] 0) (fun v => v == 0) ∧
    Gives (naturalAt [1, 2, 3, 4, nan] 0) (fun v => decide (v = nan)) ∧
    Gives (HermiteSpline.Rounded.evalU (num false (1 / 2)) Ieee.trunc [1, 2, 3, 4, nan] 0 0 1) (fun v => v == 1) := by
  refine ⟨?_, ?_, ?_, ?_⟩ <;> decide +kernel

/-- An infinite datum among five with stride two, in single precision. -/
example : ∃ s, NaturalSpline.Rounded.make 5 [0, 0, 0, 0] ((List.range 10).map fun i => if i = 6 then (inf true : Ieee .single) else 1) 0 1 2 = .ok s ∧ ∃ r, s.call Ieee.trunc 5 1 = .ok r ∧ ¬r.Finite := by
  obtain ⟨s, h1, h2⟩ := NaturalSpline.C128_ruined usual_single 5 (by norm_num) [0, 0, 0, 0] ((List.range 10).map fun i => if i = 6 then (inf true : Ieee .single) else 1) rfl 2 (fun i => if i = 3 then inf true else 1)
    (by intro i hi; interval_cases i <;> rfl) 0 1 3 (by norm_num) (fun h => h)
  exact ⟨s, h1, h2 1 (by decide +kernel) (by decide +kernel)⟩

/-- A NaN at the fifth of six knots does not matter on the first piece. -/
example : ∃ r, HermiteSpline.Rounded.evalU (num false (1 / 2)) Ieee.trunc ((List.range 6).map fun i => if i = 4 then (nan : Ieee .single) else 1) (num false (1 / 4)) 0 1 = .ok r ∧
    HermiteSpline.Rounded.evalU (num false (1 / 2)) Ieee.trunc ((List.range 6).map fun _ => (1 : Ieee .single)) (num false (1 / 4)) 0 1 = .ok r := by
  obtain ⟨r, h1, h2, -⟩ := HermiteSpline.C128_local (num false (1 / 2) : Ieee .single) 6 (by norm_num) (fun i => if i = 4 then nan else 1) (num false (1 / 4)) 0 1 (by decide +kernel) (by decide +kernel) 0 (by norm_num)
    (.inl rfl) (.inr (by decide +kernel))
  refine ⟨r, h1, h2 (fun _ => 1) fun i _ _ h => ?_⟩
  show 1 = if i = 4 then nan else 1
  rw [if_neg (by omega)]

/-- A NaN position. -/
example : ∃ e, (⟨[0], [0], [0], [0], 0, 1⟩ : NaturalSpline.Rounded (Ieee .single)).call Ieee.trunc 2 nan = .error e := NaturalSpline.C128_nowhere _ 2 nan (fun h => h)

/-- Places that differ by the smallest number of single precision, and an argument of NaN. -/
example : ∃ r, HermiteSpline.Rounded.eval (num false (1 / 2)) Ieee.less ((List.range 3).map fun i => (num false (i * 2 ^ (-149 : ℤ)) : Ieee .single)) ((List.range 3).map fun _ => (1 : Ieee .single)) nan = .ok r ∧ ¬r.Finite := by
  have hv : ∀ i : ℕ, i < 3 → (num false ((i : ℚ) * 2 ^ (-149 : ℤ)) : Ieee .single).Valid := fun i hi =>
    ⟨by positivity, by
      have h1 : (i : ℚ) ≤ 3 := by exact_mod_cast hi.le
      calc (i : ℚ) * 2 ^ (-149 : ℤ) ≤ 3 * 2 ^ (-149 : ℤ) := mul_le_mul_of_nonneg_right h1 (by positivity)
        _ < 2 ^ Format.single.emax := by norm_num [Format.single], i, -149, by norm_num [Format.single]; omega, by norm_num [Format.single], rfl⟩
  obtain ⟨r, h1, -, -, h2⟩ := HermiteSpline.C128_places (F := .single) (by norm_num [Format.single]) (num false (1 / 2)) 3 le_rfl (fun i => num false (i * 2 ^ (-149 : ℤ))) (fun _ => 1) (fun i hi => ⟨trivial, hv i hi⟩)
    (fun i _ => by
      show (i : ℚ) * 2 ^ (-149 : ℤ) < ((i + 1 : ℕ) : ℚ) * 2 ^ (-149 : ℤ)
      exact mul_lt_mul_of_pos_right (by push_cast; linarith) (by positivity)) nan 0 (by norm_num) (.inl rfl) (.inr rfl)
  exact ⟨r, h1, h2 (fun h => h)⟩

/-- Data of `2^100` and `-2^100` in single precision. -/
theorem large (i : ℕ) : (num (i == 1) (2 ^ 100) : Ieee .single).Finite ∧ (num (i == 1) (2 ^ 100) : Ieee .single).Valid ∧ |(num (i == 1) (2 ^ 100) : Ieee .single).val| ≤ 2 ^ (100 : ℤ) :=
  ⟨trivial, ⟨by positivity, by norm_num [Format.single], 1, 100, by norm_num [Format.single], by norm_num [Format.single], by norm_num⟩, by
    show |signed (i == 1) (2 ^ 100)| ≤ _
    rw [signed_abs, abs_of_pos (by positivity)]
    norm_num⟩

example : ∃ s, NaturalSpline.Rounded.make 3 [0, 0] ((List.range 3).map fun i => (num (i == 1) (2 ^ 100) : Ieee .single)) 0 1 1 = .ok s ∧ ∃ r, s.call Ieee.trunc 3 (num false (3 / 2)) = .ok r ∧ r.Finite := by
  obtain ⟨s, h1, h2⟩ := NaturalSpline.C128_range usual_single (by norm_num [Format.single]) 3 (by norm_num) (by norm_num [Format.single]) (by norm_num) [0, 0]
    ((List.range 3).map fun i => (num (i == 1) (2 ^ 100) : Ieee .single)) rfl 1 (fun i => num (i == 1) (2 ^ 100)) (by intro i hi; interval_cases i <;> rfl) 0 1 100 (by norm_num [Format.single]) (by norm_num [Format.single])
    (fun i _ => large i)
  obtain ⟨r, h3, h4, -⟩ := h2 (num false (3 / 2)) (by decide +kernel) (by decide +kernel) (by decide +kernel)
  exact ⟨s, h1, r, h3, h4⟩

example : ∃ r, HermiteSpline.Rounded.evalU (num false (1 / 2)) Ieee.trunc ((List.range 3).map fun i => (num (i == 1) (2 ^ 100) : Ieee .single)) (num false (3 / 2)) 0 1 = .ok r ∧ r.Finite := by
  obtain ⟨r, h1, h2, -⟩ := HermiteSpline.C128_range usual_single (by norm_num [Format.single]) (num false (1 / 2))
    ⟨trivial, by norm_num, by norm_num [Format.single], 1, -1, by norm_num [Format.single], by norm_num [Format.single], by norm_num⟩ rfl 3 le_rfl (by norm_num [Format.single]) (by norm_num)
    (fun i => num (i == 1) (2 ^ 100)) 100 (by norm_num [Format.single]) (by norm_num [Format.single]) (fun i _ => large i) (num false (3 / 2)) 0 1 (by decide +kernel) (by decide +kernel) (by decide +kernel)
  exact ⟨r, h1, h2⟩

end DSP
