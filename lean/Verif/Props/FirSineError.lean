import Verif.Props.FirError
import Verif.Model.BinarySqrt

/-!
# Filter designs with the sine of the C library, and the Hilbert transformer, in floating point (C86)
-/

namespace DSP
namespace Fir

open Spec

section
variable (l p : ℕ) [NeZero p] (hp : 10 ≤ p) (hp' : p ≤ 53) (hl : p ≤ l) (n N : ℤ) (h1 : 1 ≤ N) (h2 : N ≤ 2147483647)
  (hn : |n| < 2 ^ p) (hN : N ≤ 2 ^ p) (hx : |2 * n - (N - 1)| < 2 ^ p)

include hp' h1 h2 hn hN hx in
/-- The distance from the centre is exact. -/
theorem centred_exact : ∃ x : Binary p, Rounded.centred (Binary.literal 53 p 0.5) n N = .ok x ∧ x.val = (n : ℚ) - ((N : ℚ) - 1) / 2 := by
  refine ⟨_, by simp only [Rounded.centred, bind, Except.bind, int32_fits (show -2147483648 ≤ N - 1 ∧ N - 1 ≤ 2147483647 by omega), pure, Except.pure]; rfl, ?_⟩
  have e1 : (n : Binary p).val = n := Binary.cast_exact p n hn
  have hN1 : |N - 1| < 2 ^ p := by rw [abs_of_nonneg (by omega)]; omega
  have e2 : ((N - 1 : ℤ) : Binary p).val = (N - 1 : ℤ) := Binary.cast_exact p (N - 1) hN1
  have e3 : (Binary.literal 53 p 0.5).val = 1 / 2 := by
    have := Win.literal_half 53 p hp'
    have h : (((Binary.literal 53 p 0.5).val : ℚ) : ℝ) = ((1 / 2 : ℚ) : ℝ) := by rw [this]; norm_num
    exact_mod_cast h
  have e4 : (Binary.literal 53 p 0.5 * ((N - 1 : ℤ) : Binary p)).val = ((N - 1 : ℤ) : ℚ) / 2 := by
    show Binary.round p ((Binary.literal 53 p 0.5).val * ((N - 1 : ℤ) : Binary p).val) = _
    rw [e3, e2, Binary.round_of_representable p _ ⟨N - 1, -1, hN1, by rw [zpow_neg_one]; ring⟩]
    ring
  show Binary.round p ((n : Binary p).val - (Binary.literal 53 p 0.5 * ((N - 1 : ℤ) : Binary p)).val) = _
  rw [e1, e4, Binary.round_of_representable p _ ⟨2 * n - (N - 1), -1, hx, by rw [zpow_neg_one]; push_cast; ring⟩]
  push_cast
  ring

theorem quarterTurn_odd (k : ℤ) : quarterTurn ((2 * k + 1 : ℤ) : ℝ) = 2 / (Real.pi * ((2 * k + 1 : ℤ) : ℝ)) := by
  have hx : (((2 * k + 1 : ℤ)) : ℝ) ≠ 0 := by exact_mod_cast (by omega : 2 * k + 1 ≠ 0)
  rw [quarterTurn_ne _ hx]
  congr 1
  rw [show Real.pi * ((2 * k + 1 : ℤ) : ℝ) = Real.pi + (k : ℤ) * (2 * Real.pi) by push_cast; ring, Real.cos_add_int_mul_two_pi, Real.cos_pi]
  norm_num

theorem quarterTurn_even (k : ℤ) : quarterTurn ((2 * k : ℤ) : ℝ) = 0 := by
  by_cases hx : ((2 * k : ℤ) : ℝ) = 0
  · rw [hx, quarterTurn_zero]
  · rw [quarterTurn_ne _ hx, show Real.pi * ((2 * k : ℤ) : ℝ) = 0 + (k : ℤ) * (2 * Real.pi) by push_cast; ring, Real.cos_add_int_mul_two_pi, Real.cos_zero, sub_self, zero_div]

theorem quarterTurn_half (k : ℤ) : quarterTurn (((2 * k + 1 : ℤ) : ℝ) / 2) = 1 / (Real.pi * (((2 * k + 1 : ℤ) : ℝ) / 2)) := by
  have hx : ((2 * k + 1 : ℤ) : ℝ) / 2 ≠ 0 := div_ne_zero (by exact_mod_cast (by omega : 2 * k + 1 ≠ 0)) two_ne_zero
  rw [quarterTurn_ne _ hx]
  have : Real.cos (Real.pi * (((2 * k + 1 : ℤ) : ℝ) / 2)) = 0 := by
    rw [Real.cos_eq_zero_iff]
    exact ⟨k, by push_cast; ring⟩
  rw [this, sub_zero]

include hp' hl in
theorem pi_rel : Rel (1 / 2 ^ p) 3 ((Win.Rounded.pi l p).val : ℝ) Real.pi := by
  have hu0 : (0 : ℝ) ≤ 1 / 2 ^ p := by positivity
  exact Rel.of_le hu0 (by rw [abs_of_pos Real.pi_pos]; exact Win.Rounded.pi_near l p hp' hl) (by push_cast; linarith)

variable (hn32 : -1073741824 ≤ n) (hn33 : n ≤ 1073741823)

include hp hp' hl h1 h2 hn hN hx hn32 hn33 in
/-- **C86** The coefficients of the Hilbert transformer have a relative error of at most `9` units; those that should be zero are. -/
theorem C86_hilbert : ∃ w, Rounded.hilbert (Win.Rounded.pi l p) (Binary.literal 53 p 0.5) n N = .ok w ∧
    |(w.val : ℝ) - quarterTurn ((n : ℝ) - ((N : ℝ) - 1) / 2)| ≤ 9 / 2 ^ p * |quarterTurn ((n : ℝ) - ((N : ℝ) - 1) / 2)| := by
  have hR := binary_roundedField p
  have hu0 : (0 : ℝ) ≤ 1 / 2 ^ p := by positivity
  have hu := Win.unit_small p hp
  have hpi := Real.pi_ne_zero
  have rpi := pi_rel l p hp' hl
  rw [show (9 : ℝ) / 2 ^ p = 9 * (1 / 2 ^ p) by ring]
  by_cases c : N % 2 = 1
  · obtain ⟨m, rfl⟩ : ∃ m, N = 2 * m + 1 := ⟨N / 2, by omega⟩
    have ex : (n : ℝ) - (((2 * m + 1 : ℤ) : ℝ) - 1) / 2 = ((n - m : ℤ) : ℝ) := by push_cast; ring
    have e1 : (2 * m + 1 - 1 : ℤ) = 2 * m := by ring
    have e2 : (2 * m).tdiv 2 = m := by rw [Int.tdiv_eq_ediv_of_nonneg (by omega)]; omega
    rw [ex]
    simp only [Rounded.hilbert, bind, Except.bind, e1, int32_fits (show -2147483648 ≤ 2 * m ∧ 2 * m ≤ 2147483647 by omega), e2,
      int32_fits (show -2147483648 ≤ n - m ∧ n - m ≤ 2147483647 by omega), show ((2 * m + 1) % 2 == 1) = true from beq_iff_eq.mpr c, M.ite, if_true]
    generalize n - m = x
    by_cases c2 : x % 2 = 1
    · obtain ⟨k, rfl⟩ : ∃ k, x = 2 * k + 1 := ⟨x / 2, by omega⟩
      have hk : (((2 * k + 1 : ℤ)) : ℝ) ≠ 0 := by exact_mod_cast (by omega : 2 * k + 1 ≠ 0)
      have r2 : Rel (1 / 2 ^ p) 1 (((2 : ℤ) : Binary p).val : ℝ) ((2 : ℤ) : ℝ) := Rel.of_le hu0 (hR.cast _) (by norm_num)
      have rx : Rel (1 / 2 ^ p) 1 (((2 * k + 1 : ℤ) : Binary p).val : ℝ) ((2 * k + 1 : ℤ) : ℝ) := Rel.of_le hu0 (hR.cast _) (by norm_num)
      obtain ⟨h0, r⟩ := r2.div hu0 (by linarith) (rpi.mul hu0 rx (hR.mul _ _)) (mul_ne_zero hpi hk) (by norm_num at hu ⊢; linarith) (hR.div _ _)
      refine ⟨_, by simp only [show ((2 * k + 1) % 2 == 1) = true from beq_iff_eq.mpr c2, if_true]; exact fdiv_ok' p _ _ h0, ?_⟩
      rw [quarterTurn_odd, show (2 : ℝ) = ((2 : ℤ) : ℝ) by norm_num]
      exact r.bound hu0 (by norm_num at hu ⊢; linarith) (by norm_num at hu ⊢; linarith)
    · obtain ⟨k, rfl⟩ : ∃ k, x = 2 * k := ⟨x / 2, by omega⟩
      refine ⟨0, by simp only [show ((2 * k) % 2 == 1) = false from beq_eq_false_iff_ne.mpr c2, Bool.false_eq_true, if_false, pure, Except.pure], ?_⟩
      rw [quarterTurn_even, show ((0 : Binary p).val : ℝ) = 0 from hR.zero]
      simp
  · obtain ⟨m, rfl⟩ : ∃ m, N = 2 * m := ⟨N / 2, by omega⟩
    obtain ⟨x, ex, hxv⟩ := centred_exact p hp' n (2 * m) h1 h2 hn hN hx
    have hv : (n : ℝ) - (((2 * m : ℤ) : ℝ) - 1) / 2 = ((2 * (n - m) + 1 : ℤ) : ℝ) / 2 := by push_cast; ring
    have hv2 : (x.val : ℝ) = ((2 * (n - m) + 1 : ℤ) : ℝ) / 2 := by rw [← hv, hxv]; push_cast; ring
    have hk : ((2 * (n - m) + 1 : ℤ) : ℝ) / 2 ≠ 0 := div_ne_zero (by exact_mod_cast (by omega : 2 * (n - m) + 1 ≠ 0)) two_ne_zero
    have r1 : Rel (1 / 2 ^ p) 1 (((1 : ℤ) : Binary p).val : ℝ) ((1 : ℤ) : ℝ) := Rel.of_le hu0 (hR.cast _) (by norm_num)
    have rx : Rel (1 / 2 ^ p) 0 (x.val : ℝ) (((2 * (n - m) + 1 : ℤ) : ℝ) / 2) := by rw [hv2]; exact Rel.refl _ _
    obtain ⟨h0, r⟩ := r1.div hu0 (by linarith) (rpi.mul hu0 rx (hR.mul _ _)) (mul_ne_zero hpi hk) (by norm_num at hu ⊢; linarith) (hR.div _ _)
    refine ⟨((1 : ℤ) : Binary p) / (Win.Rounded.pi l p * x), ?_, ?_⟩
    · simp only [Rounded.hilbert, show ((2 * m) % 2 == 1) = false from beq_eq_false_iff_ne.mpr c, M.ite, Bool.false_eq_true, if_false, bind, Except.bind, ex]
      exact fdiv_ok' p _ _ h0
    · rw [hv, quarterTurn_half]
      have := r.bound hu0 (by norm_num at hu ⊢; linarith) (show _ ≤ (9 : ℝ) by norm_num at hu ⊢; linarith)
      rw [Int.cast_one] at this
      exact this

omit hn hx hn32 hn33 in
include hp hp' hl h1 hN in
/-- **C86** The Hilbert transformer is exactly antisymmetric. -/
theorem C86_antisymmetric (hn : 0 ≤ n) (hnN : n < N) (hN30 : N ≤ 1073741824) : ∃ a b, Rounded.hilbert (Win.Rounded.pi l p) (Binary.literal 53 p 0.5) n N = .ok a ∧
    Rounded.hilbert (Win.Rounded.pi l p) (Binary.literal 53 p 0.5) (N - 1 - n) N = .ok b ∧ b.val = -a.val := by
  obtain ⟨a, ea, -⟩ := C86_hilbert l p hp hp' hl n N h1 (by omega) (by rw [abs_of_nonneg hn]; omega) hN (by rw [abs_lt]; omega) (by omega) (by omega)
  obtain ⟨b, eb, -⟩ := C86_hilbert l p hp hp' hl (N - 1 - n) N h1 (by omega) (by rw [abs_of_nonneg (by omega)]; omega) hN (by rw [abs_lt]; omega) (by omega) (by omega)
  refine ⟨a, b, ea, eb, ?_⟩
  by_cases c : N % 2 = 1
  · obtain ⟨m, rfl⟩ : ∃ m, N = 2 * m + 1 := ⟨N / 2, by omega⟩
    have e1 : (2 * m + 1 - 1 : ℤ) = 2 * m := by ring
    have e2 : (2 * m).tdiv 2 = m := by rw [Int.tdiv_eq_ediv_of_nonneg (by omega)]; omega
    have e3 : 2 * m + 1 - 1 - n - m = -(n - m) := by ring
    simp only [Rounded.hilbert, bind, Except.bind, e1, int32_fits (show -2147483648 ≤ 2 * m ∧ 2 * m ≤ 2147483647 by omega), e2,
      int32_fits (show -2147483648 ≤ n - m ∧ n - m ≤ 2147483647 by omega), show ((2 * m + 1) % 2 == 1) = true from beq_iff_eq.mpr c, M.ite, if_true] at ea
    rw [e1] at e3
    simp only [Rounded.hilbert, bind, Except.bind, e1, int32_fits (show -2147483648 ≤ 2 * m ∧ 2 * m ≤ 2147483647 by omega), e2, e3,
      int32_fits (show -2147483648 ≤ -(n - m) ∧ -(n - m) ≤ 2147483647 by omega), show ((2 * m + 1) % 2 == 1) = true from beq_iff_eq.mpr c, M.ite, if_true] at eb
    generalize n - m = x at *
    by_cases c2 : x % 2 = 1
    · simp only [show (x % 2 == 1) = true from beq_iff_eq.mpr c2, if_true, Rounded.fdiv, M.ite] at ea
      simp only [show (-x % 2 == 1) = true from beq_iff_eq.mpr (by omega), if_true, Rounded.fdiv, M.ite, UnitCircle.binary_cast_neg, UnitCircle.binary_mul_neg, UnitCircle.binary_div_neg] at eb
      split_ifs at ea eb
      rw [← Except.ok.inj ea, ← Except.ok.inj eb]
      rfl
    · simp only [show (x % 2 == 1) = false from beq_eq_false_iff_ne.mpr c2, Bool.false_eq_true, if_false] at ea
      simp only [show (-x % 2 == 1) = false from beq_eq_false_iff_ne.mpr (by omega), Bool.false_eq_true, if_false] at eb
      rw [← Except.ok.inj ea, ← Except.ok.inj eb]
      exact (neg_zero (G := ℚ)).symm
  · obtain ⟨x, ex, hxv⟩ := centred_exact p hp' n N h1 (by omega) (by rw [abs_of_nonneg hn]; omega) hN (by rw [abs_lt]; omega)
    obtain ⟨y, ey, hyv⟩ := centred_exact p hp' (N - 1 - n) N h1 (by omega) (by rw [abs_of_nonneg (by omega)]; omega) hN (by rw [abs_lt]; omega)
    have exy : y = -x := by
      apply Binary.val_injective
      show y.val = -x.val
      rw [hxv, hyv]
      push_cast
      ring
    simp only [Rounded.hilbert, show (N % 2 == 1) = false from beq_eq_false_iff_ne.mpr c, M.ite, Bool.false_eq_true, if_false, bind, Except.bind, ex, Rounded.fdiv] at ea
    simp only [Rounded.hilbert, show (N % 2 == 1) = false from beq_eq_false_iff_ne.mpr c, M.ite, Bool.false_eq_true, if_false, bind, Except.bind, ey, exy, Rounded.fdiv, UnitCircle.binary_mul_neg, UnitCircle.binary_div_neg] at eb
    split_ifs at ea eb
    rw [← Except.ok.inj ea, ← Except.ok.inj eb]
    rfl

/-! ### With the sine of the library -/

/-- A sine with an error below one unit in the last place. -/
def LibrarySine (p : ℕ) (sin : Binary p → Binary p) : Prop := ∀ a, |((sin a).val : ℝ) - Real.sin a.val| ≤ 2 * (1 / 2 ^ p) * |Real.sin a.val|

theorem sinc_numbers (u θ θ' s q : ℝ) (hu0 : 0 ≤ u) (hu : u ≤ 1 / 1000) (hθ : θ ≠ 0) (hr : |θ' - θ| ≤ 5.03 * u * |θ|) (hθ' : θ' ≠ 0) (hs : |s - Real.sin θ'| ≤ 2 * u * |Real.sin θ'|)
    (hq : |q - s / θ'| ≤ u * |s / θ'|) : |q - Real.sin θ / θ| ≤ 13.2 * u ∧ |q| ≤ 1.01 := by
  have a0 : 0 < |θ| := abs_pos.mpr hθ
  have a1 : 0 < |θ'| := abs_pos.mpr hθ'
  have c1 : |Real.sin θ' / θ'| ≤ 1 := by
    rw [abs_div, div_le_one a1]
    exact Real.abs_sin_le_abs
  have c2 : |Real.sin θ / θ| ≤ 1 := by
    rw [abs_div, div_le_one a0]
    exact Real.abs_sin_le_abs
  have c3 : |s / θ' - Real.sin θ' / θ'| ≤ 2 * u := by
    rw [← sub_div, abs_div, div_le_iff₀ a1]
    refine hs.trans (mul_le_mul_of_nonneg_left Real.abs_sin_le_abs (by positivity))
  have c4 : |s / θ'| ≤ 1 + 2 * u := by
    have := abs_sub_abs_le_abs_sub (s / θ') (Real.sin θ' / θ')
    linarith
  have c5 : |q - s / θ'| ≤ 1.002 * u := by nlinarith
  have ht : 0.994 * |θ| ≤ |θ'| := by
    have := abs_sub_abs_le_abs_sub θ θ'
    rw [abs_sub_comm θ θ'] at this
    nlinarith
  have c6 : |Real.sin θ' / θ' - Real.sin θ / θ| ≤ 10.13 * u := by
    have e : Real.sin θ' / θ' - Real.sin θ / θ = (Real.sin θ' - Real.sin θ) / θ' - Real.sin θ / θ * ((θ' - θ) / θ') := by
      field_simp
      ring
    have hl1 : |Real.sin θ' - Real.sin θ| ≤ |θ' - θ| := by
      have := Real.abs_sin_sub_sin_le θ' θ
      exact this
    have d : |θ' - θ| / |θ'| ≤ 5.0604 * u := by
      rw [div_le_iff₀ a1]
      calc _ ≤ 5.03 * u * |θ| := hr
        _ ≤ 5.0604 * u * (0.994 * |θ|) := by nlinarith [mul_nonneg hu0 a0.le]
        _ ≤ _ := mul_le_mul_of_nonneg_left ht (by positivity)
    have d0 : 0 ≤ |θ' - θ| / |θ'| := by positivity
    rw [e]
    calc _ ≤ |(Real.sin θ' - Real.sin θ) / θ'| + |Real.sin θ / θ * ((θ' - θ) / θ')| := abs_sub _ _
      _ = |Real.sin θ' - Real.sin θ| / |θ'| + |Real.sin θ / θ| * (|θ' - θ| / |θ'|) := by rw [abs_div, abs_mul, abs_div (θ' - θ)]
      _ ≤ |θ' - θ| / |θ'| + 1 * (|θ' - θ| / |θ'|) := by gcongr
      _ ≤ _ := by linarith
  constructor
  · have e : q - Real.sin θ / θ = (q - s / θ') + (s / θ' - Real.sin θ' / θ') + (Real.sin θ' / θ' - Real.sin θ / θ) := by ring
    rw [e]
    refine (abs_add_three _ _ _).trans ?_
    linarith
  · have := abs_sub_abs_le_abs_sub q (s / θ')
    linarith

include hp hp' hl in
/-- `sinc` for an argument that is off by one rounding. -/
theorem sinc_near (sin : Binary p → Binary p) (hsin : LibrarySine p sin) (y : Binary p) (Y : ℝ) (hy : Rel (1 / 2 ^ p) 1 (y.val : ℝ) Y) :
    ∃ q, Rounded.sinc sin (Win.Rounded.pi l p) y = .ok q ∧ |(q.val : ℝ) - sinc Y| ≤ 13.2 / 2 ^ p ∧ |(q.val : ℝ)| ≤ 1.01 := by
  have hR := binary_roundedField p
  have hu0 : (0 : ℝ) ≤ 1 / 2 ^ p := by positivity
  have hu := Win.unit_small p hp
  have hpi := Real.pi_ne_zero
  have rpi := pi_rel l p hp' hl
  rw [show (13.2 : ℝ) / 2 ^ p = 13.2 * (1 / 2 ^ p) by ring]
  by_cases c : Y = 0
  · have hy0 : y = 0 := by
      apply Binary.val_injective
      unfold Rel at hy
      rw [c, abs_zero, mul_zero, sub_zero] at hy
      exact_mod_cast abs_nonpos_iff.mp hy
    refine ⟨((1 : ℤ) : Binary p), ?_, ?_, ?_⟩
    · simp only [Rounded.sinc, hy0, beq_self_eq_true, M.ite, if_true, pure, Except.pure]
    · rw [c, show (((1 : ℤ) : Binary p).val : ℝ) = 1 from hR.one]
      simp only [sinc, if_true, sub_self, abs_zero]
      positivity
    · rw [show (((1 : ℤ) : Binary p).val : ℝ) = 1 from hR.one, abs_one]
      norm_num
  · obtain ⟨hy0, -⟩ := hy.inv hu0 (by linarith) c (by norm_num at hu ⊢; linarith)
    have rθ := rpi.mul hu0 hy (hR.mul _ _)
    have hθ : Real.pi * Y ≠ 0 := mul_ne_zero hpi c
    obtain ⟨hθ0, -⟩ := rθ.inv hu0 (by linarith) hθ (by norm_num at hu ⊢; linarith)
    obtain ⟨b1, b2⟩ := sinc_numbers (1 / 2 ^ p) (Real.pi * Y) ((Win.Rounded.pi l p * y).val : ℝ) ((sin (Win.Rounded.pi l p * y)).val : ℝ) ((sin (Win.Rounded.pi l p * y) / (Win.Rounded.pi l p * y)).val : ℝ)
      hu0 hu hθ (rθ.bound hu0 (by norm_num at hu ⊢; linarith) (by norm_num at hu ⊢; linarith)) hθ0 (hsin _) (hR.div _ _ hθ0)
    refine ⟨sin (Win.Rounded.pi l p * y) / (Win.Rounded.pi l p * y), ?_, ?_, b2⟩
    · simp only [Rounded.sinc, beq_zero_false p hy0, M.ite, Bool.false_eq_true, if_false]
      exact fdiv_ok' p _ _ hθ0
    · rw [sinc, if_neg (fun h => c h.symm)]
      exact b1

theorem scaled_numbers (u f q S w : ℝ) (hu0 : 0 ≤ u) (hq : |q - S| ≤ 13.2 * u) (hq1 : |q| ≤ 1.01) (hw : |w - f * q| ≤ u * |f * q|) : |w - f * S| ≤ 14.3 * u * |f| := by
  have e : w - f * S = (w - f * q) + f * (q - S) := by ring
  rw [e]
  refine (abs_add_le _ _).trans ?_
  rw [abs_mul f] at hw ⊢
  have hf := abs_nonneg f
  have h1 : u * (|f| * |q|) ≤ u * (|f| * 1.01) := by gcongr
  have h2 : |f| * |q - S| ≤ |f| * (13.2 * u) := by gcongr
  have h3 : 0 ≤ u * |f| := by positivity
  nlinarith

include hp in
theorem double_exact (c : Binary p) : ((((2 : ℤ) : Binary p) * c).val : ℝ) = 2 * (c.val : ℝ) := by
  have e : (((2 : ℤ) : Binary p) * c).val = 2 * c.val := by
    have h2 := Binary.cast_exact p 2 (by
      have : (2 : ℤ) ^ 10 ≤ 2 ^ p := by gcongr; norm_num
      rw [abs_of_pos (by norm_num)]
      linarith)
    show Binary.round p (((2 : ℤ) : Binary p).val * c.val) = _
    rw [h2, Int.cast_ofNat, Binary.round_two_mul, Binary.round_of_representable p _ c.representable]
  rw [e]
  push_cast
  ring

include hp hp' hl h1 h2 hn hN hx in
theorem lowPass_near (sin : Binary p → Binary p) (hsin : LibrarySine p sin) (cutoff : Binary p) : ∃ x q, Rounded.centred (Binary.literal 53 p 0.5) n N = .ok x ∧
    (x.val : ℝ) = (n : ℝ) - ((N : ℝ) - 1) / 2 ∧ Rounded.sinc sin (Win.Rounded.pi l p) (((2 : ℤ) : Binary p) * cutoff * x) = .ok q ∧
    |((((2 : ℤ) : Binary p) * cutoff * q).val : ℝ) - passBand 0 cutoff.val ((n : ℝ) - ((N : ℝ) - 1) / 2)| ≤ 14.3 * (1 / 2 ^ p) * |2 * (cutoff.val : ℝ)| := by
  have hR := binary_roundedField p
  have hu0 : (0 : ℝ) ≤ 1 / 2 ^ p := by positivity
  obtain ⟨x, ex, hxv⟩ := centred_exact p hp' n N h1 h2 hn hN hx
  have hxv' : (x.val : ℝ) = (n : ℝ) - ((N : ℝ) - 1) / 2 := by rw [hxv]; push_cast; ring
  have hd := double_exact p hp cutoff
  have ry : Rel (1 / 2 ^ p) 1 ((((2 : ℤ) : Binary p) * cutoff * x).val : ℝ) (2 * (cutoff.val : ℝ) * ((n : ℝ) - ((N : ℝ) - 1) / 2)) := by
    refine (Rel.refl (1 / 2 ^ p) _).round hu0 ?_
    have := hR.mul (((2 : ℤ) : Binary p) * cutoff) x
    rw [hd, hxv'] at this
    exact this
  obtain ⟨q, eq, b1, b2⟩ := sinc_near l p hp hp' hl sin hsin _ _ ry
  refine ⟨x, q, ex, hxv', eq, ?_⟩
  rw [← sinc_passBand]
  have hm := hR.mul (((2 : ℤ) : Binary p) * cutoff) q
  rw [hd] at hm
  exact scaled_numbers (1 / 2 ^ p) (2 * (cutoff.val : ℝ)) (q.val : ℝ) _ _ hu0 (by rw [show (13.2 : ℝ) * (1 / 2 ^ p) = 13.2 / 2 ^ p by ring]; exact b1) b2 hm

include hp hp' hl h1 h2 hn hN hx in
/-- **C86** The low pass filters with the sine of the library have an absolute error of at most `15` units of the largest coefficient. -/
theorem C86_lowPass (sin : Binary p → Binary p) (hsin : LibrarySine p sin) (cutoff : Binary p) : ∃ w, Rounded.lowPass sin (Win.Rounded.pi l p) (Binary.literal 53 p 0.5) cutoff n N = .ok w ∧
    |(w.val : ℝ) - passBand 0 cutoff.val ((n : ℝ) - ((N : ℝ) - 1) / 2)| ≤ 15 / 2 ^ p * |2 * (cutoff.val : ℝ)| := by
  obtain ⟨x, q, ex, -, eq, b⟩ := lowPass_near l p hp hp' hl n N h1 h2 hn hN hx sin hsin cutoff
  refine ⟨((2 : ℤ) : Binary p) * cutoff * q, by simp only [Rounded.lowPass, bind, Except.bind, ex, eq, pure, Except.pure], b.trans ?_⟩
  rw [show (15 : ℝ) / 2 ^ p = 15 * (1 / 2 ^ p) by ring]
  gcongr
  norm_num

theorem difference_numbers (u a b A B w ea eb : ℝ) (hu0 : 0 ≤ u) (ha : |a - A| ≤ ea) (hb : |b - B| ≤ eb) (hw : |w - (a - b)| ≤ u * |a - b|) :
    |w - (A - B)| ≤ (1 + u) * (ea + eb) + u * (|A| + |B|) := by
  have e1 : |w - (A - B)| ≤ |w - (a - b)| + |a - A| + |b - B| := by
    calc |w - (A - B)| = |(w - (a - b)) + (a - A) + -(b - B)| := by congr 1; ring
      _ ≤ _ := by rw [← abs_neg (b - B)]; exact abs_add_three _ _ _
  have e2 : |a - b| ≤ |A| + |B| + (ea + eb) := by
    calc |a - b| = |(A + -B) + ((a - A) + -(b - B))| := by congr 1; ring
      _ ≤ (|A| + |-B|) + (|a - A| + |-(b - B)|) := (abs_add_le _ _).trans (add_le_add (abs_add_le _ _) (abs_add_le _ _))
      _ ≤ _ := by rw [abs_neg, abs_neg]; linarith
  have e3 : u * |a - b| ≤ u * (|A| + |B| + (ea + eb)) := mul_le_mul_of_nonneg_left e2 hu0
  linarith

theorem sinc_le (x : ℝ) : |sinc x| ≤ 1 := by
  unfold sinc
  split_ifs with h
  · simp
  · rw [abs_div, div_le_one (abs_pos.mpr (mul_ne_zero Real.pi_ne_zero (fun h' => h h'.symm)))]
    exact Real.abs_sin_le_abs

theorem passBand_le (c x : ℝ) : |passBand 0 c x| ≤ |2 * c| := by
  rw [← sinc_passBand, abs_mul]
  exact mul_le_of_le_one_right (abs_nonneg _) (sinc_le _)

include hp hp' hl h1 h2 hn hN hx in
/-- **C86** The same for high and band pass. -/
theorem C86_highPass (sin : Binary p → Binary p) (hsin : LibrarySine p sin) (cutoff : Binary p) : ∃ w, Rounded.highPass sin (Win.Rounded.pi l p) (Binary.literal 53 p 0.5) cutoff n N = .ok w ∧
    |(w.val : ℝ) - passBand cutoff.val (1 / 2) ((n : ℝ) - ((N : ℝ) - 1) / 2)| ≤ (15 + 16 * |2 * (cutoff.val : ℝ)|) / 2 ^ p := by
  have hR := binary_roundedField p
  have hu0 : (0 : ℝ) ≤ 1 / 2 ^ p := by positivity
  have hu := Win.unit_small p hp
  obtain ⟨x, q, ex, hxv, eq, b⟩ := lowPass_near l p hp hp' hl n N h1 h2 hn hN hx sin hsin cutoff
  obtain ⟨a, ea, a1, -⟩ := sinc_near l p hp hp' hl sin hsin x ((n : ℝ) - ((N : ℝ) - 1) / 2) (by rw [hxv]; exact (Rel.refl _ _).round hu0 (by simp))
  refine ⟨a - ((2 : ℤ) : Binary p) * cutoff * q, by simp only [Rounded.highPass, bind, Except.bind, ex, ea, eq, pure, Except.pure], ?_⟩
  rw [eq_sub_of_add_eq' (passBand_add 0 (cutoff.val : ℝ) (1 / 2) _), ← sinc_full]
  have := difference_numbers (1 / 2 ^ p) _ _ _ _ _ _ _ hu0 a1 b (hR.sub a (((2 : ℤ) : Binary p) * cutoff * q))
  refine this.trans ?_
  have s1 := sinc_le ((n : ℝ) - ((N : ℝ) - 1) / 2)
  have s2 := passBand_le (cutoff.val : ℝ) ((n : ℝ) - ((N : ℝ) - 1) / 2)
  rw [show (13.2 : ℝ) / 2 ^ p = 13.2 * (1 / 2 ^ p) by ring, show (15 + 16 * |2 * (cutoff.val : ℝ)|) / 2 ^ p = (15 + 16 * |2 * (cutoff.val : ℝ)|) * (1 / 2 ^ p) by ring]
  generalize (1 : ℝ) / 2 ^ p = u at *
  generalize |sinc ((n : ℝ) - ((N : ℝ) - 1) / 2)| = A at *
  generalize |passBand 0 (cutoff.val : ℝ) ((n : ℝ) - ((N : ℝ) - 1) / 2)| = B at *
  have hF := abs_nonneg (2 * (cutoff.val : ℝ))
  generalize |2 * (cutoff.val : ℝ)| = F at *
  have e1 : u * (A + B) ≤ u * (1 + F) := mul_le_mul_of_nonneg_left (by linarith) hu0
  have e2 : (1 + u) * (13.2 * u + 14.3 * u * F) ≤ 1.001 * (13.2 * u + 14.3 * u * F) := mul_le_mul_of_nonneg_right (by linarith) (by positivity)
  have e3 : 0 ≤ u * F := by positivity
  nlinarith

include hp hp' hl h1 h2 hn hN hx in
theorem C86_bandPass (sin : Binary p → Binary p) (hsin : LibrarySine p sin) (c0 c1 : Binary p) : ∃ w, Rounded.bandPass sin (Win.Rounded.pi l p) (Binary.literal 53 p 0.5) c0 c1 n N = .ok w ∧
    |(w.val : ℝ) - passBand c0.val c1.val ((n : ℝ) - ((N : ℝ) - 1) / 2)| ≤ 16 / 2 ^ p * (|2 * (c0.val : ℝ)| + |2 * (c1.val : ℝ)|) := by
  have hR := binary_roundedField p
  have hu0 : (0 : ℝ) ≤ 1 / 2 ^ p := by positivity
  have hu := Win.unit_small p hp
  obtain ⟨x, q, ex, hxv, eq, b⟩ := lowPass_near l p hp hp' hl n N h1 h2 hn hN hx sin hsin c1
  obtain ⟨x', r, ex', -, er, b'⟩ := lowPass_near l p hp hp' hl n N h1 h2 hn hN hx sin hsin c0
  rw [ex] at ex'
  obtain rfl := Except.ok.inj ex'
  refine ⟨((2 : ℤ) : Binary p) * c1 * q - ((2 : ℤ) : Binary p) * c0 * r, by simp only [Rounded.bandPass, bind, Except.bind, ex, er, eq, pure, Except.pure], ?_⟩
  rw [eq_sub_of_add_eq' (passBand_add 0 (c0.val : ℝ) (c1.val : ℝ) _)]
  have := difference_numbers (1 / 2 ^ p) _ _ _ _ _ _ _ hu0 b b' (hR.sub (((2 : ℤ) : Binary p) * c1 * q) (((2 : ℤ) : Binary p) * c0 * r))
  refine this.trans ?_
  have s1 := passBand_le (c1.val : ℝ) ((n : ℝ) - ((N : ℝ) - 1) / 2)
  have s2 := passBand_le (c0.val : ℝ) ((n : ℝ) - ((N : ℝ) - 1) / 2)
  rw [show (16 : ℝ) / 2 ^ p = 16 * (1 / 2 ^ p) by ring]
  generalize (1 : ℝ) / 2 ^ p = u at *
  generalize |passBand 0 (c1.val : ℝ) ((n : ℝ) - ((N : ℝ) - 1) / 2)| = A at *
  generalize |passBand 0 (c0.val : ℝ) ((n : ℝ) - ((N : ℝ) - 1) / 2)| = B at *
  have hF := abs_nonneg (2 * (c1.val : ℝ))
  have hG := abs_nonneg (2 * (c0.val : ℝ))
  generalize |2 * (c1.val : ℝ)| = F at *
  generalize |2 * (c0.val : ℝ)| = G at *
  have e1 : u * (A + B) ≤ u * (F + G) := mul_le_mul_of_nonneg_left (by linarith) hu0
  have e2 : (1 + u) * (14.3 * u * F + 14.3 * u * G) ≤ 1.001 * (14.3 * u * F + 14.3 * u * G) := mul_le_mul_of_nonneg_right (by linarith) (by positivity)
  have e3 : 0 ≤ u * F := by positivity
  have e4 : 0 ≤ u * G := by positivity
  nlinarith

end

/-- The correctly rounded sine. -/
noncomputable def roundedSine {p : ℕ} [NeZero p] (a : Binary p) : Binary p :=
  ⟨Binary.roundReal p (Real.sin (a.val : ℝ)), Binary.roundReal_representable p (Nat.pos_of_ne_zero (NeZero.ne p)) _⟩

theorem roundedSine_library (p : ℕ) [NeZero p] : LibrarySine p roundedSine := by
  intro a
  have := Binary.roundReal_error p (Real.sin (a.val : ℝ))
  refine this.trans ?_
  have h : 0 ≤ |Real.sin (a.val : ℝ)| / 2 ^ p := by positivity
  rw [show 2 * (1 / 2 ^ p) * |Real.sin (a.val : ℝ)| = 2 * (|Real.sin (a.val : ℝ)| / 2 ^ p) by ring]
  linarith

/-- A low pass filter of 129 taps. -/
example (cutoff : Binary 24) : ∃ w, Rounded.lowPass roundedSine (Win.Rounded.pi 64 24) (Binary.literal 53 24 0.5) cutoff 17 129 = .ok w ∧
    |(w.val : ℝ) - passBand 0 cutoff.val (((17 : ℤ) : ℝ) - (((129 : ℤ) : ℝ) - 1) / 2)| ≤ 15 / 2 ^ 24 * |2 * (cutoff.val : ℝ)| :=
  C86_lowPass 64 24 (by norm_num) (by norm_num) (by norm_num) 17 129 (by norm_num) (by norm_num) (by norm_num) (by norm_num) (by norm_num) _ (roundedSine_library 24) cutoff

/-- And one with a rational cutoff frequency. -/
example : ∃ w, Rounded.lowPass2 (Kernels.of (UnitCircle.Coeffs.binary 64 24)) (Rounded.halfPi 64 24) 1 3 17 129 = .ok w ∧
    |(w.val : ℝ) - passBand 0 (((1 : ℤ) : ℝ) / ((3 : ℤ) : ℝ)) (((17 : ℤ) : ℝ) - (((129 : ℤ) : ℝ) - 1) / 2)| ≤ 31 / 2 ^ 24 * |passBand 0 (((1 : ℤ) : ℝ) / ((3 : ℤ) : ℝ)) (((17 : ℤ) : ℝ) - (((129 : ℤ) : ℝ) - 1) / 2)| :=
  C86_lowPass2 64 24 (by norm_num) (by norm_num) (by norm_num) 17 129 (by norm_num) (by norm_num) 1 3 (by norm_num) (by norm_num) (by norm_num) (by norm_num) (by norm_num) (by norm_num) (by norm_num)
    (by norm_num) (by norm_num)

end Fir
end DSP
