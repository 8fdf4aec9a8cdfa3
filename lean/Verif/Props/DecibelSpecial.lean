import Verif.Props.ExpSpecial
import Verif.Props.DecibelError
import Verif.Props.DemodSpecial

/-!
# C122: levels over the whole range of floating point

`Same a b` says that a number of the format and one without limits for the exponent have the same value. It is shown to hold for every step of `decibel`, so that C77 is true for `float` and `double`.
-/

namespace DSP
namespace Elementary
namespace DecibelIeee

open AtanIeee ExpIeee Binary Ieee

/-- The same finite number. -/
def Same {F : Format} (a : Ieee F) (b : Binary F.p) : Prop := Is a b.val

section
variable {F : Format} (W : Wide F) {a a' : Ieee F} {b b' : Binary F.p}
include W

theorem roomy : (2 : ℚ) ^ 22 < 2 ^ F.emax := by
  rw [← zpow_natCast]
  exact zpow_lt_zpow_right₀ (by norm_num) (by have := W.p; have := W.emax; push_cast; omega)

theorem finite_room {v : ℚ} (h : |v| ≤ 2 ^ 20) : |roundTo F v| < 2 ^ F.emax := by
  have h1 := (rounding_ieee W).double v
  refine lt_of_le_of_lt ?_ (roomy W)
  norm_num at h ⊢
  linarith

theorem same_add (ha : Same a b) (hb : Same a' b') (h : |b.val + b'.val| ≤ 2 ^ 20) [NeZero F.p] : Same (a + a') (b + b') := by
  have e := agree_grid W _ _ (Is.fits ha) (Is.fits hb)
  obtain ⟨f1, v1, e1⟩ := ha
  obtain ⟨f2, v2, e2⟩ := hb
  have hf := (add_finite a a' f1 f2).mpr (by rw [e1, e2]; exact finite_room W h)
  exact ⟨hf, add_valid W.pos a a', by rw [add_val W.pos a a' f1 f2 hf, e1, e2, e]; rfl⟩

theorem same_sub (ha : Same a b) (hb : Same a' b') (h : |b.val - b'.val| ≤ 2 ^ 20) [NeZero F.p] : Same (a - a') (b - b') := by
  have hn := Is.neg hb
  have e := agree_grid W _ _ (Is.fits ha) (Is.fits hn)
  obtain ⟨f1, v1, e1⟩ := ha
  obtain ⟨f2, v2, e2⟩ := hn
  have hf : (a + -a').Finite := (add_finite a (-a') f1 f2).mpr (by rw [e1, e2]; exact finite_room W (by rwa [← sub_eq_add_neg]))
  refine ⟨hf, add_valid W.pos a (-a'), ?_⟩
  have := add_val W.pos a (-a') f1 f2 hf
  rw [e1, e2, e, ← sub_eq_add_neg] at this
  exact this

theorem same_mul (ha : Same a b) (hb : Same a' b') (h : |b.val * b'.val| ≤ 2 ^ 20) (h' : b.val * b'.val = 0 ∨ (1 / 2 ^ F.p) ^ 3 / 128 ≤ |b.val * b'.val|) [NeZero F.p] : Same (a * a') (b * b') := by
  have e := agree W _ h'
  obtain ⟨f1, v1, e1⟩ := ha
  obtain ⟨f2, v2, e2⟩ := hb
  have hf := (mul_finite a a' f1 f2).mpr (by rw [e1, e2]; exact finite_room W h)
  exact ⟨hf, mul_valid W.pos a a', by rw [mul_val W.pos a a' f1 f2 v1 v2 hf, e1, e2, e]; rfl⟩

theorem same_div (ha : Same a b) (hb : Same a' b') (h0 : b'.val ≠ 0) (h : |b.val / b'.val| ≤ 2 ^ 20) (h' : b.val / b'.val = 0 ∨ (1 / 2 ^ F.p) ^ 3 / 128 ≤ |b.val / b'.val|) [NeZero F.p] : Same (a / a') (b / b') := by
  have e := agree W _ h'
  obtain ⟨f1, v1, e1⟩ := ha
  obtain ⟨f2, v2, e2⟩ := hb
  have h0' : a'.val ≠ 0 := by rwa [e2]
  have hf := (div_finite a a' f1 f2 h0').mpr (by rw [e1, e2]; exact finite_room W h)
  exact ⟨hf, div_valid W.pos a a', by rw [div_val W.pos a a' f1 f2 v1 v2 hf h0', e1, e2, e]; rfl⟩

theorem same_int [NeZero F.p] (n : ℤ) (hn : |n| ≤ 4096) : Same ((n : Ieee F)) ((n : Binary F.p)) ∧ ((n : Binary F.p)).val = n := by
  have e : ((n : Binary F.p)).val = n := (rounding_binary W).int n hn
  have i := is_int W n hn
  rw [(rounding_ieee W).int n hn] at i
  exact ⟨by unfold Same; rwa [e], e⟩

theorem same_literal [NeZero F.p] (b : Binary F.p) (h1 : 1 / 2 ^ 60 ≤ |b.val|) (h2 : |b.val| ≤ 2 ^ 20) : Same (Ieee.literal b.val : Ieee F) b := by
  have e : roundTo F b.val = b.val := by
    rw [agree W _ (Or.inr ((tiny W).1.trans h1)), Binary.round_self]
  have hf : (Ieee.literal b.val : Ieee F).Finite := (pack_finite _ _).mpr (finite_room W h2)
  refine ⟨hf, pack_valid W.pos _ _, ?_⟩
  show (pack _ _ : Ieee F).val = _
  rw [pack_val W.pos _ _ hf, signed_decide, e]

/-! ### Roots -/

theorem same_sqrt [NeZero F.p] (ha : Same a b) (hb : 0 < b.val) : Same (Ieee.sqrt a) (Binary.sqrt b) ∧ 0 < (Binary.sqrt b).val := by
  obtain ⟨f, v, e⟩ := ha
  obtain ⟨s, m, rfl⟩ := (finite_iff a).mp f
  have hm : 0 ≤ m := v.1
  have hs : s = false := by
    cases s
    · rfl
    · exfalso
      have : -m = b.val := e
      linarith
  subst hs
  have e' : m = b.val := e
  have hm0 : 0 < m := e' ▸ hb
  have hemin := W.emin
  have hp := W.p
  obtain ⟨n, hn⟩ := (Is.fits ⟨f, v, rfl⟩).2
  have hmin : (2 : ℚ) ^ F.emin ≤ m := by
    have h2 : (0 : ℚ) < 2 ^ F.emin := by positivity
    have hn' : m = n * 2 ^ F.emin := hn
    have : (0 : ℚ) < n := by
      rw [hn'] at hm0
      exact (mul_pos_iff_of_pos_right h2).mp hm0
    have h1 : 0 < n := by exact_mod_cast this
    have h1' : (1 : ℚ) ≤ n := by exact_mod_cast h1
    rw [hn']
    exact le_mul_of_one_le_left h2.le h1'
  have hminR : (2 : ℝ) ^ F.emin ≤ (m : ℝ) := by
    have := (Rat.cast_le (K := ℝ)).mpr hmin
    push_cast at this
    exact this
  have hmR : (0 : ℝ) < (m : ℝ) := by exact_mod_cast hm0
  have hroot : (2 : ℝ) ^ (F.emin + F.p - 1) ≤ √(m : ℝ) := by
    apply Real.le_sqrt_of_sq_le
    rw [← zpow_natCast, ← zpow_mul]
    exact le_trans (zpow_le_zpow_right₀ (by norm_num) (by push_cast; omega)) hminR
  have hroot0 : 0 < √(m : ℝ) := Real.sqrt_pos.mpr hmR
  have hlog : F.emin + F.p - 1 ≤ Int.log 2 |√(m : ℝ)| :=
    (Int.zpow_le_iff_le_log (b := 2) (by norm_num) (abs_pos.mpr hroot0.ne')).mp (by rw [abs_of_pos hroot0]; push_cast; exact hroot)
  have eR : Ieee.roundReal F √(m : ℝ) = Binary.roundReal F.p √(m : ℝ) := by
    unfold Ieee.roundReal Binary.roundReal
    simp only [max_eq_right (show F.emin ≤ Int.log 2 |√(m : ℝ)| + 1 - F.p by omega)]
  have hpos : 0 < Ieee.roundReal F √(m : ℝ) :=
    Ieee.roundReal_positive W.pos _ (le_trans (zpow_le_zpow_right₀ (by norm_num) (by omega)) hroot)
  have hval : (Binary.sqrt b).val = Ieee.roundReal F √(m : ℝ) := by
    rw [eR, e']
    rfl
  have esq : Ieee.sqrt (num false m : Ieee F) = num false (Ieee.roundReal F √(m : ℝ)) := by
    show (if m = 0 then _ else _) = _
    rw [if_neg hm0.ne', if_neg Bool.false_ne_true, abs_of_pos hpos]
  refine ⟨?_, hval ▸ hpos⟩
  rw [esq]
  refine ⟨trivial, valid_of_fits _ _ hpos.le ?_ ⟨hval ▸ (Binary.sqrt b).representable, ?_⟩, hval.symm⟩
  · have hlt : m < 2 ^ F.emax := v.2.1
    have hltR : (m : ℝ) < 2 ^ F.emax := by
      have := (Rat.cast_lt (K := ℝ)).mpr hlt
      push_cast at this
      exact this
    have herr := Binary.roundReal_error F.p √(m : ℝ)
    rw [← eR, abs_of_pos hroot0] at herr
    have h1 : √(m : ℝ) / 2 ^ F.p ≤ √(m : ℝ) := div_le_self hroot0.le (one_le_pow₀ (by norm_num))
    have h2 : ((Ieee.roundReal F √(m : ℝ) : ℚ) : ℝ) ≤ 2 * √(m : ℝ) := by linarith [(abs_le.mp herr).2]
    have h3 : (4 : ℝ) < 2 ^ F.emax := by
      have := (Rat.cast_lt (K := ℝ)).mpr (roomy W)
      push_cast at this
      norm_num at this
      linarith
    have h4 : ((Ieee.roundReal F √(m : ℝ) : ℚ) : ℝ) < 2 ^ F.emax := by
      refine lt_of_pow_lt_pow_left₀ 2 (by positivity) ?_
      calc ((Ieee.roundReal F √(m : ℝ) : ℚ) : ℝ) ^ 2 ≤ (2 * √(m : ℝ)) ^ 2 := by
            have : (0 : ℝ) < ((Ieee.roundReal F √(m : ℝ) : ℚ) : ℝ) := by exact_mod_cast hpos
            gcongr
        _ = 4 * (m : ℝ) := by rw [mul_pow, Real.sq_sqrt hmR.le]; norm_num
        _ < 2 ^ F.emax * 2 ^ F.emax := by nlinarith
        _ = _ := (sq _).symm
    have h5 : ((Ieee.roundReal F √(m : ℝ) : ℚ) : ℝ) < ((2 ^ F.emax : ℚ) : ℝ) := by push_cast; exact h4
    exact Rat.cast_lt.mp h5
  · obtain ⟨k, hk⟩ := Int.eq_ofNat_of_zero_le (show 0 ≤ max F.emin (Int.log 2 |√(m : ℝ)| + 1 - F.p) - F.emin by have := le_max_left F.emin (Int.log 2 |√(m : ℝ)| + 1 - F.p); omega)
    unfold Ieee.roundReal
    simp only []
    rw [show max F.emin (Int.log 2 |√(m : ℝ)| + 1 - F.p) = F.emin + k by omega]
    refine ⟨Binary.nearestReal (√(m : ℝ) / 2 ^ (F.emin + (k : ℤ))) * 2 ^ k, ?_⟩
    rw [zpow_add₀ (by norm_num : (2 : ℚ) ≠ 0), zpow_natCast]
    push_cast
    ring

theorem same_roots [NeZero F.p] (ha : Same a b) (hb : 0 < b.val) : Same (roots Ieee.sqrt a) (roots Binary.sqrt b) ∧ 0 < (roots Binary.sqrt b).val := by
  have key : ∀ (l : List ℕ) (a : Ieee F) (b : Binary F.p), Same a b → 0 < b.val → Same (l.foldl (fun x _ => Ieee.sqrt x) a) (l.foldl (fun x _ => Binary.sqrt x) b) ∧ 0 < (l.foldl (fun x _ => Binary.sqrt x) b).val := by
    intro l
    induction l with
    | nil => exact fun a b h h0 => ⟨h, h0⟩
    | cons n l ih =>
      intro a b h h0
      obtain ⟨h1, h2⟩ := same_sqrt W h h0
      exact ih _ _ h1 h2
  exact key _ a b ha hb

/-! ### The rest -/

/-- Rounding does not pass a number. -/
theorem round_ge [NeZero F.p] {v : ℚ} (c : Binary F.p) (h : c.val ≤ v) : c.val ≤ Binary.round F.p v := by
  have := Binary.round_mono F.p W.pos _ _ h
  rwa [Binary.round_self] at this

theorem power_representable (k : ℤ) : Representable F.p ((2 : ℚ) ^ k) := by
  refine ⟨1, k, ?_, by push_cast; ring⟩
  have h20 : (2 : ℤ) ^ 20 ≤ 2 ^ F.p := pow_le_pow_right₀ (by norm_num) W.p
  norm_num at h20 ⊢
  omega

theorem round_power [NeZero F.p] {v : ℚ} (k : ℤ) (h : 2 ^ k ≤ |v|) : 2 ^ k ≤ |Binary.round F.p v| := by
  rcases abs_choice v with e | e
  · rw [e] at h
    have := round_ge W ⟨2 ^ k, power_representable W k⟩ (v := v) h
    exact this.trans (le_abs_self _)
  · rw [e] at h
    have := round_ge W ⟨2 ^ k, power_representable W k⟩ (v := -v) h
    rw [Binary.round_neg] at this
    exact this.trans (neg_le_abs _)

omit W in
theorem tpow : (1 : ℚ) / 2 ^ F.p = 2 ^ (-(F.p : ℤ)) := by rw [zpow_neg, zpow_natCast, one_div]

/-- The quotient of a number between zero and three. -/
theorem same_quotient [NeZero F.p] (ha : Same a b) (h0 : 0 ≤ b.val) (h3 : b.val ≤ 3) :
    Same (quotient a) (quotient b) ∧ |(quotient b).val| ≤ 1 ∧ ((quotient b).val = 0 ∨ 1 / 2 ^ F.p / 4 ≤ |(quotient b).val|) := by
  have R := rounding_binary W
  obtain ⟨t0, t1⟩ := tau W
  obtain ⟨u1, u2⟩ := tiny W
  obtain ⟨i1, e1⟩ := same_int W 1 (by norm_num)
  have e1' : (((1 : ℤ) : Binary F.p)).val = 1 := by rw [e1]; norm_num
  have sN := same_sub W ha i1 (by rw [e1', abs_le]; constructor <;> norm_num <;> linarith)
  have sD := same_add W ha i1 (by rw [e1', abs_le]; constructor <;> norm_num <;> linarith)
  have vN : (b - ((1 : ℤ) : Binary F.p)).val = Binary.round F.p (b.val - 1) := by show Binary.round F.p (b.val - (((1 : ℤ) : Binary F.p)).val) = _; rw [e1']
  have vD : (b + ((1 : ℤ) : Binary F.p)).val = Binary.round F.p (b.val + 1) := by show Binary.round F.p (b.val + (((1 : ℤ) : Binary F.p)).val) = _; rw [e1']
  have hD := R.between 2 8 (by norm_num) (by norm_num) (v := b.val + 1) (by push_cast; linarith) (by push_cast; linarith)
  norm_num at hD
  rw [← vD] at hD
  have hND : |(b - ((1 : ℤ) : Binary F.p)).val| ≤ (b + ((1 : ℤ) : Binary F.p)).val := by
    rw [vN, vD, abs_le]
    constructor
    · rw [← Binary.round_neg]
      exact R.mono _ _ (by linarith)
    · exact R.mono _ _ (by linarith)
  set N := b - ((1 : ℤ) : Binary F.p)
  set D := b + ((1 : ℤ) : Binary F.p)
  have hD0 : 0 < D.val := by linarith [hD.1]
  have hq1 : |N.val / D.val| ≤ 1 := by rw [abs_div, abs_of_pos hD0, div_le_one hD0]; exact hND
  have hNl : N.val = 0 ∨ 1 / 2 ^ F.p ≤ |N.val| := by
    rcases lt_trichotomy b.val 1 with h | h | h
    · right
      rw [vN, tpow (F := F)]
      refine round_power W _ ?_
      have := below_one F.p (by have := W.p; omega) b.val b.representable h
      rw [← tpow (F := F), abs_of_nonpos (by linarith)]
      linarith
    · left
      rw [vN, h, sub_self, R.at_zero]
    · right
      rw [vN, tpow (F := F)]
      refine round_power W _ ?_
      have := above_one F.p (by have := W.p; omega) b.val b.representable h
      rw [← tpow (F := F), abs_of_nonneg (by linarith)]
      rw [← mul_one_div] at this
      linarith
  have hql : N.val / D.val = 0 ∨ 1 / 2 ^ F.p / 4 ≤ |N.val / D.val| := by
    rcases hNl with h | h
    · left; rw [h, zero_div]
    · right
      rw [abs_div, abs_of_pos hD0]
      exact div_le_div₀ (abs_nonneg _) h hD0 hD.2
  have hsq := same_div W sN sD hD0.ne' (hq1.trans (by norm_num)) (hql.imp id fun h => by
    refine le_trans ?_ h
    generalize (1 : ℚ) / 2 ^ F.p = t at t0 t1 u2
    nlinarith)
  refine ⟨hsq, ?_, ?_⟩
  · have := bounded R 2 (N.val / D.val) (by norm_num) (by norm_num) (by push_cast; linarith)
    norm_num at this
    exact this
  · show Binary.round F.p (N.val / D.val) = 0 ∨ _ ≤ |Binary.round F.p (N.val / D.val)|
    rcases hql with h | h
    · left; rw [h, R.at_zero]
    · right
      have e4 : (1 : ℚ) / 2 ^ F.p / 4 = 2 ^ (-(F.p : ℤ) - 2) := by rw [tpow (F := F), zpow_sub₀ (by norm_num)]; norm_num
      rw [e4] at h ⊢
      exact round_power W _ h

/-- One step of the sum. -/
theorem same_step [NeZero F.p] {xx acc c : Ieee F} {x y z : Binary F.p} (hx : Same xx x) (hy : Same acc y) (hz : Same c z) (x0 : 0 ≤ x.val) (x1 : x.val ≤ 1)
    (xl : x.val = 0 ∨ (1 / 2 ^ F.p) ^ 2 / 32 ≤ x.val) (y0 : 1 / 16 ≤ y.val) (M : ℤ) (hM : 0 ≤ M) (hM' : M ≤ 1000) (y1 : y.val ≤ M) (z0 : 1 / 16 ≤ z.val) (z1 : z.val ≤ 1) :
    Same (xx * acc + c) (x * y + z) ∧ z.val ≤ (x * y + z).val ∧ (x * y + z).val ≤ (M + 1 : ℤ) := by
  have R := rounding_binary W
  obtain ⟨t0, t1⟩ := tau W
  obtain ⟨u1, u2⟩ := tiny W
  have hMq : (M : ℚ) ≤ 1000 := by exact_mod_cast hM'
  have hxy0 : 0 ≤ x.val * y.val := mul_nonneg x0 (by linarith)
  have hxy1 : x.val * y.val ≤ M := by nlinarith
  have s1 := same_mul W hx hy (by rw [abs_of_nonneg hxy0]; norm_num; linarith) (xl.imp (fun h => by rw [h, zero_mul]) fun h => by
    rw [abs_of_nonneg hxy0]
    have h1 : (1 / 2 ^ F.p) ^ 2 / 32 * (1 / 16) ≤ x.val * y.val := mul_le_mul h y0 (by norm_num) x0
    refine le_trans ?_ h1
    generalize (1 : ℚ) / 2 ^ F.p = t at t0 t1
    have h3 : t ^ 3 ≤ t ^ 2 * (1 / 1048576) := by rw [pow_succ t 2]; gcongr
    have : 0 ≤ t ^ 2 := sq_nonneg t
    linarith)
  have hm := R.between 0 (2 * M) (by norm_num) (by rw [abs_le]; constructor <;> omega) (v := x.val * y.val) (by push_cast; linarith) (by push_cast; linarith)
  push_cast at hm
  have hm1 : 0 ≤ (x * y).val := by show 0 ≤ Binary.round F.p (x.val * y.val); linarith [hm.1]
  have hm2 : (x * y).val ≤ M := by show Binary.round F.p (x.val * y.val) ≤ M; linarith [hm.2]
  refine ⟨same_add W s1 hz (by rw [abs_of_nonneg (by linarith)]; norm_num; linarith), round_ge W z (by linarith), ?_⟩
  have := R.between 0 (2 * (M + 1)) (by norm_num) (by rw [abs_le]; constructor <;> omega) (v := (x * y).val + z.val) (by push_cast; linarith) (by push_cast; linarith)
  push_cast at this ⊢
  show Binary.round F.p ((x * y).val + z.val) ≤ _
  linarith [this.2]

/-- A reciprocal. -/
theorem same_inverse [NeZero F.p] (n : ℤ) (h1 : 1 ≤ n) (h2 : n ≤ 13) :
    Same (((1 : ℤ) : Ieee F) / (n : Ieee F)) (((1 : ℤ) : Binary F.p) / (n : Binary F.p)) ∧ 1 / 16 ≤ (((1 : ℤ) : Binary F.p) / (n : Binary F.p)).val ∧ (((1 : ℤ) : Binary F.p) / (n : Binary F.p)).val ≤ 1 := by
  have R := rounding_binary W
  obtain ⟨i1, e1⟩ := same_int W 1 (by norm_num)
  obtain ⟨i2, e2⟩ := same_int W n (by rw [abs_le]; constructor <;> omega)
  have hn1 : (1 : ℚ) ≤ n := by exact_mod_cast h1
  have hn2 : (n : ℚ) ≤ 13 := by exact_mod_cast h2
  have ev : (((1 : ℤ) : Binary F.p)).val / ((n : Binary F.p)).val = 1 / n := by rw [e1, e2]; norm_num
  have h16 : (1 : ℚ) / 16 ≤ 1 / n := one_div_le_one_div_of_le (by linarith) (by linarith)
  have hle : (1 : ℚ) / n ≤ 1 := by rw [div_le_one (by linarith)]; exact hn1
  refine ⟨same_div W i1 i2 (by rw [e2]; linarith) (by rw [ev, abs_of_nonneg (by linarith)]; norm_num at hle ⊢; linarith) (Or.inr ?_), ?_, ?_⟩
  · rw [ev, abs_of_nonneg (by linarith)]
    exact (tiny W).1.trans (le_trans (by norm_num) h16)
  · show _ ≤ Binary.round F.p _
    rw [ev]
    have := round_ge W ⟨2 ^ (-4 : ℤ), power_representable W (-4)⟩ (v := 1 / n) (by norm_num at h16 ⊢; exact h16)
    norm_num at this ⊢
    exact this
  · show Binary.round F.p _ ≤ 1
    rw [ev]
    have := R.between 0 2 (by norm_num) (by norm_num) (v := 1 / (n : ℚ)) (by push_cast; linarith) (by push_cast; linarith)
    norm_num at this ⊢
    exact this.2

/-- The sum. -/
theorem same_series [NeZero F.p] (l : ℕ) (ha : Same a b) (h1 : |b.val| ≤ 1) (h2 : b.val = 0 ∨ 1 / 2 ^ F.p / 4 ≤ |b.val|) :
    Same (series (DecibelConsts.ieee l F) (a * a)) (series (DecibelConsts.binary l F.p) (b * b)) ∧ 1 ≤ (series (DecibelConsts.binary l F.p) (b * b)).val ∧ (series (DecibelConsts.binary l F.p) (b * b)).val ≤ 7 := by
  have R := rounding_binary W
  obtain ⟨t0, t1⟩ := tau W
  obtain ⟨u1, u2⟩ := tiny W
  obtain ⟨s1, c1, d1⟩ := same_inverse W 1 (by norm_num) (by norm_num)
  obtain ⟨s3, c3, d3⟩ := same_inverse W 3 (by norm_num) (by norm_num)
  obtain ⟨s5, c5, d5⟩ := same_inverse W 5 (by norm_num) (by norm_num)
  obtain ⟨s7, c7, d7⟩ := same_inverse W 7 (by norm_num) (by norm_num)
  obtain ⟨s9, c9, d9⟩ := same_inverse W 9 (by norm_num) (by norm_num)
  obtain ⟨s11, c11, d11⟩ := same_inverse W 11 (by norm_num) (by norm_num)
  obtain ⟨s13, c13, d13⟩ := same_inverse W 13 (by norm_num) (by norm_num)
  have hbb : |b.val * b.val| ≤ 1 := by rw [abs_mul]; nlinarith [abs_nonneg b.val]
  have hbl : b.val * b.val = 0 ∨ (1 / 2 ^ F.p) ^ 2 / 16 ≤ |b.val * b.val| := h2.imp (fun h => by rw [h, zero_mul]) fun h => by
    rw [abs_mul]
    have : 1 / 2 ^ F.p / 4 * (1 / 2 ^ F.p / 4) ≤ |b.val| * |b.val| := mul_le_mul h h (by positivity) (abs_nonneg _)
    refine le_trans (le_of_eq ?_) this
    ring
  have t3 : ((1 : ℚ) / 2 ^ F.p) ^ 3 / 128 ≤ (1 / 2 ^ F.p) ^ 2 / 16 := by
    have : (0 : ℚ) ≤ (1 / 2 ^ F.p) ^ 2 := by positivity
    linarith
  have sx := same_mul W ha ha (hbb.trans (by norm_num)) (hbl.imp id fun h => t3.trans h)
  have hxx : 0 ≤ (b * b).val ∧ (b * b).val ≤ 1 := by
    have := R.between 0 2 (by norm_num) (by norm_num) (v := b.val * b.val) (by push_cast; rw [zero_div]; exact mul_self_nonneg _) (by push_cast; linarith [le_abs_self (b.val * b.val)])
    norm_num at this
    exact this
  have hxl : (b * b).val = 0 ∨ (1 / 2 ^ F.p) ^ 2 / 32 ≤ (b * b).val := by
    show Binary.round F.p (b.val * b.val) = 0 ∨ _ ≤ Binary.round F.p (b.val * b.val)
    rcases hbl with h | h
    · left; rw [h, R.at_zero]
    · right
      rw [abs_of_nonneg (mul_self_nonneg _)] at h
      have herr := Binary.round_error F.p (b.val * b.val)
      rw [abs_of_nonneg (mul_self_nonneg b.val)] at herr
      have hh : b.val * b.val / 2 ^ F.p ≤ b.val * b.val / 2 := by
        refine div_le_div_of_nonneg_left (mul_self_nonneg _) (by norm_num) ?_
        have := W.big
        linarith
      have := (abs_le.mp herr).1
      linarith
  obtain ⟨x0, x1⟩ := hxx
  obtain ⟨q1, r1, m1⟩ := same_step W sx s13 s11 x0 x1 hxl c13 1 (by norm_num) (by norm_num) (by push_cast; exact d13) c11 d11
  obtain ⟨q2, r2, m2⟩ := same_step W sx q1 s9 x0 x1 hxl (c11.trans r1) (1 + 1) (by norm_num) (by norm_num) m1 c9 d9
  obtain ⟨q3, r3, m3⟩ := same_step W sx q2 s7 x0 x1 hxl (c9.trans r2) (1 + 1 + 1) (by norm_num) (by norm_num) m2 c7 d7
  obtain ⟨q4, r4, m4⟩ := same_step W sx q3 s5 x0 x1 hxl (c7.trans r3) (1 + 1 + 1 + 1) (by norm_num) (by norm_num) m3 c5 d5
  obtain ⟨q5, r5, m5⟩ := same_step W sx q4 s3 x0 x1 hxl (c5.trans r4) (1 + 1 + 1 + 1 + 1) (by norm_num) (by norm_num) m4 c3 d3
  obtain ⟨q6, r6, m6⟩ := same_step W sx q5 s1 x0 x1 hxl (c3.trans r5) (1 + 1 + 1 + 1 + 1 + 1) (by norm_num) (by norm_num) m5 c1 d1
  have one : (((1 : ℤ) : Binary F.p) / ((1 : ℤ) : Binary F.p)).val = 1 := by
    show Binary.round F.p ((((1 : ℤ) : Binary F.p)).val / (((1 : ℤ) : Binary F.p)).val) = 1
    rw [(same_int W 1 (by norm_num)).2]
    have := R.int 1 (by norm_num)
    norm_num at this ⊢
    exact this
  rw [one] at r6
  norm_num at m6
  exact ⟨q6, r6, m6⟩

/-- The product. -/
theorem same_product [NeZero F.p] {sc ser : Ieee F} {s y : Binary F.p} (ssc : Same sc s) (hsc : 8894 ≤ s.val ∧ s.val ≤ 8895) (hSer : Same ser y) (hS1 : 1 ≤ y.val) (hS7 : y.val ≤ 7)
    (ha : Same a b) (h1 : |b.val| ≤ 1) (h2 : b.val = 0 ∨ 1 / 2 ^ F.p / 4 ≤ |b.val|) : Same (sc * a * ser) (s * b * y) := by
  have R := rounding_binary W
  obtain ⟨t0, t1⟩ := tau W
  obtain ⟨u1, u2⟩ := tiny W
  have hsb : |s.val * b.val| ≤ 8895 := by
    rw [abs_mul, abs_of_nonneg (by linarith [hsc.1])]
    nlinarith [hsc.1, hsc.2, abs_nonneg b.val]
  have hsl : s.val * b.val = 0 ∨ 1 / 2 ^ F.p ≤ |s.val * b.val| := h2.imp (fun h => by rw [h, mul_zero]) fun h => by
    rw [abs_mul, abs_of_nonneg (by linarith [hsc.1])]
    generalize (1 : ℚ) / 2 ^ F.p = t at t0 h
    nlinarith [hsc.1]
  have t4 : ((1 : ℚ) / 2 ^ F.p) ^ 3 / 128 ≤ 1 / 2 ^ F.p := by
    generalize (1 : ℚ) / 2 ^ F.p = t at t0 t1 u2
    nlinarith
  have p1 : Same (sc * a) (s * b) := same_mul W ssc ha (hsb.trans (by norm_num)) (hsl.imp id fun h => t4.trans h)
  have v1 : (s * b).val = Binary.round F.p (s.val * b.val) := rfl
  have w1 : |(s * b).val| ≤ 17790 := by
    rw [v1]
    have := R.double (s.val * b.val)
    linarith
  have w2 : (s * b).val = 0 ∨ 1 / 2 ^ F.p ≤ |(s * b).val| := by
    rw [v1]
    rcases hsl with h | h
    · left; rw [h, R.at_zero]
    · right
      rw [tpow (F := F)] at h ⊢
      exact round_power W _ h
  refine same_mul W p1 hSer ?_ ?_
  · rw [abs_mul, abs_of_nonneg (by linarith : 0 ≤ y.val)]
    have : |(s * b).val| * y.val ≤ 17790 * 7 := mul_le_mul w1 hS7 (by linarith) (by norm_num)
    norm_num at this ⊢
    linarith
  · refine w2.imp (fun h => by rw [h, zero_mul]) fun h => ?_
    rw [abs_mul, abs_of_nonneg (by linarith : 0 ≤ y.val)]
    refine t4.trans (h.trans ?_)
    exact le_mul_of_one_le_right (abs_nonneg _) hS1

/-- What follows the quotient. -/
theorem same_scaled [NeZero F.p] (l : ℕ) (hl : F.p ≤ l) (ha : Same a b) (h1 : |b.val| ≤ 1) (h2 : b.val = 0 ∨ 1 / 2 ^ F.p / 4 ≤ |b.val|) :
    Same ((DecibelConsts.ieee l F).scale * a * series (DecibelConsts.ieee l F) (a * a)) ((DecibelConsts.binary l F.p).scale * b * series (DecibelConsts.binary l F.p) (b * b)) := by
  have hsc := literal_between l F.p W.p hl scaleDecimal 8894 8895 (by norm_num [scaleDecimal]) (by norm_num [scaleDecimal])
  have ssc := same_literal W (Binary.literal l F.p scaleDecimal) (by rw [abs_of_nonneg (by linarith [hsc.1])]; linarith [hsc.1]) (by rw [abs_of_nonneg (by linarith [hsc.1])]; linarith [hsc.2])
  obtain ⟨q, q1, q7⟩ := same_series W l ha h1 h2
  exact same_product W ssc hsc q q1 q7 ha h1 h2

end

section
variable {F : Format} (W : Wide F) [NeZero F.p] (he : F.emax ≤ 1024) (l : ℕ) (hl : F.p ≤ l)

include W he in
/-- The thousandth root is less than three. -/
theorem roots_size (b : Binary F.p) (h0 : 0 ≤ b.val) (h : b.val < 2 ^ F.emax) : (roots Binary.sqrt b).val ≤ 3 := by
  have hp := W.p
  have hbR : (0 : ℝ) ≤ (b.val : ℝ) := by exact_mod_cast h0
  obtain ⟨δ, hδ, e⟩ := roots_error (binary_roundedField F.p) (by positivity) (unit_le F.p (by omega)) Binary.sqrt (NCO.binary_sqrt F.p) b hbR
  have hu := unit_le F.p (by omega)
  have hr : Decibel.root (b.val : ℝ) ≤ 2 := by
    refine le_of_pow_le_pow_left₀ (n := 1024) (by norm_num) (by norm_num) ?_
    rw [Decibel.root_pow _ hbR]
    have h1 : (b.val : ℝ) < 2 ^ F.emax := by
      have := (Rat.cast_lt (K := ℝ)).mpr h
      push_cast at this
      exact this
    refine h1.le.trans ?_
    rw [← zpow_natCast]
    exact zpow_le_zpow_right₀ (by norm_num) (by push_cast; exact he)
  have hr0 := Decibel.root_nonneg (b.val : ℝ)
  have h3 : ((roots Binary.sqrt b).val : ℝ) ≤ ((3 : ℚ) : ℝ) := by
    rw [e]
    have := (abs_le.mp hδ).2
    push_cast
    nlinarith
  exact Rat.cast_le.mp h3

include W in
/-- The roots of zero. -/
theorem roots_zero (s : Bool) : roots Ieee.sqrt (num s 0 : Ieee F) = num s 0 := by
  have h : Ieee.sqrt (num s 0 : Ieee F) = num s 0 := by simp [Ieee.sqrt]
  have key : ∀ l : List ℕ, l.foldl (fun x _ => Ieee.sqrt x) (num s 0 : Ieee F) = num s 0 := by
    intro l
    induction l with
    | nil => rfl
    | cons n l ih => rw [List.foldl_cons, h, ih]
  exact key _

end

end DecibelIeee
end Elementary

open Elementary DecibelIeee ExpIeee AtanIeee Binary Ieee

section
variable {F : Format} (W : Wide F) [NeZero F.p] (he : F.emax ≤ 1024) (l : ℕ) (hl : F.p ≤ l)

section
include W he hl

/-- The level of every positive number, subnormal ones included, is the one calculated without limits for the exponent. So it is finite, and between -400 and 400 decibels it is as accurate. -/
theorem C122_decibel (v : Ieee F) (fv : v.Finite) (vv : v.Valid) (h : 0 < v.val) :
    (∀ b : Binary F.p, b.val = v.val → (decibelIeee (DecibelConsts.ieee l F) v).val = (Elementary.decibel Binary.sqrt (DecibelConsts.binary l F.p) b).val) ∧
      (decibelIeee (DecibelConsts.ieee l F) v).Finite ∧ (decibelIeee (DecibelConsts.ieee l F) v).Valid ∧
      (|10 * Real.logb 10 (v.val : ℝ)| ≤ 400 →
        |((decibelIeee (DecibelConsts.ieee l F) v).val : ℝ) - 10 * Real.logb 10 (v.val : ℝ)| ≤ (9080 + 8.1 * |10 * Real.logb 10 (v.val : ℝ)|) / 2 ^ F.p + 1 / 10 ^ 17) := by
  have hp := W.p
  have key : ∀ b : Binary F.p, b.val = v.val → Same (decibelIeee (DecibelConsts.ieee l F) v) (Elementary.decibel Binary.sqrt (DecibelConsts.binary l F.p) b) := by
    intro b hb
    have hs : Same v b := ⟨fv, vv, hb.symm⟩
    obtain ⟨r1, r2⟩ := same_roots W hs (hb ▸ h)
    have hlt : b.val < 2 ^ F.emax := by
      rw [hb]
      exact (le_abs_self _).trans_lt (val_lt vv)
    obtain ⟨q1, q2, q3⟩ := same_quotient W r1 r2.le (roots_size W he b (hb ▸ h.le) hlt)
    exact same_scaled W l hl q1 q2 q3
  have hk := key ⟨v.val, (valid_fits vv).1⟩ rfl
  refine ⟨fun b hb => (key b hb).2.2, hk.1, hk.2.1, fun hd => ?_⟩
  rw [hk.2.2]
  exact C77_binary l F.p (by omega) hl ⟨v.val, (valid_fits vv).1⟩ h hd

end

section
include W hl

/-- The level of zero, whatever its sign, is finite and less than -8890 decibels. -/
theorem C122_zero (s : Bool) : (decibelIeee (DecibelConsts.ieee l F) (num s 0)).Finite ∧ (decibelIeee (DecibelConsts.ieee l F) (num s 0)).val ≤ -8890 := by
  have R := rounding_binary W
  set z : Binary F.p := ⟨0, ⟨0, 0, by simp, by simp⟩⟩ with hz
  have hs : Same (num s 0 : Ieee F) z := ⟨trivial, valid_of_fits _ 0 le_rfl (by positivity) (fits_zero W), signed_zero s⟩
  obtain ⟨q1, q2, q3⟩ := same_quotient W hs le_rfl (by norm_num)
  have qv : (quotient z).val = -1 := by
    have e1 := (same_int W 1 (by norm_num)).2
    show Binary.round F.p (Binary.round F.p (0 - (((1 : ℤ) : Binary F.p)).val) / Binary.round F.p (0 + (((1 : ℤ) : Binary F.p)).val)) = -1
    have h1 := R.int (-1) (by norm_num)
    have h2 := R.int 1 (by norm_num)
    push_cast at h1 h2
    rw [e1, Int.cast_one, zero_sub, zero_add, h1, h2, div_one, h1]
  have hk := same_scaled W l hl q1 q2 q3
  have hdef : decibelIeee (DecibelConsts.ieee l F) (num s 0) = (DecibelConsts.ieee l F).scale * quotient (num s 0) * series (DecibelConsts.ieee l F) (quotient (num s 0) * quotient (num s 0)) := by
    show (DecibelConsts.ieee l F).scale * quotient (Elementary.roots Ieee.sqrt (num s 0)) * series (DecibelConsts.ieee l F) (quotient (Elementary.roots Ieee.sqrt (num s 0)) * quotient (Elementary.roots Ieee.sqrt (num s 0))) = _
    rw [roots_zero W]
  rw [hdef]
  refine ⟨hk.1, ?_⟩
  rw [hk.2.2]
  obtain ⟨-, s1, -⟩ := same_series W l q1 q2 q3
  have hsc := literal_between l F.p W.p hl scaleDecimal 8894 8895 (by norm_num [scaleDecimal]) (by norm_num [scaleDecimal])
  generalize series (DecibelConsts.binary l F.p) (quotient z * quotient z) = y at s1
  have hsv : (DecibelConsts.binary l F.p).scale = Binary.literal l F.p scaleDecimal := rfl
  rw [hsv]
  generalize Binary.literal l F.p scaleDecimal = S at hsc
  have hm : (S * quotient z).val = -S.val := by
    show Binary.round F.p (S.val * (quotient z).val) = _
    rw [qv, mul_neg_one, Binary.round_neg, Binary.round_self]
  have hge := round_ge W S (v := S.val * y.val) (by nlinarith [hsc.1])
  have : (S * quotient z * y).val = -Binary.round F.p (S.val * y.val) := by
    show Binary.round F.p ((S * quotient z).val * y.val) = _
    rw [hm, neg_mul, Binary.round_neg]
  rw [this]
  linarith [hsc.1]

end

include W in
/-- Everything else has no level: negative numbers, NaN, and infinity, too. -/
theorem C122_special (s : Bool) (m : ℚ) (hm : m ≠ 0) : decibelIeee (DecibelConsts.ieee l F) nan = nan ∧ decibelIeee (DecibelConsts.ieee l F) (num true m) = nan ∧ decibelIeee (DecibelConsts.ieee l F) (inf s) = nan := by
  have hnan : ∀ k : List ℕ, k.foldl (fun x _ => Ieee.sqrt x) (nan : Ieee F) = nan := by
    intro k
    induction k with
    | nil => rfl
    | cons n k ih => exact ih
  have hinf : ∀ k : List ℕ, k.foldl (fun x _ => Ieee.sqrt x) (inf false : Ieee F) = inf false := by
    intro k
    induction k with
    | nil => rfl
    | cons n k ih => exact ih
  have mulnan : ∀ a : Ieee F, a * nan = nan := fun a => by cases a <;> rfl
  have fin : ∀ v : Ieee F, quotient (Elementary.roots Ieee.sqrt v) = nan → decibelIeee (DecibelConsts.ieee l F) v = nan := by
    intro v h
    show (DecibelConsts.ieee l F).scale * quotient (Elementary.roots Ieee.sqrt v) * _ = nan
    rw [h, mulnan]
    rfl
  refine ⟨fin _ ?_, fin _ ?_, fin _ ?_⟩
  · show quotient ((List.range 10).foldl (fun x _ => Ieee.sqrt x) (nan : Ieee F)) = nan
    rw [hnan]
    rfl
  · have h1 : Ieee.sqrt (num true m : Ieee F) = nan := by
      show (if m = 0 then _ else _) = _
      rw [if_neg hm]
      rfl
    show quotient ((List.range' 1 9).foldl (fun x _ => Ieee.sqrt x) (Ieee.sqrt (num true m : Ieee F))) = nan
    rw [h1, hnan]
    rfl
  · cases s
    · show quotient ((List.range 10).foldl (fun x _ => Ieee.sqrt x) (inf false : Ieee F)) = nan
      rw [hinf]
      obtain ⟨f1, -, -⟩ := is_one W
      obtain ⟨t, n, e⟩ := (finite_iff _).mp f1
      unfold quotient
      rw [e]
      rfl
    · show quotient ((List.range' 1 9).foldl (fun x _ => Ieee.sqrt x) (nan : Ieee F)) = nan
      rw [hnan]
      rfl

include W in
/-- The ratio of a level, as long as it is within the range of the type. -/
theorem C122_idecibel (hp' : F.p ≤ 53) (d : Ieee F) (fd : d.Finite) (vd : d.Valid) (h : |(d.val : ℝ)| ≤ 768) (hr : |(d.val : ℝ)| / 10 * Real.logb 2 10 ≤ F.emax - 0.52) :
    ∃ r, idecibelIeee (ExpConsts.ieee F) d = .ok r ∧ r.Finite ∧ r.Valid ∧
      |(r.val : ℝ) - (10 : ℝ) ^ ((d.val : ℝ) / 10)| ≤ ((7.5 + 0.2305 * |(d.val : ℝ)|) / 2 ^ F.p + 2.2 / 2 ^ 60) * (10 : ℝ) ^ ((d.val : ℝ) / 10) + 2 ^ F.emin / 2 := by
  have R := rounding_ieee W
  have hp := W.p
  have hemin := W.emin
  obtain ⟨i10, e10⟩ := same_int W 10 (by norm_num)
  have hdQ : |d.val| ≤ 768 := by exact_mod_cast h
  have hq : |d.val / 10| ≤ (154 : ℤ) / 2 := by rw [abs_div, abs_of_pos (by norm_num : (0 : ℚ) < 10)]; push_cast; linarith
  have hb := bounded R 154 (d.val / 10) (by norm_num) (by norm_num) hq
  have iy : Is (d / ((10 : ℤ) : Ieee F)) (roundTo F (d.val / 10)) := by
    have i10' : Is (((10 : ℤ) : Ieee F)) 10 := by
      have := i10
      unfold Same at this
      rw [e10] at this
      exact_mod_cast this
    exact Is.div W ⟨fd, vd, rfl⟩ i10' (by norm_num) (hb.trans (by norm_num))
  set y := roundTo F (d.val / 10) with hy
  have herr : |y - d.val / 10| ≤ |d.val / 10| / 2 ^ F.p + 2 ^ F.emin / 2 := by
    refine (roundTo_error (F := F) (d.val / 10)).trans (max_le ?_ ?_)
    · have : (0 : ℚ) < 2 ^ F.emin := by positivity
      linarith
    · have : 0 ≤ |d.val / 10| / 2 ^ F.p := by positivity
      linarith
  have hmin : (2 : ℚ) ^ F.emin ≤ 1 / 2 ^ 60 := by
    rw [one_div, ← zpow_natCast, ← zpow_neg]
    exact zpow_le_zpow_right₀ (by norm_num) (by push_cast; omega)
  have herrR : |(y : ℝ) - (d.val : ℝ) / 10| ≤ |(d.val : ℝ)| / 10 * (1 / 2 ^ F.p) + 1 / 2 ^ 61 := by
    have h1 : |y - d.val / 10| ≤ |d.val / 10| / 2 ^ F.p + 1 / 2 ^ 61 := herr.trans (by norm_num at hmin ⊢; linarith)
    have := (Rat.cast_le (K := ℝ)).mpr h1
    push_cast at this
    rw [abs_div, abs_of_pos (by norm_num : (0 : ℝ) < 10)] at this
    rw [mul_one_div]
    exact this
  have hu := Elementary.unit_le' F.p W.p
  have hu0 : (0 : ℝ) ≤ 1 / 2 ^ F.p := by positivity
  obtain ⟨l1, l2⟩ := log_two_ten
  have hlog : (0 : ℝ) ≤ Real.log 10 ∧ Real.log 10 ≤ 2.302586 := by
    have h10 := abs_le.mp Digits.log_ten
    rw [Digits.log10] at h10
    push_cast at h10
    constructor <;> norm_num at h10 ⊢ <;> linarith [h10.1, h10.2]
  set x : ℝ := (d.val : ℝ) / 10 with hx
  have hax : |(d.val : ℝ)| / 10 = |x| := by rw [hx, abs_div, abs_of_pos (by norm_num : (0 : ℝ) < 10)]
  have had : |(d.val : ℝ)| = 10 * |x| := by linarith
  rw [hax] at herrR hr
  have hx77 : |x| ≤ 76.8 := by rw [← hax]; norm_num; linarith
  set u : ℝ := 1 / 2 ^ F.p with hudef
  have hxu : |x| * u ≤ 0.0000733 := by
    calc |x| * u ≤ 76.8 * (1 / 2 ^ 20) := mul_le_mul hx77 hu hu0 (by norm_num)
      _ ≤ _ := by norm_num
  have hyx : |(y : ℝ) - x| ≤ 0.0000734 := herrR.trans (by norm_num at hxu ⊢; linarith)
  have hy77 : |(y : ℝ)| ≤ 76.9 := by
    have := abs_sub_abs_le_abs_sub (y : ℝ) x
    norm_num at hyx hx77 ⊢
    linarith
  have hyl : |(y : ℝ) * Real.logb 2 10| ≤ F.emax - 0.519 := by
    have h1 : |(y : ℝ) * Real.logb 2 10| ≤ (|x| + 0.0000734) * Real.logb 2 10 := by
      rw [abs_mul, abs_of_pos (by linarith : (0 : ℝ) < Real.logb 2 10)]
      refine mul_le_mul_of_nonneg_right ?_ (by linarith)
      have := abs_sub_abs_le_abs_sub (y : ℝ) x
      linarith
    have h2 : (0.0000734 : ℝ) * Real.logb 2 10 ≤ 0.001 := by norm_num at l2 ⊢; linarith
    norm_num at h1 h2 hr ⊢
    linarith
  obtain ⟨yf, yv, ye⟩ := iy
  obtain ⟨r, hr1, hr2, -, -⟩ := C121_exp10 W hp' (d / ((10 : ℤ) : Ieee F)) yf yv (by rw [ye]; exact hy77)
  rw [ye] at hr2
  refine ⟨r, hr1, ?_⟩
  have hyl' := abs_le.mp hyl
  rcases hr2 with ⟨f, v, hr2⟩ | ⟨-, hr2⟩ | ⟨-, hr2⟩
  · refine ⟨f, v, ?_⟩
    set T := (10 : ℝ) ^ x with hT
    have hT0 : 0 < T := by positivity
    have hE : (10 : ℝ) ^ (y : ℝ) = T * Real.exp (Real.log 10 * ((y : ℝ) - x)) := by
      rw [hT, Real.rpow_def_of_pos (by norm_num), Real.rpow_def_of_pos (by norm_num), ← Real.exp_add]
      congr 1
      ring
    set δ := Real.log 10 * ((y : ℝ) - x) with hδ
    have hδ1 : |δ| ≤ 2.302586 * (|x| * u + 1 / 2 ^ 61) := by
      rw [hδ, abs_mul, abs_of_nonneg hlog.1]
      exact mul_le_mul hlog.2 herrR (abs_nonneg _) (by norm_num)
    have hδ2 : |δ| ≤ 0.00017 := by
      rw [hδ, abs_mul, abs_of_nonneg hlog.1]
      calc Real.log 10 * |(y : ℝ) - x| ≤ 2.302586 * 0.0000734 := mul_le_mul hlog.2 hyx (abs_nonneg _) (by norm_num)
        _ ≤ _ := by norm_num
    have hexp : |Real.exp δ - 1| ≤ 1.00017 * |δ| := by
      have h1 := Real.abs_exp_sub_one_sub_id_le (x := δ) (hδ2.trans (by norm_num))
      have h2 : |Real.exp δ - 1| ≤ |Real.exp δ - 1 - δ| + |δ| := by
        have := abs_add_le (Real.exp δ - 1 - δ) δ
        rwa [sub_add_cancel] at this
      have h3 : δ ^ 2 ≤ 0.00017 * |δ| := by
        rw [← sq_abs, sq]
        exact mul_le_mul_of_nonneg_right hδ2 (abs_nonneg _)
      norm_num at h3 ⊢
      linarith
    have hYT : |(10 : ℝ) ^ (y : ℝ) - T| ≤ T * (1.00017 * |δ|) := by
      rw [hE, show T * Real.exp δ - T = T * (Real.exp δ - 1) by ring, abs_mul, abs_of_pos hT0]
      exact mul_le_mul_of_nonneg_left hexp hT0.le
    have hY1 : (10 : ℝ) ^ (y : ℝ) ≤ 1.0002 * T := by
      have := (abs_le.mp hYT).2
      have h1 : T * (1.00017 * |δ|) ≤ T * (1.00017 * 0.00017) := by gcongr
      norm_num at h1 ⊢
      linarith
    have hε : (0 : ℝ) ≤ 7.4 / 2 ^ F.p + 1.001 / 2 ^ 60 := by positivity
    have hfirst : (7.4 / 2 ^ F.p + 1.001 / 2 ^ 60) * (10 : ℝ) ^ (y : ℝ) ≤ (7.4 * u + 1.001 / 2 ^ 60) * (1.0002 * T) := by
      rw [hudef, mul_one_div]
      exact mul_le_mul_of_nonneg_left hY1 hε
    have hite : (if (2 : ℝ) ^ (F.emin + F.p) ≤ (10 : ℝ) ^ (y : ℝ) then (0 : ℝ) else 2 ^ F.emin / 2) ≤ 2 ^ F.emin / 2 := by
      split_ifs
      · positivity
      · exact le_rfl
    have htri := abs_sub_le (r.val : ℝ) ((10 : ℝ) ^ (y : ℝ)) T
    have hd2 : T * (1.00017 * |δ|) ≤ T * (1.00017 * (2.302586 * (|x| * u + 1 / 2 ^ 61))) := by gcongr
    have hfin : (7.4 * u + 1.001 / 2 ^ 60) * (1.0002 * T) + T * (1.00017 * (2.302586 * (|x| * u + 1 / 2 ^ 61))) ≤ ((7.5 + 0.2305 * |(d.val : ℝ)|) / 2 ^ F.p + 2.2 / 2 ^ 60) * T := by
      rw [had, ← mul_one_div (7.5 + _), ← hudef]
      have : 0 ≤ |x| * u := mul_nonneg (abs_nonneg _) hu0
      have key : (7.4 * u + 1.001 / 2 ^ 60) * 1.0002 + 1.00017 * (2.302586 * (|x| * u + 1 / 2 ^ 61)) ≤ (7.5 + 0.2305 * (10 * |x|)) * u + 2.2 / 2 ^ 60 := by
        rw [show (7.5 + 0.2305 * (10 * |x|)) * u = 7.5 * u + 2.305 * (|x| * u) by ring]
        norm_num
        linarith
      calc _ = ((7.4 * u + 1.001 / 2 ^ 60) * 1.0002 + 1.00017 * (2.302586 * (|x| * u + 1 / 2 ^ 61))) * T := by ring
        _ ≤ _ := mul_le_mul_of_nonneg_right key hT0.le
    linarith
  · norm_num at hr2 hyl'
    linarith [hyl'.2]
  · norm_num at hr2 hyl'
    linarith [hyl'.1]

end

/-- The level of zero in single precision. -/
theorem C122_zero_single : -17390 < (decibelIeee (DecibelConsts.ieee 64 Format.single) (num true 0)).val ∧ (decibelIeee (DecibelConsts.ieee 64 Format.single) (num true 0)).val < -17389 := by
  have h : decibelIeee (DecibelConsts.ieee 64 Format.single) (num true 0) = (DecibelConsts.ieee 64 Format.single).scale * quotient (num true 0) * series (DecibelConsts.ieee 64 Format.single) (quotient (num true 0) * quotient (num true 0)) := by
    show (DecibelConsts.ieee 64 Format.single).scale * quotient (Elementary.roots Ieee.sqrt (num true 0)) * series (DecibelConsts.ieee 64 Format.single) (quotient (Elementary.roots Ieee.sqrt (num true 0)) * quotient (Elementary.roots Ieee.sqrt (num true 0))) = _
    rw [roots_zero wide_single]
  rw [h]
  decide +kernel

/-- The smallest number of single precision has a level of -448.5 decibels; it is finite. A level of -378 decibels belongs to a normal number. -/
example : (decibelIeee (DecibelConsts.ieee 64 Format.single) (num false (2 ^ (-149 : ℤ)))).Finite ∧
    |((decibelIeee (DecibelConsts.ieee 64 Format.single) (num false (2 ^ (-126 : ℤ)))).val : ℝ) - 10 * Real.logb 10 (2 ^ (-126 : ℤ))| ≤ (9080 + 8.1 * |10 * Real.logb 10 (2 ^ (-126 : ℤ))|) / 2 ^ 24 + 1 / 10 ^ 17 := by
  refine ⟨(C122_decibel wide_single (by decide) 64 (by decide) (num false (2 ^ (-149 : ℤ))) trivial (valid_power false (-149) (by norm_num) (by norm_num)) (by show (0 : ℚ) < 2 ^ (-149 : ℤ); positivity)).2.1, ?_⟩
  have h := (C122_decibel wide_single (by decide) 64 (by decide) (num false (2 ^ (-126 : ℤ))) trivial (valid_power false (-126) (by norm_num) (by norm_num)) (by show (0 : ℚ) < 2 ^ (-126 : ℤ); positivity)).2.2.2
  have e : (num false (2 ^ (-126 : ℤ)) : Ieee Format.single).val = 2 ^ (-126 : ℤ) := rfl
  rw [e, Rat.cast_zpow, Rat.cast_ofNat] at h
  refine h ?_
  have hb : Real.logb 10 (2 ^ (-126 : ℤ)) = -126 * Real.logb 10 2 := by
    rw [Real.logb, Real.log_zpow, Real.logb]
    push_cast
    ring
  obtain ⟨l1, l2⟩ := log_two_ten
  have hi : Real.logb 10 2 = (Real.logb 2 10)⁻¹ := by rw [Real.inv_logb]
  have h1 : 0 ≤ Real.logb 10 2 ∧ Real.logb 10 2 ≤ 0.31 := by
    rw [hi]
    constructor
    · exact inv_nonneg.mpr (by linarith)
    · rw [inv_le_comm₀ (by linarith) (by norm_num)]
      norm_num at l1 ⊢
      linarith
  rw [hb, abs_le]
  constructor <;> norm_num at h1 ⊢ <;> linarith [h1.1, h1.2]

/-- Minus twenty decibels. -/
example : ∃ r, idecibelIeee (ExpConsts.ieee Format.single) (num true 20) = .ok r ∧ |(r.val : ℝ) - (10 : ℝ) ^ ((-20 : ℝ) / 10)| ≤ ((7.5 + 0.2305 * |(-20 : ℝ)|) / 2 ^ 24 + 2.2 / 2 ^ 60) * (10 : ℝ) ^ ((-20 : ℝ) / 10) + 2 ^ (-149 : ℤ) / 2 := by
  have v : (num true 20 : Ieee Format.single).Valid := by
    have := valid_eighth true 160 (by norm_num)
    norm_num at this ⊢
    exact this
  have e : (num true 20 : Ieee Format.single).val = -20 := rfl
  have em : ((Format.single.emax : ℤ) : ℝ) = 128 := by norm_num [Format.single]
  obtain ⟨l1, l2⟩ := log_two_ten
  obtain ⟨r, h, -, -, h'⟩ := C122_idecibel wide_single (by decide) (num true 20 : Ieee Format.single) trivial v (by rw [e]; norm_num) (by rw [e, em]; push_cast; norm_num at l2 ⊢; linarith)
  rw [e] at h'
  push_cast at h'
  exact ⟨r, h, h'⟩

example : decibelIeee (DecibelConsts.ieee 64 Format.single) (inf false) = nan := (C122_special wide_single 64 false 1 (by norm_num)).2.2

end DSP
