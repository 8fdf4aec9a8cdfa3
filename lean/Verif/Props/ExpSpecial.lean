import Verif.Model.ExpIeee
import Verif.Props.AtanSpecial
import Verif.Props.ExpError

/-!
# C121: powers of ten and decibels over the whole range of floating point
-/

namespace DSP
open Spec

namespace Elementary
namespace ExpIeee
open Binary Ieee AtanIeee

/-! ### Powers of two -/

section
variable {F : Format} (W : Wide F)
include W

/-- A power of two, or infinity if it is too large. -/
def Pow (a : Ieee F) (k : ℕ) : Prop := a = if (k : ℤ) < F.emax then num false (2 ^ k) else inf false

theorem fits_power (k : ℕ) : Fits F (2 ^ k : ℚ) := by
  have h1 := W.emin
  have h2 := W.p
  have e : (2 ^ k : ℚ) = ((1 : ℤ) : ℚ) * 2 ^ (k : ℤ) := by rw [Int.cast_one, one_mul, zpow_natCast]
  exact ⟨⟨1, k, by rw [abs_one]; exact one_lt_pow₀ (by norm_num) (by omega), e⟩, multiple_down _ k _ (by omega) ⟨1, e⟩⟩

theorem pack_power (s : Bool) (k : ℕ) : (pack s (2 ^ k) : Ieee F) = if (k : ℤ) < F.emax then num s (2 ^ k) else inf s := by
  unfold pack
  rw [roundTo_of_fits W.pos _ (fits_power W k), abs_of_pos (by positivity)]
  have e : (2 ^ F.emax : ℚ) ≤ 2 ^ k ↔ ¬(k : ℤ) < F.emax := by
    rw [not_lt, ← zpow_natCast (2 : ℚ) k, zpow_le_zpow_iff_right₀ (by norm_num)]
  by_cases h : (k : ℤ) < F.emax
  · simp only [e]
    rw [if_pos h, if_neg (not_not.mpr h)]
  · simp only [e]
    rw [if_neg h, if_pos h]

theorem Pow.mul {a b : Ieee F} {j k : ℕ} (ha : Pow a j) (hb : Pow b k) : Pow (a * b) (j + k) := by
  unfold Pow at *
  subst ha hb
  have hp : ∀ k : ℕ, (2 ^ k : ℚ) ≠ 0 := fun k => by positivity
  by_cases h1 : (j : ℤ) < F.emax <;> by_cases h2 : (k : ℤ) < F.emax
  · rw [if_pos h1, if_pos h2]
    show pack (false ^^ false) (2 ^ j * 2 ^ k) = _
    rw [← pow_add, pack_power W]
    rfl
  · rw [if_pos h1, if_neg h2, if_neg (by push_cast; omega)]
    show (if (2 ^ j : ℚ) = 0 then nan else inf (false ^^ false)) = _
    rw [if_neg (hp j)]
    rfl
  · rw [if_neg h1, if_pos h2, if_neg (by push_cast; omega)]
    show (if (2 ^ k : ℚ) = 0 then nan else inf (false ^^ false)) = _
    rw [if_neg (hp k)]
    rfl
  · rw [if_neg h1, if_neg h2, if_neg (by push_cast; omega)]
    rfl

theorem pow_cast (k : ℕ) : Pow ((2 ^ k : ℤ) : Ieee F) k := by
  show pack (decide ((2 ^ k : ℤ) < 0)) (((2 ^ k : ℤ) : ℚ)) = _
  rw [decide_eq_false (not_lt.mpr (by positivity))]
  push_cast
  exact pack_power W false k

theorem pow_square (k : ℕ) (hk : k ≤ 31) : ∃ s : ℤ, Exp.shl k = .ok s ∧ Pow ((s : Ieee F) * (s : Ieee F)) (k + k) := by
  by_cases h : k = 31
  · subst h
    refine ⟨-2147483648, rfl, ?_⟩
    have e : ((-2147483648 : ℤ) : Ieee F) = if ((31 : ℕ) : ℤ) < F.emax then num true (2 ^ 31) else inf true := by
      rw [← pack_power W true 31]
      show pack (decide ((-2147483648 : ℤ) < 0)) _ = _
      rw [decide_eq_true (by norm_num)]
      unfold pack
      push_cast
      rw [show (-2147483648 : ℚ) = -2 ^ 31 by norm_num, roundTo_neg, abs_neg]
    rw [e]
    unfold Pow
    by_cases h1 : ((31 : ℕ) : ℤ) < F.emax
    · rw [if_pos h1]
      show pack (true ^^ true) (2 ^ 31 * 2 ^ 31) = _
      rw [← pow_add, pack_power W]
      rfl
    · rw [if_neg h1, if_neg (by push_cast at h1 ⊢; omega)]
      rfl
  · exact ⟨2 ^ k, Exp.shl_small k (by omega), Pow.mul W (pow_cast W k) (pow_cast W k)⟩

/-- The scale. -/
theorem pow_scale (a : ℕ) (ha : a ≤ 255) : ∃ s : ℤ, Exp.shl (Int.tdiv a 8) = .ok s ∧ Exp.shl ((a : ℤ) - Int.tdiv a 8 * 8) = .ok (2 ^ (a % 8)) ∧
    Pow (((s : Ieee F) * (s : Ieee F)) * ((s : Ieee F) * (s : Ieee F)) * ((s : Ieee F) * (s : Ieee F) * ((s : Ieee F) * (s : Ieee F))) * ((2 ^ (a % 8) : ℤ) : Ieee F)) a := by
  have e1 : Int.tdiv (a : ℤ) 8 = ((a / 8 : ℕ) : ℤ) := by rw [Int.tdiv_eq_ediv_of_nonneg (by omega)]; omega
  have e2 : (a : ℤ) - ((a / 8 : ℕ) : ℤ) * 8 = ((a % 8 : ℕ) : ℤ) := by omega
  obtain ⟨s, hs, hs2⟩ := pow_square W (a / 8) (by omega)
  refine ⟨s, by rw [e1, hs], by rw [e1, e2, Exp.shl_small _ (by omega)], ?_⟩
  have h4 := Pow.mul W hs2 hs2
  have h := Pow.mul W (Pow.mul W h4 h4) (pow_cast W (a % 8))
  rwa [show a / 8 + a / 8 + (a / 8 + a / 8) + (a / 8 + a / 8 + (a / 8 + a / 8)) + a % 8 = a by omega] at h

theorem ldexp_cases (x : Ieee F) (n : ℤ) (hn : |n| ≤ 255) : ∃ t : Ieee F, Pow t n.natAbs ∧ ldexp x n = .ok (if n < 0 then x / t else x * t) := by
  have hn' := abs_le.mp hn
  obtain ⟨s, k1, k2, k3⟩ := pow_scale W n.natAbs (by omega)
  refine ⟨_, k3, ?_⟩
  unfold ldexp
  by_cases c : n < 0
  · have hi' : (if n < 0 then int32 (-n) else pure n) = (.ok (n.natAbs : ℤ) : M ℤ) := by
      rw [if_pos c, show -n = (n.natAbs : ℤ) by omega]
      exact if_pos (by omega)
    simp only [bind, Except.bind, hi']
    rw [k1]
    simp only []
    rw [k2]
    simp only [if_pos c, pure, Except.pure]
  · have hi' : (if n < 0 then int32 (-n) else pure n) = (.ok (n.natAbs : ℤ) : M ℤ) := by
      rw [if_neg c, show ((n.natAbs : ℤ)) = n by omega]
      rfl
    simp only [bind, Except.bind, hi']
    rw [k1]
    simp only []
    rw [k2]
    simp only [if_neg c, pure, Except.pure]

/-- What comes of a finite number. -/
theorem ldexp_value (s : Bool) (m : ℚ) (n : ℤ) (hn : |n| ≤ 255) : ldexp (num s m : Ieee F) n = .ok (if |n| < F.emax then pack s (m * 2 ^ n) else if n < 0 then num s 0 else if m = 0 then nan else inf s) := by
  obtain ⟨t, ht, e⟩ := ldexp_cases W (num s m) n hn
  rw [e]
  congr 1
  have hab : ((n.natAbs : ℕ) : ℤ) = |n| := Int.natCast_natAbs n
  unfold Pow at ht
  rw [hab] at ht
  by_cases h : |n| < F.emax
  · rw [if_pos h] at ht ⊢
    subst ht
    by_cases c : n < 0
    · rw [if_pos c]
      show (if (2 ^ n.natAbs : ℚ) = 0 then _ else pack (s ^^ false) (m / 2 ^ n.natAbs)) = _
      rw [if_neg (by positivity), Bool.xor_false, div_eq_mul_inv, ← zpow_natCast, ← zpow_neg, show -((n.natAbs : ℕ) : ℤ) = n by omega]
    · rw [if_neg c]
      show pack (s ^^ false) (m * 2 ^ n.natAbs) = _
      rw [Bool.xor_false, ← zpow_natCast, show ((n.natAbs : ℕ) : ℤ) = n by omega]
  · rw [if_neg h] at ht ⊢
    subst ht
    by_cases c : n < 0
    · rw [if_pos c, if_pos c]
      show num (s ^^ false) 0 = _
      rw [Bool.xor_false]
    · rw [if_neg c, if_neg c]
      show (if m = 0 then nan else inf (s ^^ false)) = _
      rw [Bool.xor_false]
end

/-! ### The rational function -/

def numE (ρ : ℚ → ℚ) (c : ExpConsts ℚ) (xx : ℚ) : ℚ := horner ρ xx (horner ρ xx (horner ρ xx c.P0 c.P1) c.P2) c.P3

def denE (ρ : ℚ → ℚ) (c : ExpConsts ℚ) (xx : ℚ) : ℚ := horner ρ xx (horner ρ xx (ρ (xx + c.Q0)) c.Q1) c.Q2

def pyE (ρ : ℚ → ℚ) (c : ExpConsts ℚ) (x : ℚ) : ℚ := ρ (x * numE ρ c (ρ (x * x)))

def fracE (ρ : ℚ → ℚ) (c : ExpConsts ℚ) (x : ℚ) : ℚ := ρ (ρ (ρ ((2 : ℤ) : ℚ) * pyE ρ c x) / ρ (denE ρ c (ρ (x * x)) - pyE ρ c x))

def pqE (ρ : ℚ → ℚ) (c : ExpConsts ℚ) (x : ℚ) : ℚ := ρ (ρ ((1 : ℤ) : ℚ) + fracE ρ c x)

/-- The sizes of the constants. -/
structure Sizes (c : ExpConsts ℚ) : Prop where
  LOG210 : 3 ≤ c.LOG210 ∧ c.LOG210 ≤ 4
  LG102A : 1 / 4 ≤ c.LG102A ∧ c.LG102A ≤ 1 / 2
  LG102B : 1 / 2 ^ 20 ≤ c.LG102B ∧ c.LG102B ≤ 1
  P0 : 1 / 32 ≤ c.P0 ∧ c.P0 ≤ 1
  P1 : 11 ≤ c.P1 ∧ c.P1 ≤ 12
  P2 : 406 ≤ c.P2 ∧ c.P2 ≤ 407
  P3 : 2394 ≤ c.P3 ∧ c.P3 ≤ 2395
  Q0 : 85 ≤ c.Q0 ∧ c.Q0 ≤ 86
  Q1 : 1272 ≤ c.Q1 ∧ c.Q1 ≤ 1273
  Q2 : 2079 ≤ c.Q2 ∧ c.Q2 ≤ 2080

section
variable {p : ℕ} {ρ : ℚ → ℚ} (h : Rounding p ρ) {c : ExpConsts ℚ} (hc : Sizes c)
include h hc

theorem num_steps {xx : ℚ} (x0 : 0 ≤ xx) (x1 : xx ≤ 1) :
    ((0 ≤ ρ (xx * c.P0) ∧ ρ (xx * c.P0) ≤ 1) ∧ 11 ≤ horner ρ xx c.P0 c.P1 ∧ horner ρ xx c.P0 c.P1 ≤ 13) ∧
      ((0 ≤ ρ (xx * horner ρ xx c.P0 c.P1) ∧ ρ (xx * horner ρ xx c.P0 c.P1) ≤ 13) ∧
        406 ≤ horner ρ xx (horner ρ xx c.P0 c.P1) c.P2 ∧ horner ρ xx (horner ρ xx c.P0 c.P1) c.P2 ≤ 420) ∧
      ((0 ≤ ρ (xx * horner ρ xx (horner ρ xx c.P0 c.P1) c.P2) ∧ ρ (xx * horner ρ xx (horner ρ xx c.P0 c.P1) c.P2) ≤ 420) ∧
        2394 ≤ numE ρ c xx ∧ numE ρ c xx ≤ 2815) := by
  have a1 := horner_pos h (v := c.P0) 1 12 11 (by norm_num) (by norm_num) (by norm_num) (by norm_num) x0 x1 (by linarith [hc.P0.1]) (by push_cast; exact hc.P0.2) (by push_cast; exact hc.P1.1) (by push_cast; exact hc.P1.2)
  norm_num at a1
  have a2 := horner_pos h 13 407 406 (by norm_num) (by norm_num) (by norm_num) (by norm_num) x0 x1 (by linarith [a1.2.1]) (by push_cast; exact a1.2.2) (by push_cast; exact hc.P2.1) (by push_cast; exact hc.P2.2)
  norm_num at a2
  have a3 := horner_pos h 420 2395 2394 (by norm_num) (by norm_num) (by norm_num) (by norm_num) x0 x1 (by linarith [a2.2.1]) (by push_cast; exact a2.2.2) (by push_cast; exact hc.P3.1) (by push_cast; exact hc.P3.2)
  norm_num at a3
  exact ⟨a1, a2, a3⟩

theorem den_steps {xx : ℚ} (x0 : 0 ≤ xx) (x1 : xx ≤ 1 / 2) :
    (85 ≤ ρ (xx + c.Q0) ∧ ρ (xx + c.Q0) ≤ 87) ∧
      ((0 ≤ ρ (xx * ρ (xx + c.Q0)) ∧ ρ (xx * ρ (xx + c.Q0)) ≤ 87) ∧ 1272 ≤ horner ρ xx (ρ (xx + c.Q0)) c.Q1 ∧ horner ρ xx (ρ (xx + c.Q0)) c.Q1 ≤ 1360) ∧
      ((0 ≤ ρ (xx * horner ρ xx (ρ (xx + c.Q0)) c.Q1) ∧ ρ (xx * horner ρ xx (ρ (xx + c.Q0)) c.Q1) ≤ 680) ∧ 2079 ≤ denE ρ c xx ∧ denE ρ c xx ≤ 2760) := by
  have a0 := h.between 170 174 (by norm_num) (by norm_num) (v := xx + c.Q0) (by push_cast; linarith [hc.Q0.1]) (by push_cast; linarith [hc.Q0.2])
  norm_num at a0
  have a1 := horner_pos h 87 1273 1272 (by norm_num) (by norm_num) (by norm_num) (by norm_num) x0 (by linarith) (by linarith [a0.1]) (by push_cast; exact a0.2) (by push_cast; exact hc.Q1.1) (by push_cast; exact hc.Q1.2)
  norm_num at a1
  obtain ⟨b1, b2⟩ := a1.2
  have a2 := h.between 0 1360 (by norm_num) (by norm_num) (v := xx * horner ρ xx (ρ (xx + c.Q0)) c.Q1) (by push_cast; rw [zero_div]; apply mul_nonneg <;> linarith)
    (by push_cast; nlinarith)
  norm_num at a2
  have a3 := h.between 4158 5520 (by norm_num) (by norm_num) (v := ρ (xx * horner ρ xx (ρ (xx + c.Q0)) c.Q1) + c.Q2) (by push_cast; linarith [hc.Q2.1]) (by push_cast; linarith [hc.Q2.2])
  norm_num at a3
  exact ⟨a0, a1, a2, a3⟩

omit hc in
theorem quarter_square {x : ℚ} (hx : |x| ≤ 1 / 4) : 0 ≤ ρ (x * x) ∧ ρ (x * x) ≤ 1 / 2 := by
  have := h.between 0 1 (by norm_num) (by norm_num) (v := x * x) (by push_cast; rw [zero_div]; exact mul_self_nonneg x)
    (by rw [← abs_mul_abs_self]; push_cast; nlinarith [abs_nonneg x])
  norm_num at this ⊢
  exact this

omit hc in
theorem bounded (n : ℤ) (v : ℚ) (h0 : 0 ≤ n) (h1 : n ≤ 8192) (hv : |v| ≤ n / 2) : |ρ v| ≤ n / 2 := by
  have hv := abs_le.mp hv
  have := h.between (-n) n (by rw [abs_le]; constructor <;> omega) (by rw [abs_le]; constructor <;> omega) (v := v) (by push_cast; linarith [hv.1]) hv.2
  push_cast at this
  rw [abs_le]
  constructor <;> linarith [this.1, this.2]

/-- The sizes within the fraction. -/
theorem frac_size {x : ℚ} (hx : |x| ≤ 1 / 4) :
    |pyE ρ c x| ≤ 704 ∧ |ρ (ρ ((2 : ℤ) : ℚ) * pyE ρ c x)| ≤ 1408 ∧ (1375 ≤ ρ (denE ρ c (ρ (x * x)) - pyE ρ c x) ∧ ρ (denE ρ c (ρ (x * x)) - pyE ρ c x) ≤ 3464) ∧ |fracE ρ c x| ≤ 3 / 2 ∧ |fracE ρ c x| ≤ 33 * |x| := by
  obtain ⟨s0, s1⟩ := quarter_square h hx
  obtain ⟨n0, n1⟩ := (num_steps h hc s0 (by linarith)).2.2.2
  obtain ⟨d0, d1⟩ := (den_steps h hc s0 s1).2.2.2
  have two : ρ ((2 : ℤ) : ℚ) = 2 := by rw [h.int 2 (by norm_num)]; norm_num
  unfold fracE
  rw [two]
  have hN : |numE ρ c (ρ (x * x))| ≤ 2815 := by rw [abs_le]; constructor <;> linarith
  have t1 : |pyE ρ c x| ≤ 704 := by
    have := bounded h 1408 (x * numE ρ c (ρ (x * x))) (by norm_num) (by norm_num) (by rw [abs_mul]; push_cast; nlinarith [abs_nonneg x, abs_nonneg (numE ρ c (ρ (x * x)))])
    norm_num at this
    exact this
  have k1 : |pyE ρ c x| ≤ 2 * (|x| * 2815) := by
    have := h.double (x * numE ρ c (ρ (x * x)))
    rw [abs_mul] at this
    have : |x| * |numE ρ c (ρ (x * x))| ≤ |x| * 2815 := by gcongr
    unfold pyE
    linarith
  set py := pyE ρ c x
  set D := denE ρ c (ρ (x * x))
  have hpy := abs_le.mp t1
  have t2 : |ρ (2 * py)| ≤ 1408 := by
    have := bounded h 2816 (2 * py) (by norm_num) (by norm_num) (by rw [abs_mul, abs_of_pos (by norm_num : (0 : ℚ) < 2)]; push_cast; linarith)
    norm_num at this
    exact this
  have t3 := h.between 2750 6928 (by norm_num) (by norm_num) (v := D - py) (by push_cast; linarith [hpy.2]) (by push_cast; linarith [hpy.1])
  norm_num at t3
  have hD : 0 < ρ (D - py) := by linarith [t3.1]
  refine ⟨t1, t2, t3, ?_, ?_⟩
  · have := bounded h 3 (ρ (2 * py) / ρ (D - py)) (by norm_num) (by norm_num) (by
      rw [abs_div, abs_of_pos hD, div_le_iff₀ hD]
      push_cast
      linarith [t3.1])
    norm_num at this
    exact this
  · have k2 := h.double (2 * py)
    rw [abs_mul, abs_of_pos (by norm_num : (0 : ℚ) < 2)] at k2
    have k3 := h.double (ρ (2 * py) / ρ (D - py))
    rw [abs_div, abs_of_pos hD] at k3
    have k4 : |ρ (2 * py)| / ρ (D - py) ≤ (2 * (2 * (2 * (|x| * 2815)))) / 1375 := by
      apply div_le_div₀ (by positivity) (by linarith) (by norm_num) t3.1
    have : 0 ≤ |x| := abs_nonneg x
    linarith

/-- One plus nothing. -/
theorem pq_small (hp : 0 < p) (near : ∀ v y, Representable p y → (∃ w, y = ρ w) → |ρ v - v| ≤ |y - v|) (hp4 : (1 : ℚ) / 2 ^ p ≤ 1) {x : ℚ} (hx : |x| ≤ 1 / 2 ^ p / 256) : pqE ρ c x = 1 := by
  have u0 : (0 : ℚ) < 1 / 2 ^ p := by positivity
  obtain ⟨-, -, -, -, hf⟩ := frac_size h hc (x := x) (by linarith)
  have one : ρ ((1 : ℤ) : ℚ) = 1 := by rw [h.int 1 (by norm_num)]; norm_num
  have := absorb h hp near (w := ((1 : ℤ) : ℚ)) (q := -fracE ρ c x) (by rw [one]) (by rw [abs_neg]; linarith)
  rw [sub_neg_eq_add, one] at this
  unfold pqE
  rw [one]
  exact this
end

section
variable {F : Format} (W : Wide F) {c : ExpConsts ℚ} (hc : Sizes c)
include W

theorem horner_agree' {xx v c : ℚ} (hxx : (1 / 2 ^ F.p / 256) ^ 2 ≤ xx) (hv : 1 / 32 ≤ |v|) (hs : 1 ≤ |roundTo F (xx * v) + c|) : horner (roundTo F) xx v c = horner (round F.p) xx v c := by
  obtain ⟨t1, t2⟩ := tiny W
  obtain ⟨u0, u1⟩ := tau W
  unfold horner
  rw [agree W _ (Or.inr (t1.trans (le_trans (by norm_num) hs))), agree W (xx * v) (Or.inr ?_)]
  have h0 : 0 ≤ xx := le_trans (by positivity) hxx
  rw [abs_mul, abs_of_nonneg h0]
  set t := (1 : ℚ) / 2 ^ F.p
  have h3 : t ^ 3 ≤ t ^ 2 * (1 / 1048576) := by rw [pow_succ t 2]; gcongr
  have h4 : (t / 256) ^ 2 * (1 / 32) ≤ xx * |v| := mul_le_mul hxx hv (by norm_num) h0
  have : 0 ≤ t ^ 2 := sq_nonneg t
  linarith [show (t / 256) ^ 2 * (1 / 32) = t ^ 2 / 2097152 by ring]

include hc

theorem num_agree {xx : ℚ} (hxx : (1 / 2 ^ F.p / 256) ^ 2 ≤ xx) (x1 : xx ≤ 1) : numE (roundTo F) c xx = numE (round F.p) c xx := by
  have h0 : 0 ≤ xx := le_trans (by positivity) hxx
  obtain ⟨⟨⟨a1, a2⟩, a3, a4⟩, ⟨⟨b1, b2⟩, b3, b4⟩, ⟨d1, d2⟩, d3, d4⟩ := num_steps (rounding_ieee W) hc h0 x1
  unfold numE
  rw [horner_agree' W hxx (by rw [abs_of_nonneg (by linarith)]; linarith) (by rw [abs_of_nonneg (by linarith [hc.P3.1])]; linarith [hc.P3.1]),
    horner_agree' W (v := horner (roundTo F) xx c.P0 c.P1) hxx (by rw [abs_of_nonneg (by linarith)]; linarith) (by rw [abs_of_nonneg (by linarith [hc.P2.1])]; linarith [hc.P2.1]),
    horner_agree' W (v := c.P0) hxx (by rw [abs_of_nonneg (by linarith [hc.P0.1])]; exact hc.P0.1) (by rw [abs_of_nonneg (by linarith [hc.P1.1])]; linarith [hc.P1.1])]

theorem den_agree {xx : ℚ} (hxx : (1 / 2 ^ F.p / 256) ^ 2 ≤ xx) (x1 : xx ≤ 1 / 2) : denE (roundTo F) c xx = denE (round F.p) c xx := by
  have h0 : 0 ≤ xx := le_trans (by positivity) hxx
  obtain ⟨⟨z1, z2⟩, ⟨⟨a1, a2⟩, a3, a4⟩, ⟨b1, b2⟩, b3, b4⟩ := den_steps (rounding_ieee W) hc h0 x1
  have t := (tiny W).1
  unfold denE
  rw [horner_agree' W hxx (by rw [abs_of_nonneg (by linarith)]; linarith) (by rw [abs_of_nonneg (by linarith [hc.Q2.1])]; linarith [hc.Q2.1]),
    horner_agree' W (v := roundTo F (xx + c.Q0)) hxx (by rw [abs_of_nonneg (by linarith)]; linarith) (by rw [abs_of_nonneg (by linarith [hc.Q1.1])]; linarith [hc.Q1.1]),
    agree W (xx + c.Q0) (Or.inr (by rw [abs_of_nonneg (by linarith [hc.Q0.1])]; refine t.trans (le_trans (by norm_num) (by linarith [hc.Q0.1] : (1 : ℚ) ≤ xx + c.Q0))))]

/-- The limits of the range do not matter. -/
theorem pq_agree {x : ℚ} (hx : |x| ≤ 1 / 4) : pqE (roundTo F) c x = pqE (round F.p) c x := by
  have hp := W.p
  obtain ⟨u0, u1⟩ := tau W
  obtain ⟨t1, t2⟩ := tiny W
  rcases le_total |x| (1 / 2 ^ F.p / 256) with hs | hs
  · rw [pq_small (rounding_ieee W) hc W.pos (near_ieee W) (u1.trans (by norm_num)) hs, pq_small (rounding_binary W) hc W.pos (near_binary W) (u1.trans (by norm_num)) hs]
  have pw : ∀ k : ℕ, Representable F.p ((1 / 2 ^ F.p / 256) ^ k : ℚ) := by
    intro k
    refine ⟨1, -((F.p + 8) * k), ?_, ?_⟩
    · rw [abs_one]
      exact one_lt_pow₀ (by norm_num) (by omega)
    · rw [Int.cast_one, one_mul, show (1 : ℚ) / 2 ^ F.p / 256 = (2 ^ (F.p + 8))⁻¹ by rw [pow_add]; norm_num; ring, zpow_neg, inv_pow, ← pow_mul, ← zpow_natCast]
      push_cast
      rfl
  set t := (1 : ℚ) / 2 ^ F.p with ht
  have ht' : t ≤ 1 := u1.trans (by norm_num)
  have h3 : t ^ 3 ≤ t ^ 2 * (1 / 1048576) := by rw [pow_succ t 2]; gcongr
  have h2 : t ^ 2 ≤ t * (1 / 1048576) := by rw [pow_two]; gcongr
  have hsq : 0 ≤ t ^ 2 := sq_nonneg t
  have x2 : (t / 256) ^ 2 ≤ x * x := by
    rw [← abs_mul_abs_self x]
    nlinarith
  have e1 : roundTo F (x * x) = round F.p (x * x) := agree W _ (Or.inr (by
    rw [abs_mul_self]
    linarith [show (t / 256) ^ 2 = t ^ 2 / 65536 by ring]))
  have xx2 : (t / 256) ^ 2 ≤ round F.p (x * x) := le_round _ W.pos _ _ (pw 2) x2
  obtain ⟨xx0, xx1⟩ := quarter_square (rounding_binary W) hx
  have e2 := num_agree W hc xx2 (by linarith)
  have e3 := den_agree W hc xx2 xx1
  obtain ⟨n0, n1⟩ := (num_steps (rounding_binary W) hc xx0 (by linarith)).2.2.2
  have hxN : t ≤ |x * numE (round F.p) c (round F.p (x * x))| := by
    rw [abs_mul, abs_of_nonneg (by linarith : 0 ≤ numE (round F.p) c (round F.p (x * x)))]
    have : t / 256 * 2394 ≤ |x| * numE (round F.p) c (round F.p (x * x)) := mul_le_mul hs n0 (by norm_num) (abs_nonneg x)
    linarith
  have e4 : pyE (roundTo F) c x = pyE (round F.p) c x := by
    unfold pyE
    rw [e1, e2]
    exact agree W _ (Or.inr (by linarith))
  have two : ∀ ρ : ℚ → ℚ, Rounding F.p ρ → ρ ((2 : ℤ) : ℚ) = 2 := fun ρ h => by rw [h.int 2 (by norm_num)]; norm_num
  have rt : Representable F.p t := by
    have := pw 1
    have e : t = 256 * (t / 256) ^ 1 := by ring
    obtain ⟨m, k, h1, h2⟩ := this
    refine ⟨m, k + 8, h1, ?_⟩
    rw [e, h2, zpow_add₀ (by norm_num)]
    norm_num
    ring
  have big : ∀ v, t ≤ |v| → t ≤ |round F.p v| := by
    intro v hv
    rcases le_total 0 v with s | s
    · rw [abs_of_nonneg s] at hv
      exact (le_round _ W.pos _ _ rt hv).trans (le_abs_self _)
    · rw [abs_of_nonpos s] at hv
      have := le_round F.p W.pos (-v) t rt hv
      rw [round_neg] at this
      exact this.trans (neg_le_abs _)
  have hpy : t ≤ |pyE (round F.p) c x| := big _ hxN
  have h2py : t ≤ |2 * pyE (round F.p) c x| := by rw [abs_mul, abs_of_pos (by norm_num : (0 : ℚ) < 2)]; linarith
  have e5 : roundTo F (2 * pyE (round F.p) c x) = round F.p (2 * pyE (round F.p) c x) := agree W _ (Or.inr (by linarith))
  obtain ⟨-, -, ⟨D0, D1⟩, -, -⟩ := frac_size (rounding_binary W) hc hx
  have hpyb := abs_le.mp (frac_size (rounding_binary W) hc hx).1
  obtain ⟨d0, d1⟩ := (den_steps (rounding_binary W) hc xx0 xx1).2.2.2
  have e6 : roundTo F (denE (round F.p) c (round F.p (x * x)) - pyE (round F.p) c x) = round F.p (denE (round F.p) c (round F.p (x * x)) - pyE (round F.p) c x) := by
    apply agree W _ (Or.inr _)
    rw [abs_of_nonneg (by linarith)]
    refine t1.trans (le_trans (by norm_num) (by linarith : (1 : ℚ) ≤ _))
  have e7 : fracE (roundTo F) c x = fracE (round F.p) c x := by
    unfold fracE
    rw [e4, two _ (rounding_ieee W), two _ (rounding_binary W), e1, e3, e5, e6]
    apply agree W _ (Or.inr _)
    rw [abs_div, abs_of_pos (by linarith : 0 < round F.p (denE (round F.p) c (round F.p (x * x)) - pyE (round F.p) c x)), le_div_iff₀ (by linarith)]
    have := big _ h2py
    have : t ^ 3 / 128 * round F.p (denE (round F.p) c (round F.p (x * x)) - pyE (round F.p) c x) ≤ t ^ 3 / 128 * 3464 := by gcongr
    linarith
  unfold pqE
  rw [e7, (rounding_ieee W).int 1 (by norm_num), (rounding_binary W).int 1 (by norm_num)]
  have f1 : Fits F (((1 : ℤ) : ℚ)) := by
    have := half_representable W 2 (by norm_num)
    norm_num at this ⊢
    exact this
  have f2 : Fits F (fracE (round F.p) c x) := by
    rw [← e7]
    exact roundTo_fits W.pos _
  exact agree_grid W _ _ f1 f2
end

/-! ### The numbers of the format -/

def valuesE (p : ℕ) [NeZero p] : ExpConsts ℚ := (ExpConsts.binary p).map Binary.val

theorem sizesE (p : ℕ) [NeZero p] (hp : 20 ≤ p) (hp' : p ≤ 53) : Sizes (valuesE p) := by
  constructor
  · exact literal_between 53 p hp hp' ExpConsts.decimal.LOG210 _ _ (by norm_num [ExpConsts.decimal]) (by norm_num [ExpConsts.decimal])
  · exact literal_between 53 p hp hp' ExpConsts.decimal.LG102A _ _ (by norm_num [ExpConsts.decimal]) (by norm_num [ExpConsts.decimal])
  · exact literal_between 53 p hp hp' ExpConsts.decimal.LG102B _ _ (by norm_num [ExpConsts.decimal]) (by norm_num [ExpConsts.decimal])
  · exact literal_between 53 p hp hp' ExpConsts.decimal.P0 _ _ (by norm_num [ExpConsts.decimal]) (by norm_num [ExpConsts.decimal])
  · exact literal_between 53 p hp hp' ExpConsts.decimal.P1 _ _ (by norm_num [ExpConsts.decimal]) (by norm_num [ExpConsts.decimal])
  · exact literal_between 53 p hp hp' ExpConsts.decimal.P2 _ _ (by norm_num [ExpConsts.decimal]) (by norm_num [ExpConsts.decimal])
  · exact literal_between 53 p hp hp' ExpConsts.decimal.P3 _ _ (by norm_num [ExpConsts.decimal]) (by norm_num [ExpConsts.decimal])
  · exact literal_between 53 p hp hp' ExpConsts.decimal.Q0 _ _ (by norm_num [ExpConsts.decimal]) (by norm_num [ExpConsts.decimal])
  · exact literal_between 53 p hp hp' ExpConsts.decimal.Q1 _ _ (by norm_num [ExpConsts.decimal]) (by norm_num [ExpConsts.decimal])
  · exact literal_between 53 p hp hp' ExpConsts.decimal.Q2 _ _ (by norm_num [ExpConsts.decimal]) (by norm_num [ExpConsts.decimal])

structure Match {F : Format} (c : ExpConsts (Ieee F)) (q : ExpConsts ℚ) : Prop where
  LOG210 : Is c.LOG210 q.LOG210
  LG102A : Is c.LG102A q.LG102A
  LG102B : Is c.LG102B q.LG102B
  P0 : Is c.P0 q.P0
  P1 : Is c.P1 q.P1
  P2 : Is c.P2 q.P2
  P3 : Is c.P3 q.P3
  Q0 : Is c.Q0 q.Q0
  Q1 : Is c.Q1 q.Q1
  Q2 : Is c.Q2 q.Q2

theorem nearest_zero {w : ℚ} (h : |w| < 1 / 2) : nearest w = 0 := by
  have h1 := abs_le.mp (nearest_near w)
  have h2 := abs_lt.mp h
  have h3 : ((nearest w : ℤ) : ℚ) < 1 := by linarith [h1.2]
  have h4 : (-1 : ℚ) < ((nearest w : ℤ) : ℚ) := by linarith [h1.1]
  have h5 : nearest w < 1 := by exact_mod_cast h3
  have h6 : -1 < nearest w := by exact_mod_cast h4
  omega

section
variable {F : Format} (W : Wide F)
include W

theorem matchE [NeZero F.p] (hp' : F.p ≤ 53) : Match (ExpConsts.ieee F) (valuesE F.p) := by
  have S := sizesE F.p W.p hp'
  have pos : ∀ {v lo hi : ℚ}, lo ≤ v ∧ v ≤ hi → 1 / 2 ^ 60 ≤ lo → hi ≤ 4096 → 1 / 2 ^ 60 ≤ |v| ∧ |v| ≤ 4096 := by
    intro v lo hi h h1 h2
    have : (0 : ℚ) < 1 / 2 ^ 60 := by positivity
    rw [abs_of_nonneg (by linarith [h.1])]
    constructor <;> linarith [h.1, h.2]
  constructor
  · exact is_literal W _ (pos S.LOG210 (by norm_num) (by norm_num)).1 (pos S.LOG210 (by norm_num) (by norm_num)).2
  · exact is_literal W _ (pos S.LG102A (by norm_num) (by norm_num)).1 (pos S.LG102A (by norm_num) (by norm_num)).2
  · exact is_literal W _ (pos S.LG102B (by norm_num) (by norm_num)).1 (pos S.LG102B (by norm_num) (by norm_num)).2
  · exact is_literal W _ (pos S.P0 (by norm_num) (by norm_num)).1 (pos S.P0 (by norm_num) (by norm_num)).2
  · exact is_literal W _ (pos S.P1 (by norm_num) (by norm_num)).1 (pos S.P1 (by norm_num) (by norm_num)).2
  · exact is_literal W _ (pos S.P2 (by norm_num) (by norm_num)).1 (pos S.P2 (by norm_num) (by norm_num)).2
  · exact is_literal W _ (pos S.P3 (by norm_num) (by norm_num)).1 (pos S.P3 (by norm_num) (by norm_num)).2
  · exact is_literal W _ (pos S.Q0 (by norm_num) (by norm_num)).1 (pos S.Q0 (by norm_num) (by norm_num)).2
  · exact is_literal W _ (pos S.Q1 (by norm_num) (by norm_num)).1 (pos S.Q1 (by norm_num) (by norm_num)).2
  · exact is_literal W _ (pos S.Q2 (by norm_num) (by norm_num)).1 (pos S.Q2 (by norm_num) (by norm_num)).2

theorem is_int (n : ℤ) (hn : |n| ≤ 4096) : Is ((n : Ieee F)) (roundTo F (n : ℚ)) := by
  have h1 := W.p
  have h2 := W.emin
  have h20 : (2 : ℤ) ^ 20 ≤ 2 ^ F.p := pow_le_pow_right₀ (by norm_num) h1
  norm_num at h20
  obtain ⟨x, y, z⟩ := cast_exact (F := F) W.pos (by omega) W.emax' n (by omega)
  exact ⟨x, y, by rw [z, (rounding_ieee W).int n hn]⟩

/-- The nearest integer, and what is left of it as an `int`. -/
theorem is_nearbyint {a : Ieee F} {w : ℚ} (ha : Is a w) (hw : |nearest w| ≤ 4096) : Is (nearbyint a) (nearest w) ∧ Ieee.toInt (nearbyint a) = .ok (nearest w) := by
  obtain ⟨f, v, rfl⟩ := ha
  obtain ⟨s, m, rfl⟩ := (finite_iff a).mp f
  have hn := abs_le.mp (nearest_near (num s m : Ieee F).val)
  have hval : (num s m : Ieee F).val = signed s m := rfl
  have hm : 0 ≤ m := v.1
  have key : signed s |((nearest (signed s m) : ℤ) : ℚ)| = nearest (signed s m) := by
    rw [hval] at hn
    cases s
    · have h1 : (0 : ℚ) - 1 < ((nearest (signed false m) : ℤ) : ℚ) := by
        have : (0 : ℚ) ≤ signed false m := hm
        linarith [hn.1]
      have h2 : -1 < nearest (signed false m) := by
        have : ((-1 : ℤ) : ℚ) < ((nearest (signed false m) : ℤ) : ℚ) := by push_cast; linarith
        exact_mod_cast this
      have h3 : (0 : ℚ) ≤ ((nearest (signed false m) : ℤ) : ℚ) := by
        have : 0 ≤ nearest (signed false m) := by omega
        exact_mod_cast this
      rw [abs_of_nonneg h3]
      rfl
    · have h1 : ((nearest (signed true m) : ℤ) : ℚ) < 1 := by
        have : signed true m ≤ 0 := by show -m ≤ 0; linarith
        linarith [hn.2]
      have h2 : nearest (signed true m) < 1 := by exact_mod_cast h1
      have h3 : ((nearest (signed true m) : ℤ) : ℚ) ≤ 0 := by
        have : nearest (signed true m) ≤ 0 := by omega
        exact_mod_cast this
      rw [abs_of_nonpos h3]
      show - -_ = _
      rw [neg_neg]
  rw [hval] at hw ⊢
  have hfit : Fits F |((nearest (signed s m) : ℤ) : ℚ)| := by
    have := fits_abs (half_representable W (2 * nearest (signed s m)) (by rw [abs_mul, abs_of_pos (by norm_num : (0 : ℤ) < 2)]; omega))
    push_cast at this
    rwa [show (2 : ℚ) * ((nearest (signed s m) : ℤ) : ℚ) / 2 = ((nearest (signed s m) : ℤ) : ℚ) by ring] at this
  have hle : |((nearest (signed s m) : ℤ) : ℚ)| ≤ 4096 := by exact_mod_cast hw
  constructor
  · exact ⟨trivial, valid_of_fits _ _ (abs_nonneg _) (hle.trans_lt W.room) hfit, key⟩
  · show int32 (if signed s |((nearest (signed s m) : ℤ) : ℚ)| < 0 then ⌈signed s |((nearest (signed s m) : ℤ) : ℚ)|⌉ else ⌊signed s |((nearest (signed s m) : ℤ) : ℚ)|⌋) = _
    rw [key, Int.ceil_intCast, Int.floor_intCast, ite_self]
    have := abs_le.mp hw
    exact if_pos (by omega)

theorem is_pq {c : ExpConsts (Ieee F)} {q : ExpConsts ℚ} (hM : Match c q) (hc : Sizes q) {x : Ieee F} {v : ℚ} (hx : Is x v) (hv : |v| ≤ 1 / 4) :
    Is (((1 : ℤ) : Ieee F) + ((2 : ℤ) : Ieee F) * (x * (x * x * (x * x * (x * x * c.P0 + c.P1) + c.P2) + c.P3)) /
      (x * x * (x * x * (x * x + c.Q0) + c.Q1) + c.Q2 - x * (x * x * (x * x * (x * x * c.P0 + c.P1) + c.P2) + c.P3))) (pqE (roundTo F) q v) := by
  have R := rounding_ieee W
  obtain ⟨s0, s1⟩ := quarter_square R hv
  have ixx : Is (x * x) (roundTo F (v * v)) := Is.mul W hx hx (by rw [abs_of_nonneg s0]; linarith)
  obtain ⟨⟨⟨a1, a2⟩, a3, a4⟩, ⟨⟨b1, b2⟩, b3, b4⟩, ⟨d1, d2⟩, d3, d4⟩ := num_steps R hc s0 (by linarith)
  obtain ⟨⟨z1, z2⟩, ⟨⟨e1, e2⟩, e3, e4⟩, ⟨f1, f2⟩, f3, f4⟩ := den_steps R hc s0 s1
  obtain ⟨j1, j2, ⟨j3, j4⟩, j5, -⟩ := frac_size R hc hv
  have one : roundTo F ((1 : ℤ) : ℚ) = 1 := by rw [R.int 1 (by norm_num)]; norm_num
  have p1 := is_horner W ixx hM.P0 hM.P1 (by rw [abs_le]; constructor <;> linarith) (by rw [abs_le]; constructor <;> linarith)
  have p2 := is_horner W ixx p1 hM.P2 (by rw [abs_le]; constructor <;> linarith) (by rw [abs_le]; constructor <;> linarith)
  have p3 : Is _ (numE (roundTo F) q (roundTo F (v * v))) :=
    is_horner W ixx p2 hM.P3 (by rw [abs_le]; constructor <;> linarith) (by show |numE (roundTo F) q (roundTo F (v * v))| ≤ _; rw [abs_le]; constructor <;> linarith)
  have q0 := Is.add W ixx hM.Q0 (by rw [abs_le]; constructor <;> linarith)
  have q1 := is_horner W ixx q0 hM.Q1 (by rw [abs_le]; constructor <;> linarith) (by rw [abs_le]; constructor <;> linarith)
  have q2 : Is _ (denE (roundTo F) q (roundTo F (v * v))) :=
    is_horner W ixx q1 hM.Q2 (by rw [abs_le]; constructor <;> linarith) (by show |denE (roundTo F) q (roundTo F (v * v))| ≤ _; rw [abs_le]; constructor <;> linarith)
  have ipy : Is _ (pyE (roundTo F) q v) := Is.mul W hx p3 (by show |pyE (roundTo F) q v| ≤ _; linarith)
  have i2 := Is.mul W (is_int W 2 (by norm_num)) ipy (by linarith)
  have id := Is.sub W q2 ipy (by rw [abs_le]; constructor <;> linarith)
  have ifr : Is _ (fracE (roundTo F) q v) := Is.div W i2 id (by linarith) (by show |fracE (roundTo F) q v| ≤ _; linarith)
  have hb := bounded R 5 (roundTo F ((1 : ℤ) : ℚ) + fracE (roundTo F) q v) (by norm_num) (by norm_num) (by
    rw [one]
    refine (abs_add_le _ _).trans ?_
    rw [abs_one]
    push_cast
    linarith)
  exact Is.add W (is_int W 1 (by norm_num)) ifr (hb.trans (by norm_num))

end

theorem binary_pq (p : ℕ) [NeZero p] (c : ExpConsts (Binary p)) (y : Binary p) :
    (((1 : ℤ) : Binary p) + ((2 : ℤ) : Binary p) * (y * (y * y * (y * y * (y * y * c.P0 + c.P1) + c.P2) + c.P3)) /
      (y * y * (y * y * (y * y + c.Q0) + c.Q1) + c.Q2 - y * (y * y * (y * y * (y * y * c.P0 + c.P1) + c.P2) + c.P3))).val = pqE (Binary.round p) (c.map Binary.val) y.val := rfl

/-- The logarithm of ten to the base two. -/
theorem log_two_ten : 3.3219280 ≤ Real.logb 2 10 ∧ Real.logb 2 10 ≤ 3.3219282 := by
  have h10 := abs_le.mp Digits.log_ten
  have h2' := abs_le.mp Digits.log_two
  have k2 : (0.6931471803 : ℝ) ≤ Real.log 2 ∧ Real.log 2 ≤ 0.6931471808 := by
    rw [Digits.log2] at h2'
    push_cast at h2'
    constructor <;> norm_num at h2' ⊢ <;> linarith [h2'.1, h2'.2]
  have k1 : (2.302585092 : ℝ) ≤ Real.log 10 ∧ Real.log 10 ≤ 2.302585093 := by
    rw [Digits.log10] at h10
    push_cast at h10
    constructor <;> norm_num at h10 ⊢ <;> linarith [h10.1, h10.2]
  rw [Real.logb]
  have : 0 < Real.log 2 := by linarith [k2.1]
  constructor
  · rw [le_div_iff₀ this]
    nlinarith [k1.1, k2.2]
  · rw [div_le_iff₀ this]
    nlinarith [k1.2, k2.1]

section
variable {F : Format} (W : Wide F) [NeZero F.p] (hp' : F.p ≤ 53)
include W hp'

/-- What is left of the argument, and the integer. -/
theorem reduced {x : Ieee F} {v : ℚ} (hx : Is x v) (hv : |(v : ℝ)| ≤ 76.9) :
    ∃ (i : ℤ) (pq : Ieee F) (m : ℚ), |i| < 256 ∧ |(i : ℝ) - v * Real.logb 2 10| ≤ 0.505 ∧ Is pq m ∧ exp10Ieee (ExpConsts.ieee F) x = ldexp pq i ∧
      |((m * 2 ^ i : ℚ) : ℝ) - (10 : ℝ) ^ (v : ℝ)| ≤ (7.4 / 2 ^ F.p + 1.001 / 2 ^ 60) * (10 : ℝ) ^ (v : ℝ) ∧ ∃ b : Binary F.p, b.val = m * 2 ^ i := by
  have S := sizesE F.p W.p hp'
  have M := matchE W hp'
  have R := rounding_ieee W
  have RB := rounding_binary W
  obtain ⟨t1, t2⟩ := tiny W
  have hvQ : |v| ≤ 77 := by
    have : |(v : ℝ)| ≤ 77 := hv.trans (by norm_num)
    exact_mod_cast this
  set xb : Binary F.p := ⟨v, (Is.fits hx).1⟩ with exb
  have hR := binary_roundedField F.p
  have hu0 : (0 : ℝ) ≤ 1 / 2 ^ F.p := by positivity
  have hu := unit_le' F.p W.p
  have hcR := binary_expConsts F.p hp'
  set c := ExpConsts.binary F.p with ec
  set i : ℤ := Binary.nearest (xb * c.LOG210).val with hi
  have hin : |(i : ℝ) - ((xb * c.LOG210).val : ℝ)| ≤ 1 / 2 := by
    have := Binary.nearest_near (xb * c.LOG210).val
    rw [← hi] at this
    have h := (Rat.cast_le (K := ℝ)).mpr this
    push_cast at h
    exact h
  have hw := hR.mul xb c.LOG210
  have hL := hcR.LOG210
  have hi0 : |(i : ℝ)| < 256 := (reduction (x1 := (xb.val : ℝ) - i * 3.01025390625000000000E-1) (m := (i : ℝ) * (c.LG102B.val : ℝ))
    (x2 := ((xb.val : ℝ) - i * 3.01025390625000000000E-1) - (i : ℝ) * (c.LG102B.val : ℝ)) hu0 hu hv hL hw hin hcR.LG102B (by rw [sub_self, abs_zero]; positivity) (by rw [sub_self, abs_zero]; positivity) (by rw [sub_self, abs_zero]; positivity)).1
  have hiZ : |i| < 256 := by exact_mod_cast hi0
  have h20 : (2 : ℤ) ^ 20 ≤ 2 ^ F.p := pow_le_pow_right₀ (by norm_num) W.p
  have hiv : (i : Binary F.p).val = i := Binary.round_of_representable F.p (i : ℚ) ⟨i, 0, by omega, by simp⟩
  have hA : ((((i : Binary F.p) * c.LG102A).val : ℚ) : ℝ) = i * 3.01025390625000000000E-1 := by
    rw [short_exact F.p W.p i hiZ]; push_cast; norm_num
  have s1 := hR.sub xb ((i : Binary F.p) * c.LG102A)
  simp only [hA] at s1
  have s2 := hR.mul (i : Binary F.p) c.LG102B
  simp only [hiv, Rat.cast_intCast] at s2
  have s3 := hR.sub (xb - (i : Binary F.p) * c.LG102A) ((i : Binary F.p) * c.LG102B)
  obtain ⟨-, hr, hr'⟩ := reduction hu0 hu hv hL hw hin hcR.LG102B s1 s2 s3
  -- the same numbers in the format
  set V := valuesE F.p with eV
  have LV : (xb * c.LOG210).val = Binary.round F.p (v * V.LOG210) := rfl
  have hprod : |v * V.LOG210| ≤ (616 : ℤ) / 2 := by
    rw [abs_mul, abs_of_nonneg (by linarith [S.LOG210.1] : 0 ≤ V.LOG210)]
    push_cast
    nlinarith [S.LOG210.1, S.LOG210.2, abs_nonneg v]
  have i1 := Is.mul W hx M.LOG210 ((bounded R 616 _ (by norm_num) (by norm_num) hprod).trans (by norm_num))
  have en : nearest (roundTo F (v * V.LOG210)) = i := by
    rw [hi, LV]
    rcases le_or_gt ((1 / 2 ^ F.p) ^ 3 / 128) |v * V.LOG210| with h | h
    · rw [agree W _ (Or.inr h)]
    · have hs : |v * V.LOG210| < 1 / 8 := h.trans_le (t1.trans (by norm_num))
      rw [nearest_zero (by have := R.double (v * V.LOG210); linarith), nearest_zero (by have := RB.double (v * V.LOG210); linarith)]
  obtain ⟨i2, i2'⟩ := is_nearbyint W i1 (by rw [en]; omega)
  rw [en] at i2 i2'
  have hiQ : |(i : ℚ)| ≤ 256 := by
    have : |i| ≤ 256 := hiZ.le
    exact_mod_cast this
  have step : ∀ A : ℚ, 1 / 2 ^ 20 ≤ A → A ≤ 1 → roundTo F (i * A) = Binary.round F.p (i * A) ∧ |Binary.round F.p (i * A)| ≤ 256 := by
    intro A h1 h2
    have hAp : 0 < A := lt_of_lt_of_le (by positivity) h1
    constructor
    · apply agree W
      by_cases h0 : i = 0
      · left
        rw [h0, Int.cast_zero, zero_mul]
      · right
        have : (1 : ℚ) ≤ |(i : ℚ)| := by
          have : 1 ≤ |i| := Int.one_le_abs h0
          exact_mod_cast this
        rw [abs_mul, abs_of_pos hAp]
        refine t1.trans (le_trans (by norm_num) (?_ : (1 : ℚ) * (1 / 2 ^ 20) ≤ _))
        exact mul_le_mul this h1 (by positivity) (abs_nonneg _)
    · have := bounded RB 512 (i * A) (by norm_num) (by norm_num) (by rw [abs_mul, abs_of_pos hAp]; push_cast; nlinarith [abs_nonneg (i : ℚ)])
      norm_num at this
      exact this
  obtain ⟨eA, bA⟩ := step V.LG102A (by linarith [S.LG102A.1]) (by linarith [S.LG102A.2])
  obtain ⟨eB, bB⟩ := step V.LG102B S.LG102B.1 S.LG102B.2
  have i3 := Is.mul W i2 M.LG102A (by rw [eA]; linarith)
  rw [eA] at i3
  have i4 := Is.mul W i2 M.LG102B (by rw [eB]; linarith)
  rw [eB] at i4
  have f1 := Is.fits i3.neg
  have f2 := Is.fits i4.neg
  have e5 : roundTo F (v - Binary.round F.p (i * V.LG102A)) = Binary.round F.p (v - Binary.round F.p (i * V.LG102A)) := by
    rw [sub_eq_add_neg]
    exact agree_grid W _ _ (Is.fits hx) f1
  have b5 : |Binary.round F.p (v - Binary.round F.p (i * V.LG102A))| ≤ 1024 := by
    have := bounded RB 2048 (v - Binary.round F.p (i * V.LG102A)) (by norm_num) (by norm_num) (by refine (abs_sub _ _).trans ?_; push_cast; linarith)
    norm_num at this
    exact this
  have i5 := Is.sub W hx i3 (by rw [e5]; linarith)
  rw [e5] at i5
  have e6 : roundTo F (Binary.round F.p (v - Binary.round F.p (i * V.LG102A)) - Binary.round F.p (i * V.LG102B)) =
      Binary.round F.p (Binary.round F.p (v - Binary.round F.p (i * V.LG102A)) - Binary.round F.p (i * V.LG102B)) := by
    rw [sub_eq_add_neg (Binary.round F.p (v - Binary.round F.p (i * V.LG102A)))]
    exact agree_grid W _ _ (Is.fits i5) f2
  have b6 : |Binary.round F.p (Binary.round F.p (v - Binary.round F.p (i * V.LG102A)) - Binary.round F.p (i * V.LG102B))| ≤ 2048 := by
    have := bounded RB 4096 (Binary.round F.p (v - Binary.round F.p (i * V.LG102A)) - Binary.round F.p (i * V.LG102B)) (by norm_num) (by norm_num)
      (by refine (abs_sub _ _).trans ?_; push_cast; linarith)
    norm_num at this
    exact this
  have i6 := Is.sub W i5 i4 (by rw [e6]; linarith)
  rw [e6] at i6
  set y : Binary F.p := xb - (i : Binary F.p) * c.LG102A - (i : Binary F.p) * c.LG102B with ey
  have hy : y.val = Binary.round F.p (Binary.round F.p (v - Binary.round F.p (i * V.LG102A)) - Binary.round F.p (i * V.LG102B)) := by
    show Binary.round F.p (Binary.round F.p (v - Binary.round F.p ((i : Binary F.p).val * V.LG102A)) - Binary.round F.p ((i : Binary F.p).val * V.LG102B)) = _
    rw [hiv]
  rw [← hy] at i6
  have hy4 : |y.val| ≤ 1 / 4 := by
    have : |(y.val : ℝ)| ≤ 1 / 4 := hr'.trans (by norm_num)
    have h' : ((|y.val| : ℚ) : ℝ) ≤ ((1 / 4 : ℚ) : ℝ) := by push_cast; exact this
    exact Rat.cast_le.mp h'
  have ipq := is_pq W M S i6 hy4
  rw [pq_agree W S hy4] at ipq
  refine ⟨i, _, _, hiZ, ?_, ipq, ?_, ?_⟩
  · -- the integer
    obtain ⟨l1, l2⟩ := log_two_ten
    have hu' : (1 : ℝ) / 2 ^ F.p ≤ 0.000000953675 := hu.trans (by norm_num)
    have a3 : |(3.32192809488736234787e0 : ℝ) - Real.logb 2 10| ≤ 0.000001 := by rw [abs_le]; constructor <;> norm_num at l1 l2 ⊢ <;> linarith
    have hL' : |(c.LOG210.val : ℝ) - 3.32192809488736234787e0| ≤ 0.00001 := by
      refine hL.trans ?_
      rw [abs_of_pos (by norm_num : (0 : ℝ) < 3.32192809488736234787e0)]
      generalize (1 : ℝ) / 2 ^ F.p = u at hu'
      norm_num at hu' ⊢
      linarith
    have a4 : |(c.LOG210.val : ℝ) - Real.logb 2 10| ≤ 0.000011 := by
      rw [← sub_add_sub_cancel _ (3.32192809488736234787e0 : ℝ)]
      refine (abs_add_le _ _).trans ((add_le_add hL' a3).trans ?_)
      norm_num
    have a5 : |(c.LOG210.val : ℝ)| ≤ 3.33 := by
      have := abs_sub_abs_le_abs_sub (c.LOG210.val : ℝ) (Real.logb 2 10)
      rw [abs_of_pos (by linarith : 0 < Real.logb 2 10)] at this
      linarith
    have a1 : |(xb.val : ℝ) * (c.LOG210.val : ℝ)| ≤ 256.1 := by
      rw [abs_mul]
      calc |(xb.val : ℝ)| * |(c.LOG210.val : ℝ)| ≤ 76.9 * 3.33 := mul_le_mul hv a5 (abs_nonneg _) (by norm_num)
        _ ≤ _ := by norm_num
    have a2 : |((xb * c.LOG210).val : ℝ) - (xb.val : ℝ) * (c.LOG210.val : ℝ)| ≤ 0.001 := by
      refine hw.trans ?_
      calc (1 : ℝ) / 2 ^ F.p * |(xb.val : ℝ) * (c.LOG210.val : ℝ)| ≤ 0.000000953675 * 256.1 := mul_le_mul hu' a1 (abs_nonneg _) (by norm_num)
        _ ≤ _ := by norm_num
    have a6 : |(xb.val : ℝ) * (c.LOG210.val : ℝ) - v * Real.logb 2 10| ≤ 0.001 := by
      rw [show (xb.val : ℝ) * (c.LOG210.val : ℝ) - v * Real.logb 2 10 = v * ((c.LOG210.val : ℝ) - Real.logb 2 10) from by ring, abs_mul]
      calc |(v : ℝ)| * |(c.LOG210.val : ℝ) - Real.logb 2 10| ≤ 76.9 * 0.000011 := mul_le_mul hv a4 (abs_nonneg _) (by norm_num)
        _ ≤ _ := by norm_num
    have b1 := abs_sub_le (i : ℝ) ((xb * c.LOG210).val : ℝ) ((xb.val : ℝ) * (c.LOG210.val : ℝ))
    have b2 := abs_sub_le (i : ℝ) ((xb.val : ℝ) * (c.LOG210.val : ℝ)) (v * Real.logb 2 10)
    linarith
  · unfold exp10Ieee
    simp only [bind, Except.bind]
    rw [i2']
  · have hi32 : int32 i = .ok i := if_pos (by have := abs_lt.mp hiZ; omega)
    have hiA := abs_lt.mp hiZ
    obtain ⟨v1, hv1, herr⟩ := C78_exp10 F.p W.p hp' xb hv
    obtain ⟨v2, hv2, hval⟩ := C78_ldexp F.p (((1 : ℤ) : Binary F.p) + ((2 : ℤ) : Binary F.p) * (y * (y * y * (y * y * (y * y * c.P0 + c.P1) + c.P2) + c.P3)) /
      (y * y * (y * y * (y * y + c.Q0) + c.Q1) + c.Q2 - y * (y * y * (y * y * (y * y * c.P0 + c.P1) + c.P2) + c.P3))) i (by omega) (by omega)
    have e : exp10 (fun a => Binary.nearest a.val) c xb = .ok v2 := by
      unfold exp10
      simp only [bind, Except.bind]
      rw [← hi, hi32]
      exact hv2
    rw [e] at hv1
    cases hv1
    rw [binary_pq] at hval
    exact ⟨by rw [← show v1.val = pqE (Binary.round F.p) V y.val * 2 ^ i from hval]; exact herr, v1, hval⟩

end

theorem power_ten (v : ℝ) : (10 : ℝ) ^ v = 2 ^ (v * Real.logb 2 10) := by
  rw [mul_comm, Real.rpow_mul (by norm_num), Real.rpow_logb (by norm_num) (by norm_num) (by norm_num)]

/-- A power with an exponent a bit below `n`. -/
theorem power_below {T e : ℝ} {n : ℤ} (hT : T = 2 ^ e) (h : e ≤ n - 0.494) : T ≤ 0.8 * 2 ^ n := by
  have h0 : 0 < T := by rw [hT]; positivity
  have h3 : T ^ 3 ≤ (2 ^ n) ^ 3 / 2 := by
    have a1 : T ^ 3 = 2 ^ (e * 3) := by
      rw [hT, ← Real.rpow_natCast, ← Real.rpow_mul (by norm_num)]
      norm_num
    have a2 : ((2 : ℝ) ^ n) ^ 3 / 2 = 2 ^ ((n : ℝ) * 3 - 1) := by
      rw [Real.rpow_sub (by norm_num), Real.rpow_one, Real.rpow_mul (by norm_num), Real.rpow_intCast]
      norm_num
    rw [a1, a2]
    exact Real.rpow_le_rpow_of_exponent_le (by norm_num) (by norm_num at h; linarith)
  have hn : (0 : ℝ) < 2 ^ n := by positivity
  refine le_of_not_gt fun hc => ?_
  have := pow_lt_pow_left₀ hc (by positivity) (n := 3) (by norm_num)
  rw [mul_pow] at this
  have h4 : (0 : ℝ) < (2 ^ n) ^ 3 := by positivity
  norm_num at this
  linarith

end ExpIeee
end Elementary

open Elementary ExpIeee AtanIeee Binary Ieee

section
variable {F : Format} (W : Wide F)
include W

/-- `ldexp` scales a finite number by a power of two and rounds the product once, as long as the power itself is a number of the type. Above that everything but zero becomes
infinite and zero becomes NaN; below that everything becomes zero. -/
theorem C121_ldexp (x : Ieee F) (hx : x.Finite) (hv : x.Valid) (n : ℤ) (hn : |n| ≤ 255) :
    ∃ r, ldexp x n = .ok r ∧
      (|n| < F.emax → (|roundTo F (x.val * 2 ^ n)| < 2 ^ F.emax → r.Finite ∧ r.val = roundTo F (x.val * 2 ^ n)) ∧ (2 ^ F.emax ≤ |roundTo F (x.val * 2 ^ n)| → r = inf (decide (x.val < 0)))) ∧
      (F.emax ≤ n → (x.val = 0 → r = nan) ∧ (x.val ≠ 0 → r = inf (decide (x.val < 0)))) ∧ (n ≤ -F.emax → r.Finite ∧ r.val = 0) := by
  obtain ⟨s, m, rfl⟩ := (finite_iff x).mp hx
  have hm : 0 ≤ m := hv.1
  have hval : (num s m : Ieee F).val = signed s m := rfl
  have hpos := W.emax'
  have hp := W.p
  have he : |signed s m * 2 ^ n| = |m * 2 ^ n| := by rw [abs_mul, abs_mul, signed_abs]
  have hs : m ≠ 0 → s = decide (signed s m < 0) := by
    intro h
    have : 0 < m := lt_of_le_of_ne hm (Ne.symm h)
    cases s
    · rw [eq_comm, decide_eq_false_iff_not, not_lt]; exact hm
    · rw [eq_comm, decide_eq_true_eq]; show -m < 0; linarith
  refine ⟨_, ldexp_value W s m n hn, ?_, ?_, ?_⟩
  · intro h
    rw [if_pos h, hval, roundTo_abs W.pos, he, ← roundTo_abs W.pos]
    refine ⟨fun h1 => ?_, fun h1 => ?_⟩
    · have f := (pack_finite s (m * 2 ^ n)).mpr h1
      refine ⟨f, ?_⟩
      rw [pack_val W.pos _ _ f, abs_of_nonneg (by positivity)]
      congr 1
      cases s
      · rfl
      · show -(m * 2 ^ n) = -m * 2 ^ n
        ring
    · rw [pack_cases, if_pos h1]
      have : m ≠ 0 := by
        rintro rfl
        rw [zero_mul, roundTo_zero, abs_zero] at h1
        have : (0 : ℚ) < 2 ^ F.emax := by positivity
        linarith
      rw [← hs this]
  · intro h
    rw [if_neg (by rw [abs_of_nonneg (by omega)]; omega), if_neg (by omega), hval]
    have h0 : signed s m = 0 ↔ m = 0 := by cases s <;> simp [signed]
    refine ⟨fun h1 => if_pos (h0.mp h1), fun h1 => ?_⟩
    rw [if_neg (fun e => h1 (h0.mpr e)), ← hs (fun e => h1 (h0.mpr e))]
  · intro h
    rw [if_neg (by rw [abs_of_nonpos (by omega)]; omega), if_pos (by omega)]
    exact ⟨trivial, signed_zero s⟩

/-- The power of ten of every finite number within ±76.9. Unless the integer part of the exponent to the base two does not fit, it is the value of the type within the bound for numbers of
`p` bits, and half a step of the smallest numbers where the result is among them. Beyond it is infinite or zero, and that begins half a binary place too early. -/
theorem C121_exp10 [NeZero F.p] (hp' : F.p ≤ 53) (x : Ieee F) (fx : x.Finite) (vx : x.Valid) (hx : |(x.val : ℝ)| ≤ 76.9) :
    ∃ r, exp10Ieee (ExpConsts.ieee F) x = .ok r ∧
      (r.Finite ∧ r.Valid ∧ |(r.val : ℝ) - (10 : ℝ) ^ (x.val : ℝ)| ≤ (7.4 / 2 ^ F.p + 1.001 / 2 ^ 60) * (10 : ℝ) ^ (x.val : ℝ) + (if (2 : ℝ) ^ (F.emin + F.p) ≤ (10 : ℝ) ^ (x.val : ℝ) then 0 else 2 ^ F.emin / 2) ∨
        (r = inf false ∧ F.emax - 0.51 < x.val * Real.logb 2 10) ∨ (r = num false 0 ∧ x.val * Real.logb 2 10 < -(F.emax - 0.51))) ∧
      (F.emax - 0.49 ≤ x.val * Real.logb 2 10 → r = inf false) ∧ (x.val * Real.logb 2 10 ≤ -(F.emax - 0.49) → r = num false 0) := by
  obtain ⟨i, pq, m, hi, hi', ipq, e, err, b, hb⟩ := reduced W hp' (⟨fx, vx, rfl⟩ : Is x x.val) hx
  set v := x.val
  set T := (10 : ℝ) ^ (v : ℝ) with hT
  have hT0 : 0 < T := by positivity
  obtain ⟨hi1, hi2⟩ := abs_le.mp hi'
  have hd : (7.4 / 2 ^ F.p + 1.001 / 2 ^ 60 : ℝ) ≤ 0.001 := by
    have := Elementary.unit_le' F.p W.p
    rw [← mul_one_div]
    generalize (1 : ℝ) / 2 ^ F.p = u at this
    norm_num at this ⊢
    linarith
  have hd0 : (0 : ℝ) ≤ 7.4 / 2 ^ F.p + 1.001 / 2 ^ 60 := by positivity
  set δ : ℝ := 7.4 / 2 ^ F.p + 1.001 / 2 ^ 60 with hδ
  obtain ⟨er1, er2⟩ := abs_le.mp err
  have hδT : δ * T ≤ 0.001 * T := mul_le_mul_of_nonneg_right hd hT0.le
  have hwR : (0 : ℝ) < ((m * 2 ^ i : ℚ) : ℝ) := by norm_num at hδT; linarith
  have hw : 0 < m * 2 ^ i := by exact_mod_cast hwR
  have hm : 0 < m := by
    have : (0 : ℚ) < 2 ^ i := by positivity
    exact (mul_pos_iff_of_pos_right this).mp hw
  obtain ⟨fpq, vpq, epq⟩ := ipq
  obtain ⟨s, m', rfl⟩ := (finite_iff pq).mp fpq
  have hm' : 0 ≤ m' := vpq.1
  have hs : s = false := by
    cases s
    · rfl
    · exfalso
      have : -m' = m := epq
      linarith
  subst hs
  have epq' : m' = m := epq
  subst epq'
  have hn : |i| ≤ 255 := by omega
  have hpos := W.emax'
  have hp := W.p
  refine ⟨_, by rw [e]; exact ldexp_value W false m' i hn, ?_, ?_, ?_⟩
  · by_cases h : |i| < F.emax
    · left
      rw [if_pos h]
      have hlt := abs_lt.mp h
      have hiR : (i : ℝ) ≤ F.emax - 1 := by
        have : i ≤ F.emax - 1 := by omega
        exact_mod_cast this
      have hTb : T ≤ 0.8 * 2 ^ F.emax := power_below (by rw [hT, power_ten]) (by norm_num at hi1 ⊢; linarith)
      have hwb : m' * 2 ^ i ≤ 7 * 2 ^ (F.emax - 3) := by
        have : ((m' * 2 ^ i : ℚ) : ℝ) ≤ ((7 * 2 ^ (F.emax - 3) : ℚ) : ℝ) := by
          push_cast
          rw [zpow_sub₀ (by norm_num)]
          push_cast at er2
          have : (0 : ℝ) < 2 ^ F.emax := by positivity
          norm_num at hδT hTb ⊢
          linarith
        exact Rat.cast_le.mp this
      have hfit : Fits F (7 * 2 ^ (F.emax - 3)) := by
        have h8 : (2 : ℤ) ^ 20 ≤ 2 ^ F.p := pow_le_pow_right₀ (by norm_num) W.p
        refine ⟨⟨7, F.emax - 3, by norm_num at h8 ⊢; omega, by push_cast; rfl⟩, ?_⟩
        obtain ⟨k, hk⟩ : ∃ k : ℕ, F.emax - 3 = F.emin + k := by
          have := W.emin
          have := W.emax
          exact ⟨(F.emax - 3 - F.emin).toNat, by omega⟩
        refine ⟨7 * 2 ^ k, ?_⟩
        rw [hk, zpow_add₀ (by norm_num), zpow_natCast]
        push_cast
        ring
      have hr := roundTo_le W.pos _ _ hfit hwb
      have hr0 := roundTo_nonneg W.pos _ hw.le
      have hfin : (pack false (m' * 2 ^ i) : Ieee F).Finite := by
        rw [pack_finite, abs_of_nonneg hr0]
        refine lt_of_le_of_lt hr ?_
        rw [zpow_sub₀ (by norm_num)]
        have : (0 : ℚ) < 2 ^ F.emax := by positivity
        norm_num
        linarith
      refine ⟨hfin, pack_valid W.pos _ _, ?_⟩
      rw [pack_val W.pos _ _ hfin, abs_of_pos hw]
      show |((roundTo F (m' * 2 ^ i) : ℚ) : ℝ) - T| ≤ _
      have hstep : |((roundTo F (m' * 2 ^ i) : ℚ) : ℝ) - ((m' * 2 ^ i : ℚ) : ℝ)| ≤ if (2 : ℝ) ^ (F.emin + F.p) ≤ T then 0 else 2 ^ F.emin / 2 := by
        rcases le_or_gt ((2 : ℚ) ^ (F.emin + F.p - 1)) (m' * 2 ^ i) with h1 | h1
        · rw [roundTo_normal _ (by rwa [abs_of_pos hw]), Binary.round_of_representable F.p _ (hb ▸ b.representable), sub_self, abs_zero]
          split_ifs
          · exact le_rfl
          · positivity
        · have hnot : ¬ (2 : ℝ) ^ (F.emin + F.p) ≤ T := by
            intro h2
            have h1' := (Rat.cast_lt (K := ℝ)).mpr h1
            push_cast at h1'
            rw [zpow_sub_one₀ (by norm_num)] at h1'
            push_cast at er1
            norm_num at hδT h1'
            linarith
          rw [if_neg hnot]
          rw [roundTo_small _ (by
            rw [abs_of_pos hw]
            exact h1.trans_le (zpow_le_zpow_right₀ (by norm_num) (by omega)))]
          have hnn := Binary.nearest_near (m' * 2 ^ i / 2 ^ F.emin)
          have h2 : (0 : ℚ) < 2 ^ F.emin := by positivity
          have key : |(nearest (m' * 2 ^ i / 2 ^ F.emin) : ℚ) * 2 ^ F.emin - m' * 2 ^ i| ≤ 2 ^ F.emin / 2 := by
            have : (nearest (m' * 2 ^ i / 2 ^ F.emin) : ℚ) * 2 ^ F.emin - m' * 2 ^ i = ((nearest (m' * 2 ^ i / 2 ^ F.emin) : ℚ) - m' * 2 ^ i / 2 ^ F.emin) * 2 ^ F.emin := by
              field_simp
            rw [this, abs_mul, abs_of_pos h2]
            calc _ ≤ (1 : ℚ) / 2 * 2 ^ F.emin := mul_le_mul_of_nonneg_right hnn h2.le
              _ = _ := by ring
          have := (Rat.cast_le (K := ℝ)).mpr key
          push_cast at this ⊢
          exact this
      have := abs_sub_le ((roundTo F (m' * 2 ^ i) : ℚ) : ℝ) ((m' * 2 ^ i : ℚ) : ℝ) T
      linarith
    · right
      rw [if_neg h]
      rw [not_lt, le_abs] at h
      rcases h with h | h
      · left
        rw [if_neg (by omega), if_neg hm.ne']
        refine ⟨rfl, ?_⟩
        have : (F.emax : ℝ) ≤ i := by exact_mod_cast h
        norm_num at hi2 ⊢
        linarith
      · right
        rw [if_pos (by omega)]
        refine ⟨rfl, ?_⟩
        have : (F.emax : ℝ) ≤ -i := by exact_mod_cast h
        norm_num at hi1 ⊢
        linarith
  · intro h
    have : (F.emax : ℝ) - 1 < i := by norm_num at h hi1; linarith
    have hi3 : F.emax - 1 < i := by exact_mod_cast this
    rw [if_neg (by rw [abs_of_nonneg (by omega)]; omega), if_neg (by omega), if_neg hm.ne']
  · intro h
    have : (i : ℝ) < -F.emax + 1 := by norm_num at h hi2; linarith
    have hi3 : i < -F.emax + 1 := by exact_mod_cast this
    rw [if_neg (by rw [abs_of_nonpos (by omega)]; omega), if_pos (by omega)]

/-- Infinities and NaN have no nearest integer: converting it to `int` is undefined. -/
theorem C121_exp10_special [NeZero F.p] (hp' : F.p ≤ 53) : (∀ s, exp10Ieee (ExpConsts.ieee F) (inf s) = .error .overflow) ∧ exp10Ieee (ExpConsts.ieee F) nan = .error .overflow := by
  refine ⟨fun s => ?_, rfl⟩
  obtain ⟨f, v, e⟩ := (matchE W hp').LOG210
  have S := (sizesE F.p W.p hp').LOG210
  obtain ⟨t, m, hm⟩ := (finite_iff _).mp f
  have h0 : m ≠ 0 := by
    rintro rfl
    rw [hm] at e
    have : signed t 0 = (valuesE F.p).LOG210 := e
    rw [signed_zero] at this
    rw [← this] at S
    norm_num at S
  have h1 : (inf s * (ExpConsts.ieee F).LOG210 : Ieee F) = inf (s ^^ t) := by
    rw [hm]
    show (if m = 0 then nan else inf (s ^^ t)) = _
    rw [if_neg h0]
  unfold exp10Ieee
  simp only [bind, Except.bind]
  rw [h1]
  rfl

end

theorem Elementary.ExpIeee.valid_eighth (s : Bool) (n : ℕ) (hn : n < 2 ^ 24) : (num s (n / 8) : Ieee Format.single).Valid := by
  have hq : (n : ℚ) < 2 ^ 24 := by exact_mod_cast hn
  refine ⟨by positivity, ?_, n, -3, hn, by decide, by norm_num; ring⟩
  have : (2 : ℚ) ^ (24 : ℤ) ≤ 2 ^ Format.single.emax := zpow_le_zpow_right₀ (by norm_num) (by decide)
  have h0 : (0 : ℚ) ≤ n := by positivity
  norm_num at this
  have h1 : (n : ℚ) < 16777216 := by linarith
  linarith

/-- In single precision the power of 38.5 is infinite although it is less than the largest number, and the power of -40 is zero although it is more than 65000 times the smallest number. -/
theorem C121_lost : (exp10Ieee (ExpConsts.ieee Format.single) (num false 38.5) = .ok (inf false) ∧ (10 : ℝ) ^ (38.5 : ℝ) < 2 ^ 128 - 2 ^ 104) ∧
    exp10Ieee (ExpConsts.ieee Format.single) (num true 40) = .ok (num false 0) ∧ 65000 * (1 / 2 ^ 149) < (10 : ℝ) ^ (-40 : ℝ) := by
  obtain ⟨l1, l2⟩ := log_two_ten
  have e1 : (num false 38.5 : Ieee Format.single).val = 38.5 := rfl
  have e2 : (num true 40 : Ieee Format.single).val = -40 := rfl
  have v1 : (num false 38.5 : Ieee Format.single).Valid := by
    have := valid_eighth false 308 (by norm_num)
    norm_num at this ⊢
    exact this
  have v2 : (num true 40 : Ieee Format.single).Valid := by
    have := valid_eighth true 320 (by norm_num)
    norm_num at this ⊢
    exact this
  have em : ((Format.single.emax : ℤ) : ℝ) = 128 := by norm_num [Format.single]
  refine ⟨⟨?_, ?_⟩, ?_, ?_⟩
  · obtain ⟨r, h, -, h1, -⟩ := C121_exp10 wide_single (by decide) (num false 38.5 : Ieee Format.single) trivial v1 (by rw [e1]; norm_num)
    rw [h, h1 (by rw [e1, em]; push_cast; norm_num at l1 ⊢; linarith)]
  · have h0 : (0 : ℝ) ≤ 10 ^ (38.5 : ℝ) := by positivity
    have h2 : ((10 : ℝ) ^ (38.5 : ℝ)) ^ 2 = 10 ^ 77 := by
      rw [← Real.rpow_natCast, ← Real.rpow_mul (by norm_num), ← Real.rpow_natCast]
      norm_num
    refine lt_of_pow_lt_pow_left₀ 2 (by norm_num) ?_
    rw [h2]
    norm_num
  · obtain ⟨r, h, -, -, h1⟩ := C121_exp10 wide_single (by decide) (num true 40 : Ieee Format.single) trivial v2 (by rw [e2]; norm_num)
    rw [h, h1 (by rw [e2, em]; push_cast; norm_num at l1 ⊢; linarith)]
  · rw [Real.rpow_neg (by norm_num), show (40 : ℝ) = ((40 : ℕ) : ℝ) by norm_num, Real.rpow_natCast]
    norm_num

/-- Minus one half, well within the range. -/
example : ∃ r, exp10Ieee (ExpConsts.ieee Format.single) (num true 0.5) = .ok r ∧ r.Finite ∧ |(r.val : ℝ) - (10 : ℝ) ^ (-0.5 : ℝ)| ≤ (7.4 / 2 ^ 24 + 1.001 / 2 ^ 60) * (10 : ℝ) ^ (-0.5 : ℝ) + 1 / 2 ^ 150 := by
  obtain ⟨l1, l2⟩ := log_two_ten
  have e1 : (num true 0.5 : Ieee Format.single).val = -0.5 := rfl
  have v1 : (num true 0.5 : Ieee Format.single).Valid := by
    have := valid_eighth true 4 (by norm_num)
    norm_num at this ⊢
    exact this
  have em : ((Format.single.emax : ℤ) : ℝ) = 128 := by norm_num [Format.single]
  obtain ⟨r, h, h', -, -⟩ := C121_exp10 wide_single (by decide) (num true 0.5 : Ieee Format.single) trivial v1 (by rw [e1]; norm_num)
  refine ⟨r, h, ?_⟩
  rcases h' with ⟨f, -, h'⟩ | ⟨-, h'⟩ | ⟨-, h'⟩
  · refine ⟨f, ?_⟩
    rw [e1] at h'
    push_cast at h'
    refine h'.trans (add_le_add le_rfl ?_)
    split_ifs
    · positivity
    · norm_num [Format.single]
  · rw [e1, em] at h'
    push_cast at h'
    norm_num at h' l1
    linarith
  · rw [e1, em] at h'
    push_cast at h'
    norm_num at h' l1 l2
    linarith

/-- Three times a power of two that is no number of the type, and zero times another one. -/
example : (∃ r, ldexp (num false 3 : Ieee Format.single) 128 = .ok r ∧ r = inf false) ∧ ∃ r, ldexp (num true 0 : Ieee Format.single) 200 = .ok r ∧ r = nan := by
  have v3 : (num false 3 : Ieee Format.single).Valid := by
    have := valid_eighth false 24 (by norm_num)
    norm_num at this ⊢
    exact this
  have v0 : (num true 0 : Ieee Format.single).Valid := by
    have := valid_eighth true 0 (by norm_num)
    norm_num at this ⊢
    exact this
  obtain ⟨r, h, -, h1, -⟩ := C121_ldexp wide_single (num false 3 : Ieee Format.single) trivial v3 128 (by norm_num)
  obtain ⟨r', h', -, h1', -⟩ := C121_ldexp wide_single (num true 0 : Ieee Format.single) trivial v0 200 (by norm_num)
  refine ⟨⟨r, h, ?_⟩, r', h', (h1' (by decide)).1 (by decide +kernel)⟩
  rw [(h1 (by decide)).2 (by decide +kernel)]
  rfl

example : exp10Ieee (ExpConsts.ieee Format.single) (inf true) = .error .overflow := (C121_exp10_special wide_single (by decide)).1 true

end DSP
