import Verif.Model.AtanIeee
import Verif.Props.AtanError
import Verif.Props.Silence
import Verif.Lemmas.BinaryBounds
import Verif.Lemmas.BinaryMono
import Verif.Lemmas.BinaryUnits

/-!
# C120: atan and atan2 with all special values
-/

namespace DSP
open Spec

namespace Elementary
namespace AtanIeee
open Binary Ieee

/-! ### The functions with an arbitrary rounding -/

/-- What is needed of a rounding. -/
structure Rounding (p : ℕ) (ρ : ℚ → ℚ) : Prop where
  mono : ∀ x y, x ≤ y → ρ x ≤ ρ y
  half : ∀ n : ℤ, |n| ≤ 8192 → ρ (n / 2) = n / 2
  zero : ∀ v, |ρ v - v| ≤ |v|
  rep : ∀ v, Representable p (ρ v)

theorem Rounding.int {p : ℕ} {ρ : ℚ → ℚ} (h : Rounding p ρ) (n : ℤ) (hn : |n| ≤ 4096) : ρ n = n := by
  have := h.half (2 * n) (by rw [abs_mul, abs_of_pos (by norm_num : (0 : ℤ) < 2)]; omega)
  push_cast at this
  rwa [show (2 : ℚ) * n / 2 = n by ring] at this

theorem Rounding.at_zero {p : ℕ} {ρ : ℚ → ℚ} (h : Rounding p ρ) : ρ 0 = 0 := by
  have := h.int 0 (by norm_num)
  exact_mod_cast this

theorem Rounding.double {p : ℕ} {ρ : ℚ → ℚ} (h : Rounding p ρ) (v : ℚ) : |ρ v| ≤ 2 * |v| := by
  have h1 := h.zero v
  have h2 := abs_sub_abs_le_abs_sub (ρ v) v
  linarith

theorem Rounding.between {p : ℕ} {ρ : ℚ → ℚ} (h : Rounding p ρ) (a b : ℤ) (ha : |a| ≤ 8192) (hb : |b| ≤ 8192) {v : ℚ} (h1 : (a : ℚ) / 2 ≤ v) (h2 : v ≤ b / 2) : (a : ℚ) / 2 ≤ ρ v ∧ ρ v ≤ b / 2 :=
  ⟨by rw [← h.half a ha]; exact h.mono _ _ h1, by rw [← h.half b hb]; exact h.mono _ _ h2⟩

/-- One step of Horner's scheme. -/
def horner (ρ : ℚ → ℚ) (xx v c : ℚ) : ℚ := ρ (ρ (xx * v) + c)

def numer (ρ : ℚ → ℚ) (c : AtanConsts ℚ) (xx : ℚ) : ℚ := horner ρ xx (horner ρ xx (horner ρ xx (horner ρ xx c.P0 c.P1) c.P2) c.P3) c.P4

def denom (ρ : ℚ → ℚ) (c : AtanConsts ℚ) (xx : ℚ) : ℚ := horner ρ xx (horner ρ xx (horner ρ xx (horner ρ xx (ρ (xx + c.Q0)) c.Q1) c.Q2) c.Q3) c.Q4

def fracQ (ρ : ℚ → ℚ) (c : AtanConsts ℚ) (x : ℚ) : ℚ := ρ (ρ (ρ (x * ρ (x * x)) * numer ρ c (ρ (x * x))) / denom ρ c (ρ (x * x)))

def kernelQ (ρ : ℚ → ℚ) (c : AtanConsts ℚ) (x : ℚ) : ℚ := ρ (x + fracQ ρ c x)

def approxQ (ρ : ℚ → ℚ) (c : AtanConsts ℚ) (x : ℚ) : ℚ :=
  if x ≤ c.low then kernelQ ρ c x
  else if c.high < x then ρ (ρ (c.halfPi + c.morebits) - kernelQ ρ c (ρ (ρ ((1 : ℤ) : ℚ) / x)))
  else ρ (ρ (c.fourthPi + ρ (c.half * c.morebits)) + kernelQ ρ c (ρ (ρ (x - ρ ((1 : ℤ) : ℚ)) / ρ (x + ρ ((1 : ℤ) : ℚ)))))

def atanQ (ρ : ℚ → ℚ) (c : AtanConsts ℚ) (x : ℚ) : ℚ := if 0 ≤ x then approxQ ρ c x else -approxQ ρ c (-x)

/-- The sizes of the constants. -/
structure Sizes (c : AtanConsts ℚ) : Prop where
  P0 : -1 ≤ c.P0 ∧ c.P0 ≤ -1 / 2
  P1 : -17 ≤ c.P1 ∧ c.P1 ≤ -16
  P2 : -76 ≤ c.P2 ∧ c.P2 ≤ -75
  P3 : -123 ≤ c.P3 ∧ c.P3 ≤ -122
  P4 : -65 ≤ c.P4 ∧ c.P4 ≤ -64
  Q0 : 24 ≤ c.Q0 ∧ c.Q0 ≤ 25
  Q1 : 165 ≤ c.Q1 ∧ c.Q1 ≤ 166
  Q2 : 432 ≤ c.Q2 ∧ c.Q2 ≤ 433
  Q3 : 485 ≤ c.Q3 ∧ c.Q3 ≤ 486
  Q4 : 194 ≤ c.Q4 ∧ c.Q4 ≤ 195
  morebits : 1 / 2 ^ 55 ≤ c.morebits ∧ c.morebits ≤ 1 / 2 ^ 53
  low : 1 / 2 ≤ c.low ∧ c.low ≤ 1
  high : 2 ≤ c.high ∧ c.high ≤ 5 / 2
  half : 1 / 4 ≤ c.half ∧ c.half ≤ 1
  pi : 3 ≤ c.pi ∧ c.pi ≤ 4
  halfPi : 3 / 2 ≤ c.halfPi ∧ c.halfPi ≤ 2
  fourthPi : 1 / 2 ≤ c.fourthPi ∧ c.fourthPi ≤ 1

section
variable {p : ℕ} {ρ : ℚ → ℚ} (h : Rounding p ρ)
include h

theorem horner_neg {xx v c : ℚ} (M K k : ℤ) (hM : 0 ≤ M) (hk : 0 ≤ k) (hkK : k ≤ K) (hb : M + K ≤ 4096) (x0 : 0 ≤ xx) (x1 : xx ≤ 1) (v0 : -(M : ℚ) ≤ v) (v1 : v ≤ 0) (c0 : -(K : ℚ) ≤ c) (c1 : c ≤ -(k : ℚ)) :
    (-(M : ℚ) ≤ ρ (xx * v) ∧ ρ (xx * v) ≤ 0) ∧ -((M + K : ℤ) : ℚ) ≤ horner ρ xx v c ∧ horner ρ xx v c ≤ -(k : ℚ) := by
  have m := h.between (-2 * M) 0 (by rw [abs_le]; constructor <;> omega) (by norm_num) (v := xx * v) (by push_cast; nlinarith) (by push_cast; nlinarith)
  have m' : -(M : ℚ) ≤ ρ (xx * v) ∧ ρ (xx * v) ≤ 0 := by
    push_cast at m
    constructor <;> linarith [m.1, m.2]
  have s := h.between (-2 * (M + K)) (-2 * k) (by rw [abs_le]; constructor <;> omega) (by rw [abs_le]; constructor <;> omega) (v := ρ (xx * v) + c) (by push_cast; linarith [m'.1])
    (by push_cast; linarith [m'.2])
  refine ⟨m', ?_⟩
  unfold horner
  push_cast at s ⊢
  constructor <;> linarith [s.1, s.2]

theorem horner_pos {xx v c : ℚ} (M K k : ℤ) (hM : 0 ≤ M) (hk : 0 ≤ k) (hkK : k ≤ K) (hb : M + K ≤ 4096) (x0 : 0 ≤ xx) (x1 : xx ≤ 1) (v0 : 0 ≤ v) (v1 : v ≤ M) (c0 : (k : ℚ) ≤ c) (c1 : c ≤ K) :
    (0 ≤ ρ (xx * v) ∧ ρ (xx * v) ≤ M) ∧ (k : ℚ) ≤ horner ρ xx v c ∧ horner ρ xx v c ≤ ((M + K : ℤ) : ℚ) := by
  have m := h.between 0 (2 * M) (by norm_num) (by rw [abs_le]; constructor <;> omega) (v := xx * v) (by push_cast; rw [zero_div]; exact mul_nonneg x0 v0) (by push_cast; nlinarith)
  have m' : 0 ≤ ρ (xx * v) ∧ ρ (xx * v) ≤ M := by
    push_cast at m
    constructor <;> linarith [m.1, m.2]
  have s := h.between (2 * k) (2 * (M + K)) (by rw [abs_le]; constructor <;> omega) (by rw [abs_le]; constructor <;> omega) (v := ρ (xx * v) + c) (by push_cast; linarith [m'.1])
    (by push_cast; linarith [m'.2])
  refine ⟨m', ?_⟩
  unfold horner
  push_cast at s ⊢
  constructor <;> linarith [s.1, s.2]

variable {c : AtanConsts ℚ} (hc : Sizes c)
include hc

theorem numer_steps {xx : ℚ} (x0 : 0 ≤ xx) (x1 : xx ≤ 1) :
    ((-1 ≤ ρ (xx * c.P0) ∧ ρ (xx * c.P0) ≤ 0) ∧ -18 ≤ horner ρ xx c.P0 c.P1 ∧ horner ρ xx c.P0 c.P1 ≤ -16) ∧
      ((-18 ≤ ρ (xx * horner ρ xx c.P0 c.P1) ∧ ρ (xx * horner ρ xx c.P0 c.P1) ≤ 0) ∧
        -94 ≤ horner ρ xx (horner ρ xx c.P0 c.P1) c.P2 ∧ horner ρ xx (horner ρ xx c.P0 c.P1) c.P2 ≤ -75) ∧
      ((-94 ≤ ρ (xx * horner ρ xx (horner ρ xx c.P0 c.P1) c.P2) ∧ ρ (xx * horner ρ xx (horner ρ xx c.P0 c.P1) c.P2) ≤ 0) ∧
        -217 ≤ horner ρ xx (horner ρ xx (horner ρ xx c.P0 c.P1) c.P2) c.P3 ∧ horner ρ xx (horner ρ xx (horner ρ xx c.P0 c.P1) c.P2) c.P3 ≤ -122) ∧
      ((-217 ≤ ρ (xx * horner ρ xx (horner ρ xx (horner ρ xx c.P0 c.P1) c.P2) c.P3) ∧ ρ (xx * horner ρ xx (horner ρ xx (horner ρ xx c.P0 c.P1) c.P2) c.P3) ≤ 0) ∧
        -282 ≤ numer ρ c xx ∧ numer ρ c xx ≤ -64) := by
  have a1 := horner_neg h 1 17 16 (by norm_num) (by norm_num) (by norm_num) (by norm_num) x0 x1 (by push_cast; exact hc.P0.1) (by linarith [hc.P0.2]) (by push_cast; exact hc.P1.1) (by push_cast; exact hc.P1.2)
  norm_num at a1
  have a2 := horner_neg h 18 76 75 (by norm_num) (by norm_num) (by norm_num) (by norm_num) x0 x1 (by push_cast; exact a1.2.1) (by linarith [a1.2.2]) (by push_cast; exact hc.P2.1) (by push_cast; exact hc.P2.2)
  norm_num at a2
  have a3 := horner_neg h 94 123 122 (by norm_num) (by norm_num) (by norm_num) (by norm_num) x0 x1 (by push_cast; exact a2.2.1) (by linarith [a2.2.2]) (by push_cast; exact hc.P3.1) (by push_cast; exact hc.P3.2)
  norm_num at a3
  have a4 := horner_neg h 217 65 64 (by norm_num) (by norm_num) (by norm_num) (by norm_num) x0 x1 (by push_cast; exact a3.2.1) (by linarith [a3.2.2]) (by push_cast; exact hc.P4.1) (by push_cast; exact hc.P4.2)
  norm_num at a4
  exact ⟨a1, a2, a3, a4⟩

theorem denom_steps {xx : ℚ} (x0 : 0 ≤ xx) (x1 : xx ≤ 1) :
    (24 ≤ ρ (xx + c.Q0) ∧ ρ (xx + c.Q0) ≤ 26) ∧
      ((0 ≤ ρ (xx * ρ (xx + c.Q0)) ∧ ρ (xx * ρ (xx + c.Q0)) ≤ 26) ∧ 165 ≤ horner ρ xx (ρ (xx + c.Q0)) c.Q1 ∧ horner ρ xx (ρ (xx + c.Q0)) c.Q1 ≤ 192) ∧
      ((0 ≤ ρ (xx * horner ρ xx (ρ (xx + c.Q0)) c.Q1) ∧ ρ (xx * horner ρ xx (ρ (xx + c.Q0)) c.Q1) ≤ 192) ∧
        432 ≤ horner ρ xx (horner ρ xx (ρ (xx + c.Q0)) c.Q1) c.Q2 ∧ horner ρ xx (horner ρ xx (ρ (xx + c.Q0)) c.Q1) c.Q2 ≤ 625) ∧
      ((0 ≤ ρ (xx * horner ρ xx (horner ρ xx (ρ (xx + c.Q0)) c.Q1) c.Q2) ∧ ρ (xx * horner ρ xx (horner ρ xx (ρ (xx + c.Q0)) c.Q1) c.Q2) ≤ 625) ∧
        485 ≤ horner ρ xx (horner ρ xx (horner ρ xx (ρ (xx + c.Q0)) c.Q1) c.Q2) c.Q3 ∧ horner ρ xx (horner ρ xx (horner ρ xx (ρ (xx + c.Q0)) c.Q1) c.Q2) c.Q3 ≤ 1111) ∧
      ((0 ≤ ρ (xx * horner ρ xx (horner ρ xx (horner ρ xx (ρ (xx + c.Q0)) c.Q1) c.Q2) c.Q3) ∧
          ρ (xx * horner ρ xx (horner ρ xx (horner ρ xx (ρ (xx + c.Q0)) c.Q1) c.Q2) c.Q3) ≤ 1111) ∧
        194 ≤ denom ρ c xx ∧ denom ρ c xx ≤ 1306) := by
  have a0 := h.between 48 52 (by norm_num) (by norm_num) (v := xx + c.Q0) (by push_cast; linarith [hc.Q0.1]) (by push_cast; linarith [hc.Q0.2])
  norm_num at a0
  have a1 := horner_pos h 26 166 165 (by norm_num) (by norm_num) (by norm_num) (by norm_num) x0 x1 (by linarith [a0.1]) (by push_cast; exact a0.2) (by push_cast; exact hc.Q1.1) (by push_cast; exact hc.Q1.2)
  norm_num at a1
  have a2 := horner_pos h 192 433 432 (by norm_num) (by norm_num) (by norm_num) (by norm_num) x0 x1 (by linarith [a1.2.1]) (by push_cast; exact a1.2.2) (by push_cast; exact hc.Q2.1) (by push_cast; exact hc.Q2.2)
  norm_num at a2
  have a3 := horner_pos h 625 486 485 (by norm_num) (by norm_num) (by norm_num) (by norm_num) x0 x1 (by linarith [a2.2.1]) (by push_cast; exact a2.2.2) (by push_cast; exact hc.Q3.1) (by push_cast; exact hc.Q3.2)
  norm_num at a3
  have a4 := horner_pos h 1111 195 194 (by norm_num) (by norm_num) (by norm_num) (by norm_num) x0 x1 (by linarith [a3.2.1]) (by push_cast; exact a3.2.2) (by push_cast; exact hc.Q4.1) (by push_cast; exact hc.Q4.2)
  norm_num at a4
  exact ⟨a0, a1, a2, a3, a4⟩

omit hc in
theorem square {x : ℚ} (hx : |x| ≤ 1) : 0 ≤ ρ (x * x) ∧ ρ (x * x) ≤ 1 := by
  have := h.between 0 2 (by norm_num) (by norm_num) (v := x * x) (by push_cast; rw [zero_div]; exact mul_self_nonneg x)
    (by rw [← abs_mul_abs_self]; push_cast; nlinarith [abs_nonneg x])
  norm_num at this
  exact this

/-- The sizes within the fraction. -/
theorem frac_size {x : ℚ} (hx : |x| ≤ 1) :
    |ρ (x * ρ (x * x))| ≤ 1 ∧ |ρ (ρ (x * ρ (x * x)) * numer ρ c (ρ (x * x)))| ≤ 282 ∧ |fracQ ρ c x| ≤ 2 ∧ |fracQ ρ c x| ≤ 12 * |x| * ρ (x * x) := by
  obtain ⟨s0, s1⟩ := square h hx
  obtain ⟨n0, n1⟩ := (numer_steps h hc s0 s1).2.2.2.2
  obtain ⟨d0, d1⟩ := (denom_steps h hc s0 s1).2.2.2.2.2
  unfold fracQ
  set xx := ρ (x * x)
  set N := numer ρ c xx
  set D := denom ρ c xx
  have one : ∀ (n : ℤ) (v : ℚ), 0 ≤ n → n ≤ 4096 → |v| ≤ n → |ρ v| ≤ n := by
    intro n v h0 h1 hv
    have hv := abs_le.mp hv
    have := h.between (-2 * n) (2 * n) (by rw [abs_le]; constructor <;> omega) (by rw [abs_le]; constructor <;> omega) (v := v) (by push_cast; linarith [hv.1]) (by push_cast; linarith [hv.2])
    push_cast at this
    rw [abs_le]
    constructor <;> linarith [this.1, this.2]
  have hN : |N| ≤ 282 := by rw [abs_le]; constructor <;> linarith
  have t1 : |ρ (x * xx)| ≤ 1 := by
    have := one 1 (x * xx) (by norm_num) (by norm_num) (by rw [abs_mul, abs_of_nonneg s0]; push_cast; nlinarith [abs_nonneg x])
    exact_mod_cast this
  have t2 : |ρ (ρ (x * xx) * N)| ≤ 282 := by
    have := one 282 (ρ (x * xx) * N) (by norm_num) (by norm_num) (by rw [abs_mul]; push_cast; nlinarith [abs_nonneg N, abs_nonneg (ρ (x * xx))])
    exact_mod_cast this
  have hD : (0 : ℚ) < D := by linarith
  refine ⟨t1, t2, ?_, ?_⟩
  · have := one 2 (ρ (ρ (x * xx) * N) / D) (by norm_num) (by norm_num) (by
      rw [abs_div, abs_of_pos hD, div_le_iff₀ hD]
      push_cast
      linarith)
    exact_mod_cast this
  · have k1 := h.double (x * xx)
    rw [abs_mul, abs_of_nonneg s0] at k1
    have k2 := h.double (ρ (x * xx) * N)
    rw [abs_mul] at k2
    have k3 := h.double (ρ (ρ (x * xx) * N) / D)
    rw [abs_div, abs_of_pos hD] at k3
    have k4 : |ρ (x * xx)| * |N| ≤ 2 * (|x| * xx) * 282 := mul_le_mul k1 hN (abs_nonneg _) (by positivity)
    have k5 : |ρ (ρ (x * xx) * N)| / D ≤ (2 * (2 * (|x| * xx) * 282)) / 194 := by
      apply div_le_div₀ (by positivity) (by linarith) (by norm_num) d0
    have : 0 ≤ |x| * xx := by positivity
    linarith

/-- Small numbers are left as they are. -/
theorem kernel_small (hp : 6 ≤ p) (near : ∀ v y, Representable p y → (∃ w, y = ρ w) → |ρ v - v| ≤ |y - v|) {x : ℚ} (hx : |x| ≤ 1 / 2 ^ p) (hr : Representable p x) (hρ : ∃ w, x = ρ w) : kernelQ ρ c x = x := by
  have h64 : (64 : ℚ) ≤ 2 ^ p := by
    calc (64 : ℚ) = 2 ^ 6 := by norm_num
      _ ≤ 2 ^ p := pow_le_pow_right₀ (by norm_num) hp
  have hx1 : |x| ≤ 1 := hx.trans (by rw [div_le_one (by positivity)]; linarith)
  obtain ⟨-, -, -, hf⟩ := frac_size h hc hx1
  by_cases h0 : x = 0
  · subst h0
    rw [abs_zero, mul_zero, zero_mul] at hf
    unfold kernelQ
    rw [abs_nonpos_iff.mp hf, add_zero, h.at_zero]
  have hpos : 0 < |x| := abs_pos.mpr h0
  unfold kernelQ
  set f := fracQ ρ c x
  have k1 := near (x + f) x hr hρ
  rw [show x - (x + f) = -f by ring, abs_neg] at k1
  have k2 := h.double (x * x)
  rw [abs_mul, abs_of_nonneg (square h hx1).1] at k2
  have k3 : |x| * |x| ≤ |x| * (1 / 2 ^ p) := by gcongr
  have k4 : |f| ≤ 24 * |x| * (|x| * (1 / 2 ^ p)) := by
    refine hf.trans ?_
    have : 12 * |x| * ρ (x * x) ≤ 12 * |x| * (2 * (|x| * (1 / 2 ^ p))) := by gcongr; linarith
    linarith
  have k5 : 24 * |x| * (|x| * (1 / 2 ^ p)) ≤ 24 * (1 / 64) * (|x| * (1 / 2 ^ p)) := by
    have : |x| ≤ 1 / 64 := hx.trans (by gcongr)
    gcongr
  symm
  apply representable_gap p (by omega) _ _ hr (h.rep _)
  have k6 := abs_sub_le (ρ (x + f)) (x + f) x
  rw [add_sub_cancel_left] at k6
  rw [abs_sub_comm, div_eq_mul_one_div]
  have : 0 < |x| * (1 / 2 ^ p) := by positivity
  linarith

omit hc in
/-- Nothing is left of small numbers beside large ones. -/
theorem absorb (hp : 0 < p) (near : ∀ v y, Representable p y → (∃ w, y = ρ w) → |ρ v - v| ≤ |y - v|) {w q : ℚ} (hS : 1 ≤ ρ w) (hq : |q| ≤ 1 / 2 ^ p / 4) : ρ (ρ w - q) = ρ w := by
  symm
  apply representable_gap p hp _ _ (h.rep _) (h.rep _)
  have k1 := near (ρ w - q) (ρ w) (h.rep _) ⟨w, rfl⟩
  rw [sub_sub_cancel] at k1
  have k2 := abs_sub_le (ρ (ρ w - q)) (ρ w - q) (ρ w)
  rw [show ρ w - q - ρ w = -q by ring, abs_neg] at k2
  rw [abs_sub_comm, abs_of_pos (by linarith : 0 < ρ w), div_eq_mul_one_div]
  have : (0 : ℚ) < 1 / 2 ^ p := by positivity
  nlinarith
end

/-! ### Both roundings agree -/

/-- The formats with enough room below one; `float` and `double` are among them. -/
structure Wide (F : Format) : Prop where
  p : 20 ≤ F.p
  emin : F.emin + 4 * F.p + 6 ≤ 0
  emax : F.p + 3 ≤ F.emax

theorem wide_single : Wide Format.single := ⟨by decide, by decide, by decide⟩
theorem wide_double : Wide Format.double := ⟨by decide, by decide, by decide⟩

section
variable {F : Format} (W : Wide F)
include W

theorem Wide.emax_big : (F.p : ℤ) + 3 ≤ F.emax := W.emax

theorem Wide.emax' : (F.p : ℤ) ≤ F.emax := by have := W.emax; omega

theorem Wide.pos : 0 < F.p := by have := W.p; omega

theorem Wide.big : (1048576 : ℚ) ≤ 2 ^ F.p := by
  calc (1048576 : ℚ) = 2 ^ 20 := by norm_num
    _ ≤ 2 ^ F.p := pow_le_pow_right₀ (by norm_num) W.p

theorem half_representable (n : ℤ) (hn : |n| ≤ 8192) : Fits F ((n : ℚ) / 2) := by
  have h1 := W.p
  have h2 := W.emin
  have e : (n : ℚ) / 2 = n * 2 ^ (-1 : ℤ) := by rw [zpow_neg_one]; ring
  refine ⟨⟨n, -1, ?_, e⟩, multiple_down _ (-1) _ (by omega) ⟨n, e⟩⟩
  have : (2 : ℤ) ^ 20 ≤ 2 ^ F.p := pow_le_pow_right₀ (by norm_num) h1
  norm_num at this
  omega

theorem fits_zero : Fits F 0 := by
  have := half_representable W 0 (by norm_num)
  simpa using this

theorem rounding_binary : Rounding F.p (round F.p) where
  mono := round_mono F.p W.pos
  half n hn := round_of_representable _ _ (half_representable W n hn).1
  zero v := by
    refine (round_error F.p v).trans ?_
    rw [div_le_iff₀ (by positivity)]
    have := W.big
    nlinarith [abs_nonneg v]
  rep v := round_representable _ W.pos v

theorem rounding_ieee : Rounding F.p (roundTo F) where
  mono := roundTo_mono W.pos
  half n hn := roundTo_of_fits W.pos _ (half_representable W n hn)
  zero v := by
    have := roundTo_nearest W.pos v 0 (fits_zero W)
    rwa [zero_sub, abs_neg] at this
  rep v := (roundTo_fits W.pos v).1

theorem near_binary (v y : ℚ) (hy : Representable F.p y) (_ : ∃ w, y = round F.p w) : |round F.p v - v| ≤ |y - v| := round_nearest F.p W.pos v y hy

theorem near_ieee (v y : ℚ) (_ : Representable F.p y) (hy : ∃ w, y = roundTo F w) : |roundTo F v - v| ≤ |y - v| := by
  obtain ⟨w, rfl⟩ := hy
  exact roundTo_nearest W.pos v _ (roundTo_fits W.pos w)

/-- The roundings agree unless the result is tiny. -/
theorem agree (v : ℚ) (h : v = 0 ∨ (1 / 2 ^ F.p) ^ 3 / 128 ≤ |v|) : roundTo F v = round F.p v := by
  rcases h with rfl | h
  · rw [roundTo_zero, round_zero]
  · apply roundTo_normal
    refine le_trans ?_ h
    have e : ((1 : ℚ) / 2 ^ F.p) ^ 3 / 128 = 2 ^ (-(3 * F.p) - 7 : ℤ) := by
      rw [zpow_sub₀ (by norm_num), zpow_neg, div_pow, one_pow, ← pow_mul, ← zpow_natCast, one_div]
      push_cast
      norm_num [mul_comm]
    rw [e]
    have := W.emin
    exact zpow_le_zpow_right₀ (by norm_num) (by omega)

theorem agree_grid (v w : ℚ) (hv : Fits F v) (hw : Fits F w) : roundTo F (v + w) = round F.p (v + w) := by
  apply roundTo_grid W.pos
  obtain ⟨n, hn⟩ := hv.2
  obtain ⟨m, hm⟩ := hw.2
  exact ⟨n + m, by rw [hn, hm]; push_cast; ring⟩

theorem tau : (0 : ℚ) < 1 / 2 ^ F.p ∧ (1 : ℚ) / 2 ^ F.p ≤ 1 / 1048576 := ⟨by positivity, by gcongr; exact W.big⟩

theorem tiny : ((1 : ℚ) / 2 ^ F.p) ^ 3 / 128 ≤ 1 / 2 ^ 60 ∧ ((1 : ℚ) / 2 ^ F.p) ^ 3 / 128 ≤ (1 / 2 ^ F.p) ^ 2 / 128 := by
  obtain ⟨t0, t1⟩ := tau W
  set t := (1 : ℚ) / 2 ^ F.p
  have h3 : t ^ 3 ≤ (1 / 1048576) ^ 3 := by gcongr
  refine ⟨by norm_num at h3 ⊢; linarith, ?_⟩
  have : t ^ 3 ≤ t ^ 2 := by
    rw [pow_succ t 2]
    nlinarith [sq_nonneg t]
  linarith

theorem horner_agree {xx v c : ℚ} (hxx : (1 / 2 ^ F.p) ^ 2 ≤ xx) (hv : 1 / 2 ≤ |v|) (hs : 1 ≤ |roundTo F (xx * v) + c|) : horner (roundTo F) xx v c = horner (round F.p) xx v c := by
  obtain ⟨t1, t2⟩ := tiny W
  unfold horner
  rw [agree W _ (Or.inr (t1.trans (le_trans (by norm_num) hs))), agree W (xx * v) (Or.inr ?_)]
  have h0 : 0 ≤ xx := le_trans (by positivity) hxx
  rw [abs_mul, abs_of_nonneg h0]
  have : 0 ≤ ((1 : ℚ) / 2 ^ F.p) ^ 2 := by positivity
  nlinarith

variable {c : AtanConsts ℚ} (hc : Sizes c)
include hc

theorem numer_agree {xx : ℚ} (hxx : (1 / 2 ^ F.p) ^ 2 ≤ xx) (x1 : xx ≤ 1) : numer (roundTo F) c xx = numer (round F.p) c xx := by
  have h0 : 0 ≤ xx := le_trans (by positivity) hxx
  obtain ⟨⟨a1, a2⟩, ⟨b1, b2⟩, ⟨d1, d2⟩, e1, e2⟩ := numer_steps (rounding_ieee W) hc h0 x1
  unfold numer
  rw [horner_agree W hxx (by rw [abs_of_nonpos (by linarith)]; linarith) (by rw [abs_of_nonpos (by linarith [hc.P4.2])]; linarith [hc.P4.2]),
    horner_agree W (v := horner (roundTo F) xx (horner (roundTo F) xx c.P0 c.P1) c.P2) hxx (by rw [abs_of_nonpos (by linarith)]; linarith) (by rw [abs_of_nonpos (by linarith [hc.P3.2])]; linarith [hc.P3.2]),
    horner_agree W (v := horner (roundTo F) xx c.P0 c.P1) hxx (by rw [abs_of_nonpos (by linarith)]; linarith) (by rw [abs_of_nonpos (by linarith [hc.P2.2])]; linarith [hc.P2.2]),
    horner_agree W (v := c.P0) hxx (by rw [abs_of_nonpos (by linarith [hc.P0.2])]; linarith [hc.P0.2]) (by rw [abs_of_nonpos (by linarith [hc.P1.2])]; linarith [hc.P1.2])]

theorem denom_agree {xx : ℚ} (hxx : (1 / 2 ^ F.p) ^ 2 ≤ xx) (x1 : xx ≤ 1) : denom (roundTo F) c xx = denom (round F.p) c xx := by
  have h0 : 0 ≤ xx := le_trans (by positivity) hxx
  obtain ⟨⟨z1, z2⟩, ⟨a1, a2⟩, ⟨b1, b2⟩, ⟨d1, d2⟩, e1, e2⟩ := denom_steps (rounding_ieee W) hc h0 x1
  have t := (tiny W).1
  unfold denom
  rw [horner_agree W hxx (by rw [abs_of_nonneg (by linarith)]; linarith) (by rw [abs_of_nonneg (by linarith [hc.Q4.1])]; linarith [hc.Q4.1]),
    horner_agree W (v := horner (roundTo F) xx (horner (roundTo F) xx (roundTo F (xx + c.Q0)) c.Q1) c.Q2) hxx (by rw [abs_of_nonneg (by linarith)]; linarith)
      (by rw [abs_of_nonneg (by linarith [hc.Q3.1])]; linarith [hc.Q3.1]),
    horner_agree W (v := horner (roundTo F) xx (roundTo F (xx + c.Q0)) c.Q1) hxx (by rw [abs_of_nonneg (by linarith)]; linarith) (by rw [abs_of_nonneg (by linarith [hc.Q2.1])]; linarith [hc.Q2.1]),
    horner_agree W (v := roundTo F (xx + c.Q0)) hxx (by rw [abs_of_nonneg (by linarith)]; linarith) (by rw [abs_of_nonneg (by linarith [hc.Q1.1])]; linarith [hc.Q1.1]),
    agree W (xx + c.Q0) (Or.inr (by rw [abs_of_nonneg (by linarith [hc.Q0.1])]; refine t.trans (le_trans (by norm_num) (by linarith [hc.Q0.1] : (1 : ℚ) ≤ xx + c.Q0))))]

theorem kernel_agree {x : ℚ} (hx : |x| ≤ 1) (hf : Fits F x) : kernelQ (roundTo F) c x = kernelQ (round F.p) c x := by
  have hp := W.p
  obtain ⟨u0, u1⟩ := tau W
  obtain ⟨t1, t2⟩ := tiny W
  rcases le_total |x| (1 / 2 ^ F.p) with hs | hs
  · rw [kernel_small (rounding_ieee W) hc (by omega) (near_ieee W) hs hf.1 ⟨x, (roundTo_of_fits W.pos x hf).symm⟩,
      kernel_small (rounding_binary W) hc (by omega) (near_binary W) hs hf.1 ⟨x, (round_of_representable _ x hf.1).symm⟩]
  have pw : ∀ k : ℕ, Representable F.p ((1 / 2 ^ F.p) ^ k : ℚ) := by
    intro k
    refine ⟨1, -(F.p * k), ?_, ?_⟩
    · rw [abs_one]
      exact one_lt_pow₀ (by norm_num) (by omega)
    · rw [Int.cast_one, one_mul, zpow_neg, one_div, inv_pow, ← pow_mul, ← zpow_natCast]
      push_cast
      rfl
  set t := (1 : ℚ) / 2 ^ F.p with ht
  have ht' : t ≤ 1 := u1.trans (by norm_num)
  have x2 : t ^ 2 ≤ x * x := by
    rw [← abs_mul_abs_self x]
    nlinarith
  have t3 : t ^ 3 ≤ t ^ 2 := by nlinarith [sq_nonneg t]
  have e1 : roundTo F (x * x) = round F.p (x * x) := agree W _ (Or.inr (by rw [abs_mul_self]; have := sq_nonneg t; linarith))
  have xx2 : t ^ 2 ≤ round F.p (x * x) := le_round _ W.pos _ _ (pw 2) x2
  obtain ⟨-, xx1⟩ := square (rounding_binary W) hx
  have e2 : roundTo F (x * round F.p (x * x)) = round F.p (x * round F.p (x * x)) := by
    apply agree W _ (Or.inr _)
    rw [abs_mul, abs_of_nonneg (le_trans (sq_nonneg t) xx2)]
    have : t * t ^ 2 ≤ |x| * round F.p (x * x) := mul_le_mul hs xx2 (sq_nonneg t) (abs_nonneg x)
    have : t * t ^ 2 = t ^ 3 := by ring
    have : 0 ≤ t ^ 3 := by positivity
    linarith
  have xt : t ^ 3 ≤ |round F.p (x * round F.p (x * x))| := by
    have hm : t ^ 3 ≤ |x * round F.p (x * x)| := by
      rw [abs_mul, abs_of_nonneg (le_trans (sq_nonneg t) xx2)]
      have : t * t ^ 2 ≤ |x| * round F.p (x * x) := mul_le_mul hs xx2 (sq_nonneg t) (abs_nonneg x)
      have : t * t ^ 2 = t ^ 3 := by ring
      linarith
    rcases le_total 0 (x * round F.p (x * x)) with s | s
    · rw [abs_of_nonneg s] at hm
      exact (le_round _ W.pos _ _ (pw 3) hm).trans (le_abs_self _)
    · rw [abs_of_nonpos s] at hm
      have hn : Representable F.p (-(t ^ 3)) := by
        obtain ⟨m, e, h1, h2⟩ := pw 3
        exact ⟨-m, e, by rwa [abs_neg], by rw [h2]; push_cast; ring⟩
      have := round_le F.p W.pos _ _ hn (by linarith : x * round F.p (x * x) ≤ -(t ^ 3))
      exact (by linarith : t ^ 3 ≤ -round F.p (x * round F.p (x * x))).trans (neg_le_abs _)
  have t30 : 0 < t ^ 3 := by positivity
  have s0 : 0 ≤ round F.p (x * x) := le_trans (sq_nonneg t) xx2
  obtain ⟨n0, n1⟩ := (numer_steps (rounding_binary W) hc s0 xx1).2.2.2.2
  obtain ⟨d0, d1⟩ := (denom_steps (rounding_binary W) hc s0 xx1).2.2.2.2.2
  have e3 := numer_agree W hc xx2 xx1
  have e4 := denom_agree W hc xx2 xx1
  set N := numer (round F.p) c (round F.p (x * x))
  set D := denom (round F.p) c (round F.p (x * x))
  set T := round F.p (x * round F.p (x * x))
  have hTN : 64 * t ^ 3 ≤ |T * N| := by
    rw [abs_mul, abs_of_nonpos (by linarith : N ≤ 0)]
    nlinarith
  have e5 : roundTo F (T * N) = round F.p (T * N) := agree W _ (Or.inr (by linarith))
  have hM : 32 * t ^ 3 ≤ |round F.p (T * N)| := by
    have h1 := round_error F.p (T * N)
    rw [div_eq_mul_one_div, ← ht] at h1
    have h2 := abs_sub_abs_le_abs_sub (T * N) (round F.p (T * N))
    rw [abs_sub_comm] at h2
    have h3 : |T * N| * t ≤ |T * N| * (1 / 1048576) := by gcongr
    linarith
  have e6 : roundTo F (round F.p (T * N) / D) = round F.p (round F.p (T * N) / D) := by
    apply agree W _ (Or.inr _)
    rw [abs_div, abs_of_pos (by linarith : (0 : ℚ) < D), ← ht, le_div_iff₀ (by linarith)]
    nlinarith
  have ef : fracQ (roundTo F) c x = fracQ (round F.p) c x := by
    unfold fracQ
    rw [e1, e2, e3, e4, e5, e6]
  unfold kernelQ
  rw [← ef]
  exact agree_grid W _ _ hf (roundTo_fits W.pos _)

theorem approx_agree {x : ℚ} (hx : 0 ≤ x) (hf : Fits F x) : approxQ (roundTo F) c x = approxQ (round F.p) c x := by
  have hp := W.p
  obtain ⟨u0, u1⟩ := tau W
  obtain ⟨t1, t2⟩ := tiny W
  have one1 : roundTo F ((1 : ℤ) : ℚ) = 1 := by rw [(rounding_ieee W).int 1 (by norm_num)]; norm_num
  have one2 : round F.p ((1 : ℤ) : ℚ) = 1 := by rw [(rounding_binary W).int 1 (by norm_num)]; norm_num
  have fit1 : Fits F 1 := by have := half_representable W 2 (by norm_num); norm_num at this; exact this
  have big : ∀ v : ℚ, 1 / 2 ^ 60 ≤ v → roundTo F v = round F.p v := fun v hv => agree W v (Or.inr (t1.trans (hv.trans (le_abs_self v))))
  unfold approxQ
  rw [one1, one2]
  split_ifs with c1 c2
  · exact kernel_agree W hc (by rw [abs_of_nonneg hx]; linarith [hc.low.2]) hf
  · have eH : roundTo F (c.halfPi + c.morebits) = round F.p (c.halfPi + c.morebits) := by
      apply big
      have := hc.morebits.1
      have : (0 : ℚ) ≤ 1 / 2 ^ 55 := by positivity
      have : (1 : ℚ) / 2 ^ 60 ≤ 3 / 2 := by norm_num
      linarith [hc.halfPi.1]
    have x2 : 2 < x := lt_of_le_of_lt hc.high.1 c2
    rcases le_total x (8 * 2 ^ F.p) with hs | hs
    · have eq : roundTo F (1 / x) = round F.p (1 / x) := by
        apply agree W _ (Or.inr _)
        have hl : (1 : ℚ) / 2 ^ F.p / 8 ≤ 1 / x := by
          rw [div_div, mul_comm ((2 : ℚ) ^ F.p)]
          gcongr
        refine le_trans ?_ (hl.trans (le_abs_self _))
        set t := (1 : ℚ) / 2 ^ F.p
        have : t ^ 2 ≤ t * 1 := by rw [sq]; gcongr; linarith
        linarith
      have hk : |roundTo F (1 / x)| ≤ 1 := by
        have hb := (rounding_ieee W).between 0 1 (by norm_num) (by norm_num) (v := 1 / x) (by push_cast; rw [zero_div]; positivity) (by push_cast; gcongr)
        push_cast at hb
        rw [abs_le]
        constructor <;> linarith [hb.1, hb.2]
      rw [eH, ← eq, ← kernel_agree W hc hk (roundTo_fits W.pos _), sub_eq_add_neg]
      apply agree_grid W
      · rw [← eH]; exact roundTo_fits W.pos _
      · have := roundTo_fits W.pos (F := F) (-(roundTo F (1 / x) + fracQ (roundTo F) c (roundTo F (1 / x))))
        rwa [roundTo_neg] at this
    · have small : ∀ ρ : ℚ → ℚ, Rounding F.p ρ → |ρ (1 / x)| ≤ 1 / 2 ^ F.p / 4 := by
        intro ρ h
        refine (h.double _).trans ?_
        rw [abs_of_nonneg (by positivity)]
        have : 1 / x ≤ 1 / (8 * 2 ^ F.p) := by gcongr
        have e : (1 : ℚ) / (8 * 2 ^ F.p) = 1 / 2 ^ F.p / 8 := by rw [div_div, mul_comm]
        linarith
      have s1 := small _ (rounding_ieee W)
      have s2 := small _ (rounding_binary W)
      have S : ∀ ρ : ℚ → ℚ, Rounding F.p ρ → 1 ≤ ρ (c.halfPi + c.morebits) := by
        intro ρ h
        have := h.mono _ _ (show ((1 : ℤ) : ℚ) ≤ c.halfPi + c.morebits by
          have := hc.morebits.1
          have : (0 : ℚ) ≤ 1 / 2 ^ 55 := by positivity
          push_cast
          linarith [hc.halfPi.1])
        rw [h.int 1 (by norm_num)] at this
        exact_mod_cast this
      rw [kernel_small (rounding_ieee W) hc (by omega) (near_ieee W) (s1.trans (by linarith)) (roundTo_fits W.pos _).1 ⟨_, rfl⟩,
        kernel_small (rounding_binary W) hc (by omega) (near_binary W) (s2.trans (by linarith)) (round_representable _ W.pos _) ⟨_, rfl⟩,
        absorb (rounding_ieee W) W.pos (near_ieee W) (S _ (rounding_ieee W)) s1, absorb (rounding_binary W) W.pos (near_binary W) (S _ (rounding_binary W)) s2, eH]
  · push Not at c1 c2
    have x0 : 1 / 2 ≤ x := by linarith [hc.low.1]
    have x2 : x ≤ 5 / 2 := by linarith [hc.high.2]
    have em : roundTo F (c.half * c.morebits) = round F.p (c.half * c.morebits) := by
      apply big
      have : (1 / 4 : ℚ) * (1 / 2 ^ 55) ≤ c.half * c.morebits := mul_le_mul hc.half.1 hc.morebits.1 (by positivity) (by linarith [hc.half.1])
      exact le_trans (by norm_num) this
    have m0 : 0 ≤ round F.p (c.half * c.morebits) := by
      have := (rounding_binary W).mono 0 (c.half * c.morebits) (mul_nonneg (by linarith [hc.half.1]) (le_trans (by positivity) hc.morebits.1))
      rwa [(rounding_binary W).at_zero] at this
    have eF : roundTo F (c.fourthPi + roundTo F (c.half * c.morebits)) = round F.p (c.fourthPi + round F.p (c.half * c.morebits)) := by
      rw [em]
      apply big
      exact le_trans (by norm_num) (by linarith [hc.fourthPi.1] : (1 : ℚ) / 2 ≤ _)
    have ea : roundTo F (x + 1) = round F.p (x + 1) := agree_grid W _ _ hf fit1
    have es : roundTo F (x - 1) = round F.p (x - 1) := by
      rw [sub_eq_add_neg]
      have := half_representable W (-2) (by norm_num)
      norm_num at this
      exact agree_grid W _ _ hf this
    have ba := (rounding_binary W).between 3 7 (by norm_num) (by norm_num) (v := x + 1) (by push_cast; linarith) (by push_cast; linarith)
    have bs := (rounding_binary W).between (-1) 3 (by norm_num) (by norm_num) (v := x - 1) (by push_cast; linarith) (by push_cast; linarith)
    push_cast at ba bs
    have eq : roundTo F (round F.p (x - 1) / round F.p (x + 1)) = round F.p (round F.p (x - 1) / round F.p (x + 1)) := by
      apply agree W
      by_cases h1 : |1 - x| < |(1 : ℚ)| / 2 ^ F.p
      · left
        rw [← representable_gap F.p W.pos 1 x fit1.1 hf.1 h1, sub_self, round_zero, zero_div]
      · right
        push Not at h1
        rw [abs_one] at h1
        have h2 : 1 / 2 ^ F.p / 2 ≤ |round F.p (x - 1)| := by
          have k1 := round_error F.p (x - 1)
          rw [div_eq_mul_one_div] at k1
          have k2 := abs_sub_abs_le_abs_sub (x - 1) (round F.p (x - 1))
          rw [abs_sub_comm (x - 1)] at k2
          rw [abs_sub_comm] at h1
          have k3 : |x - 1| * (1 / 2 ^ F.p) ≤ |x - 1| * (1 / 1048576) := by gcongr
          linarith
        rw [abs_div, abs_of_pos (by linarith [ba.1] : 0 < round F.p (x + 1)), le_div_iff₀ (by linarith [ba.1])]
        set t := (1 : ℚ) / 2 ^ F.p
        have k4 : t ^ 2 ≤ t * 1 := by rw [sq]; gcongr; linarith
        have k5 : t ^ 3 / 128 * round F.p (x + 1) ≤ t ^ 3 / 128 * 4 := by
          gcongr
          linarith [ba.2]
        linarith
    have hk : |roundTo F (round F.p (x - 1) / round F.p (x + 1))| ≤ 1 := by
      have hd : 0 < round F.p (x + 1) := by linarith [ba.1]
      have hb := (rounding_ieee W).between (-2) 2 (by norm_num) (by norm_num) (v := round F.p (x - 1) / round F.p (x + 1))
        (by push_cast; rw [le_div_iff₀ hd]; linarith [ba.1, bs.1]) (by push_cast; rw [div_le_iff₀ hd]; linarith [ba.1, bs.2])
      push_cast at hb
      rw [abs_le]
      constructor <;> linarith [hb.1, hb.2]
    rw [es, ea, ← eq, ← kernel_agree W hc hk (roundTo_fits W.pos _), ← eF]
    exact agree_grid W _ _ (roundTo_fits W.pos _) (roundTo_fits W.pos _)

theorem atan_agree {x : ℚ} (hf : Fits F x) : atanQ (roundTo F) c x = atanQ (round F.p) c x := by
  unfold atanQ
  split_ifs with h0
  · exact approx_agree W hc h0 hf
  · rw [approx_agree W hc (by linarith)]
    have := roundTo_fits W.pos (F := F) (-x)
    rwa [roundTo_neg, roundTo_of_fits W.pos x hf] at this

end

/-! ### The functions in IEEE arithmetic -/

/-- A finite number of the type, and its value. -/
def Is {F : Format} (a : Ieee F) (v : ℚ) : Prop := a.Finite ∧ a.Valid ∧ a.val = v

section
variable {F : Format} (W : Wide F)
include W

theorem Wide.room : (4096 : ℚ) < 2 ^ F.emax := by
  have h1 := W.p
  have h2 := W.emax
  calc (4096 : ℚ) < 2 ^ (20 : ℤ) := by norm_num
    _ ≤ 2 ^ F.emax := zpow_le_zpow_right₀ (by norm_num) (by omega)

variable {a b : Ieee F} {v w : ℚ}

theorem Is.add (ha : Is a v) (hb : Is b w) (h : |roundTo F (v + w)| ≤ 4096) : Is (a + b) (roundTo F (v + w)) := by
  obtain ⟨f1, v1, rfl⟩ := ha
  obtain ⟨f2, v2, rfl⟩ := hb
  have hf := (add_finite a b f1 f2).mpr (h.trans_lt W.room)
  exact ⟨hf, add_valid W.pos a b, add_val W.pos a b f1 f2 hf⟩

omit W in
theorem Is.neg (ha : Is a v) : Is (-a) (-v) := ⟨neg_finite a ha.1, neg_valid a ha.2.1, by rw [neg_val, ha.2.2]⟩

theorem Is.sub (ha : Is a v) (hb : Is b w) (h : |roundTo F (v - w)| ≤ 4096) : Is (a - b) (roundTo F (v - w)) := by
  rw [sub_eq_add_neg] at h ⊢
  exact Is.add W ha hb.neg h

theorem Is.mul (ha : Is a v) (hb : Is b w) (h : |roundTo F (v * w)| ≤ 4096) : Is (a * b) (roundTo F (v * w)) := by
  obtain ⟨f1, v1, rfl⟩ := ha
  obtain ⟨f2, v2, rfl⟩ := hb
  have hf := (mul_finite a b f1 f2).mpr (h.trans_lt W.room)
  exact ⟨hf, mul_valid W.pos a b, mul_val W.pos a b f1 f2 v1 v2 hf⟩

theorem Is.div (ha : Is a v) (hb : Is b w) (h0 : w ≠ 0) (h : |roundTo F (v / w)| ≤ 4096) : Is (a / b) (roundTo F (v / w)) := by
  obtain ⟨f1, v1, rfl⟩ := ha
  obtain ⟨f2, v2, rfl⟩ := hb
  have hf := (div_finite a b f1 f2 h0).mpr (h.trans_lt W.room)
  exact ⟨hf, div_valid W.pos a b, div_val W.pos a b f1 f2 v1 v2 hf h0⟩

theorem is_one : Is (((1 : ℤ) : Ieee F)) (roundTo F ((1 : ℤ) : ℚ)) := by
  have h1 := W.p
  have h2 := W.emin
  obtain ⟨x, y, z⟩ := cast_exact (F := F) W.pos (by omega) W.emax' 1 (by rw [abs_one]; exact one_lt_pow₀ (by norm_num) (by omega))
  exact ⟨x, y, by rw [z, (rounding_ieee W).int 1 (by norm_num)]⟩

omit W in
theorem Is.fits (ha : Is a v) : Fits F v := by
  rw [← ha.2.2]
  exact valid_fits ha.2.1

omit W in
theorem less_iff (ha : Is a v) (hb : Is b w) : Ieee.less a b = true ↔ v < w := by
  obtain ⟨f1, v1, rfl⟩ := ha
  obtain ⟨f2, v2, rfl⟩ := hb
  obtain ⟨s, m, rfl⟩ := (finite_iff a).mp f1
  obtain ⟨t, n, rfl⟩ := (finite_iff b).mp f2
  simp only [Ieee.less, decide_eq_true_eq]
  rfl

omit W in
theorem beq_iff (ha : Is a v) (hb : Is b w) : (a == b) = true ↔ v = w := by
  obtain ⟨f1, v1, rfl⟩ := ha
  obtain ⟨f2, v2, rfl⟩ := hb
  obtain ⟨s, m, rfl⟩ := (finite_iff a).mp f1
  obtain ⟨t, n, rfl⟩ := (finite_iff b).mp f2
  show decide (signed s m = signed t n) = true ↔ _
  simp only [decide_eq_true_eq]
  rfl

omit W in
theorem leq_iff (ha : Is a v) (hb : Is b w) : Ieee.leq a b = true ↔ v ≤ w := by
  unfold Ieee.leq
  rw [Bool.or_eq_true, less_iff ha hb, beq_iff ha hb, le_iff_lt_or_eq]

/-- The constants have these values. -/
structure Match (c : AtanConsts (Ieee F)) (q : AtanConsts ℚ) : Prop where
  P0 : Is c.P0 q.P0
  P1 : Is c.P1 q.P1
  P2 : Is c.P2 q.P2
  P3 : Is c.P3 q.P3
  P4 : Is c.P4 q.P4
  Q0 : Is c.Q0 q.Q0
  Q1 : Is c.Q1 q.Q1
  Q2 : Is c.Q2 q.Q2
  Q3 : Is c.Q3 q.Q3
  Q4 : Is c.Q4 q.Q4
  morebits : Is c.morebits q.morebits
  low : Is c.low q.low
  high : Is c.high q.high
  half : Is c.half q.half
  pi : Is c.pi q.pi
  halfPi : Is c.halfPi q.halfPi
  fourthPi : Is c.fourthPi q.fourthPi

theorem is_horner {xx k : Ieee F} {x y z : ℚ} (hx : Is xx x) (ha : Is a y) (hk : Is k z) (h1 : |roundTo F (x * y)| ≤ 4096) (h2 : |horner (roundTo F) x y z| ≤ 4096) : Is (xx * a + k) (horner (roundTo F) x y z) :=
  Is.add W (Is.mul W hx ha h1) hk h2

variable {c : AtanConsts (Ieee F)} {q : AtanConsts ℚ} (hM : Match c q) (hc : Sizes q)
include hM hc

theorem is_kernel {x : Ieee F} {v : ℚ} (hx : Is x v) (hv : |v| ≤ 1) : Is (atanKernel c x) (kernelQ (roundTo F) q v) ∧ |kernelQ (roundTo F) q v| ≤ 3 := by
  have R := rounding_ieee W
  obtain ⟨s0, s1⟩ := square R hv
  have ixx : Is (x * x) (roundTo F (v * v)) := Is.mul W hx hx (by rw [abs_of_nonneg s0]; linarith)
  obtain ⟨⟨⟨a1, a2⟩, a3, a4⟩, ⟨⟨b1, b2⟩, b3, b4⟩, ⟨⟨d1, d2⟩, d3, d4⟩, ⟨e1, e2⟩, e3, e4⟩ := numer_steps R hc s0 s1
  obtain ⟨⟨y1, y2⟩, ⟨⟨z1, z2⟩, z3, z4⟩, ⟨⟨f1, f2⟩, f3, f4⟩, ⟨⟨g1, g2⟩, g3, g4⟩, ⟨i1, i2⟩, i3, i4⟩ := denom_steps R hc s0 s1
  obtain ⟨j1, j2, j3, -⟩ := frac_size R hc hv
  have p1 := is_horner W ixx hM.P0 hM.P1 (by rw [abs_le]; constructor <;> linarith) (by rw [abs_le]; constructor <;> linarith)
  have p2 := is_horner W ixx p1 hM.P2 (by rw [abs_le]; constructor <;> linarith) (by rw [abs_le]; constructor <;> linarith)
  have p3 := is_horner W ixx p2 hM.P3 (by rw [abs_le]; constructor <;> linarith) (by rw [abs_le]; constructor <;> linarith)
  have p4 : Is _ (numer (roundTo F) q (roundTo F (v * v))) :=
    is_horner W ixx p3 hM.P4 (by rw [abs_le]; constructor <;> linarith) (by show |numer (roundTo F) q (roundTo F (v * v))| ≤ _; rw [abs_le]; constructor <;> linarith)
  have q0 := Is.add W ixx hM.Q0 (by rw [abs_le]; constructor <;> linarith)
  have q1 := is_horner W ixx q0 hM.Q1 (by rw [abs_le]; constructor <;> linarith) (by rw [abs_le]; constructor <;> linarith)
  have q2 := is_horner W ixx q1 hM.Q2 (by rw [abs_le]; constructor <;> linarith) (by rw [abs_le]; constructor <;> linarith)
  have q3 := is_horner W ixx q2 hM.Q3 (by rw [abs_le]; constructor <;> linarith) (by rw [abs_le]; constructor <;> linarith)
  have q4 : Is _ (denom (roundTo F) q (roundTo F (v * v))) :=
    is_horner W ixx q3 hM.Q4 (by rw [abs_le]; constructor <;> linarith) (by show |denom (roundTo F) q (roundTo F (v * v))| ≤ _; rw [abs_le]; constructor <;> linarith)
  have it := Is.mul W hx ixx (by linarith)
  have iN := Is.mul W it p4 (by linarith)
  have ifr : Is _ (fracQ (roundTo F) q v) := Is.div W iN q4 (by linarith) (by show |fracQ (roundTo F) q v| ≤ _; linarith)
  have hK : |kernelQ (roundTo F) q v| ≤ 3 := by
    have hv' := abs_le.mp hv
    have hj := abs_le.mp j3
    have := R.between (-6) 6 (by norm_num) (by norm_num) (v := v + fracQ (roundTo F) q v) (by push_cast; linarith [hv'.1, hj.1]) (by push_cast; linarith [hv'.2, hj.2])
    push_cast at this
    unfold kernelQ
    rw [abs_le]
    constructor <;> linarith [this.1, this.2]
  exact ⟨Is.add W hx ifr (by show |kernelQ (roundTo F) q v| ≤ _; linarith), hK⟩

theorem is_approx {x : Ieee F} {v : ℚ} (hx : Is x v) (h0 : 0 ≤ v) : Is (atanApproxIeee c x) (approxQ (roundTo F) q v) := by
  have R := rounding_ieee W
  have bound : ∀ (n : ℤ) (v : ℚ), 0 ≤ n → n ≤ 4096 → |v| ≤ n → |roundTo F v| ≤ n := by
    intro n v h0 h1 hv
    have hv := abs_le.mp hv
    have := R.between (-2 * n) (2 * n) (by rw [abs_le]; constructor <;> omega) (by rw [abs_le]; constructor <;> omega) (v := v) (by push_cast; linarith [hv.1]) (by push_cast; linarith [hv.2])
    push_cast at this
    rw [abs_le]
    constructor <;> linarith [this.1, this.2]
  have one1 : roundTo F ((1 : ℤ) : ℚ) = 1 := by rw [R.int 1 (by norm_num)]; norm_num
  have i1 := is_one W
  have mb0 : 0 ≤ q.morebits := le_trans (by positivity) hc.morebits.1
  have mb1 : q.morebits ≤ 1 := hc.morebits.2.trans (by norm_num)
  unfold atanApproxIeee approxQ
  by_cases c1 : v ≤ q.low
  · rw [if_pos ((leq_iff hx hM.low).mpr c1), if_pos c1]
    exact (is_kernel W hM hc hx (by rw [abs_of_nonneg h0]; linarith [hc.low.2])).1
  rw [if_neg (by rwa [leq_iff hx hM.low]), if_neg c1]
  by_cases c2 : q.high < v
  · rw [if_pos ((less_iff hM.high hx).mpr c2), if_pos c2]
    have x2 : 2 < v := lt_of_le_of_lt hc.high.1 c2
    have h1 : |roundTo F (1 / v)| ≤ 1 := by
      have := bound 1 (1 / v) (by norm_num) (by norm_num) (by
        rw [abs_of_nonneg (by positivity)]
        push_cast
        rw [div_le_one (by linarith)]
        linarith)
      exact_mod_cast this
    have ih := Is.add W hM.halfPi hM.morebits ((bound 3 _ (by norm_num) (by norm_num) (by push_cast; rw [abs_le]; constructor <;> linarith [hc.halfPi.1, hc.halfPi.2])).trans (by norm_num))
    have hh := bound 3 (q.halfPi + q.morebits) (by norm_num) (by norm_num) (by push_cast; rw [abs_le]; constructor <;> linarith [hc.halfPi.1, hc.halfPi.2])
    push_cast at hh
    have iq := Is.div W i1 hx (by linarith) (by rw [one1]; linarith)
    obtain ⟨ik, hk⟩ := is_kernel W hM hc iq (by rw [one1]; exact h1)
    refine Is.sub W ih ik ((bound 6 _ (by norm_num) (by norm_num) ?_).trans (by norm_num))
    push_cast
    refine (abs_sub _ _).trans ?_
    linarith
  · rw [if_neg (by rwa [less_iff hM.high hx]), if_neg c2]
    push Not at c1 c2
    have x0 : 1 / 2 ≤ v := by linarith [hc.low.1]
    have x2 : v ≤ 5 / 2 := by linarith [hc.high.2]
    have ba := R.between 3 7 (by norm_num) (by norm_num) (v := v + 1) (by push_cast; linarith) (by push_cast; linarith)
    have bs := R.between (-1) 3 (by norm_num) (by norm_num) (v := v - 1) (by push_cast; linarith) (by push_cast; linarith)
    push_cast at ba bs
    have ia := Is.add W hx i1 (by rw [one1, abs_le]; constructor <;> linarith [ba.1, ba.2])
    have is := Is.sub W hx i1 (by rw [one1, abs_le]; constructor <;> linarith [bs.1, bs.2])
    have hq : |roundTo F (roundTo F (v - roundTo F ((1 : ℤ) : ℚ)) / roundTo F (v + roundTo F ((1 : ℤ) : ℚ)))| ≤ 1 := by
      have hd : 0 < roundTo F (v + 1) := by linarith [ba.1]
      rw [one1]
      have := bound 1 (roundTo F (v - 1) / roundTo F (v + 1)) (by norm_num) (by norm_num) (by
        rw [abs_div, abs_of_pos hd, div_le_iff₀ hd, abs_le]
        push_cast
        constructor <;> linarith [ba.1, bs.1, bs.2])
      exact_mod_cast this
    have iq := Is.div W is ia (by rw [one1]; linarith [ba.1]) (hq.trans (by norm_num))
    obtain ⟨ik, hk⟩ := is_kernel W hM hc iq hq
    have hm := bound 1 (q.half * q.morebits) (by norm_num) (by norm_num) (by
      rw [abs_of_nonneg (mul_nonneg (by linarith [hc.half.1]) mb0)]
      push_cast
      exact mul_le_one₀ hc.half.2 mb0 mb1)
    push_cast at hm
    have im := Is.mul W hM.half hM.morebits (by linarith)
    have hf := bound 2 (q.fourthPi + roundTo F (q.half * q.morebits)) (by norm_num) (by norm_num) (by
      push_cast
      refine (abs_add_le _ _).trans ?_
      rw [abs_of_nonneg (by linarith [hc.fourthPi.1] : 0 ≤ q.fourthPi)]
      linarith [hc.fourthPi.2])
    push_cast at hf
    have iF := Is.add W hM.fourthPi im (by linarith)
    refine Is.add W iF ik ((bound 5 _ (by norm_num) (by norm_num) ?_).trans (by norm_num))
    push_cast
    refine (abs_add_le _ _).trans ?_
    linarith

theorem is_atan {x : Ieee F} {v : ℚ} (hx : Is x v) : Is (atanIeee c x) (atanQ (roundTo F) q v) := by
  have h0 : Is (0 : Ieee F) 0 := by
    refine ⟨trivial, valid_of_fits false 0 le_rfl (by positivity) (fits_zero W), ?_⟩
    show signed false 0 = 0
    simp [signed]
  unfold atanIeee atanQ
  by_cases c0 : 0 ≤ v
  · rw [if_pos ((leq_iff h0 hx).mpr c0), if_pos c0]
    exact is_approx W hM hc hx c0
  · rw [if_neg (by rwa [leq_iff h0 hx]), if_neg c0]
    exact (is_approx W hM hc hx.neg (by linarith)).neg

end

/-! ### The constants -/

/-- The values of the constants. -/
def values (l : ℕ) (p : ℕ) [NeZero p] : AtanConsts ℚ := (AtanConsts.binary l p).map Binary.val Binary.val

theorem literal_between (l p : ℕ) [NeZero p] (hp : 20 ≤ p) (hl : p ≤ l) (x lo hi : ℚ) (h1 : lo ≤ x - |x| / 524288) (h2 : x + |x| / 524288 ≤ hi) : lo ≤ (Binary.literal l p x).val ∧ (Binary.literal l p x).val ≤ hi := by
  have h : |(Binary.literal l p x).val - x| ≤ 2 * (1 / 2 ^ p) * |x| := by
    have := literal_error l p hl x
    have h' : ((|(Binary.literal l p x).val - x| : ℚ) : ℝ) ≤ ((2 * (1 / 2 ^ p) * |x| : ℚ) : ℝ) := by
      push_cast
      exact this
    exact Rat.cast_le.mp h'
  have hb : (1 : ℚ) / 2 ^ p ≤ 1 / 1048576 := by
    have : (2 : ℚ) ^ 20 ≤ 2 ^ p := pow_le_pow_right₀ (by norm_num) hp
    norm_num at this
    gcongr
  have h' : |(Binary.literal l p x).val - x| ≤ |x| / 524288 := h.trans (by
    have : (1 : ℚ) / 2 ^ p * |x| ≤ 1 / 1048576 * |x| := by gcongr
    linarith)
  have := abs_le.mp h'
  constructor <;> linarith [this.1, this.2]

theorem sizes (l p : ℕ) [NeZero p] (hp : 20 ≤ p) (hp' : p ≤ 53) (hl : p ≤ l) : Sizes (values l p) := by
  constructor
  · exact literal_between 53 p hp hp' AtanConsts.decimal.P0 _ _ (by norm_num [AtanConsts.decimal, abs_of_neg]) (by norm_num [AtanConsts.decimal])
  · exact literal_between 53 p hp hp' AtanConsts.decimal.P1 _ _ (by norm_num [AtanConsts.decimal]) (by norm_num [AtanConsts.decimal])
  · exact literal_between 53 p hp hp' AtanConsts.decimal.P2 _ _ (by norm_num [AtanConsts.decimal]) (by norm_num [AtanConsts.decimal])
  · exact literal_between 53 p hp hp' AtanConsts.decimal.P3 _ _ (by norm_num [AtanConsts.decimal]) (by norm_num [AtanConsts.decimal])
  · exact literal_between 53 p hp hp' AtanConsts.decimal.P4 _ _ (by norm_num [AtanConsts.decimal]) (by norm_num [AtanConsts.decimal])
  · exact literal_between 53 p hp hp' AtanConsts.decimal.Q0 _ _ (by norm_num [AtanConsts.decimal]) (by norm_num [AtanConsts.decimal])
  · exact literal_between 53 p hp hp' AtanConsts.decimal.Q1 _ _ (by norm_num [AtanConsts.decimal]) (by norm_num [AtanConsts.decimal])
  · exact literal_between 53 p hp hp' AtanConsts.decimal.Q2 _ _ (by norm_num [AtanConsts.decimal]) (by norm_num [AtanConsts.decimal])
  · exact literal_between 53 p hp hp' AtanConsts.decimal.Q3 _ _ (by norm_num [AtanConsts.decimal]) (by norm_num [AtanConsts.decimal])
  · exact literal_between 53 p hp hp' AtanConsts.decimal.Q4 _ _ (by norm_num [AtanConsts.decimal]) (by norm_num [AtanConsts.decimal])
  · exact literal_between 53 p hp hp' AtanConsts.decimal.morebits _ _ (by norm_num [AtanConsts.decimal]) (by norm_num [AtanConsts.decimal])
  · exact literal_between 53 p hp hp' AtanConsts.decimal.low _ _ (by norm_num [AtanConsts.decimal]) (by norm_num [AtanConsts.decimal])
  · exact literal_between 53 p hp hp' AtanConsts.decimal.high _ _ (by norm_num [AtanConsts.decimal]) (by norm_num [AtanConsts.decimal])
  · exact literal_between 53 p hp hp' AtanConsts.decimal.half _ _ (by norm_num [AtanConsts.decimal]) (by norm_num [AtanConsts.decimal])
  · exact literal_between l p hp hl AtanConsts.decimal.pi _ _ (by norm_num [AtanConsts.decimal]) (by norm_num [AtanConsts.decimal])
  · exact literal_between l p hp hl AtanConsts.decimal.halfPi _ _ (by norm_num [AtanConsts.decimal]) (by norm_num [AtanConsts.decimal])
  · exact literal_between l p hp hl AtanConsts.decimal.fourthPi _ _ (by norm_num [AtanConsts.decimal]) (by norm_num [AtanConsts.decimal])

section
variable {F : Format} (W : Wide F)
include W

theorem is_literal [NeZero F.p] (b : Binary F.p) (h1 : 1 / 2 ^ 60 ≤ |b.val|) (h2 : |b.val| ≤ 4096) : Is (Ieee.literal b.val : Ieee F) b.val := by
  have e : roundTo F b.val = b.val := by
    rw [agree W _ (Or.inr ((tiny W).1.trans h1)), Binary.round_self]
  have hf : (Ieee.literal b.val : Ieee F).Finite := (pack_finite _ _).mpr (by rw [e]; exact h2.trans_lt W.room)
  refine ⟨hf, pack_valid W.pos _ _, ?_⟩
  show (pack _ _ : Ieee F).val = _
  rw [pack_val W.pos _ _ hf, signed_decide, e]

theorem matching [NeZero F.p] (l : ℕ) (hp' : F.p ≤ 53) (hl : F.p ≤ l) : Match (AtanConsts.ieee l F) (values l F.p) := by
  have S := sizes l F.p W.p hp' hl
  have pos : ∀ {v lo hi : ℚ}, lo ≤ v ∧ v ≤ hi → 1 / 2 ^ 60 ≤ lo → hi ≤ 4096 → 1 / 2 ^ 60 ≤ |v| ∧ |v| ≤ 4096 := by
    intro v lo hi h h1 h2
    have : (0 : ℚ) < 1 / 2 ^ 60 := by positivity
    rw [abs_of_nonneg (by linarith [h.1])]
    constructor <;> linarith [h.1, h.2]
  have neg : ∀ {v lo hi : ℚ}, lo ≤ v ∧ v ≤ hi → hi ≤ -1 / 2 → -4096 ≤ lo → 1 / 2 ^ 60 ≤ |v| ∧ |v| ≤ 4096 := by
    intro v lo hi h h1 h2
    have : (1 : ℚ) / 2 ^ 60 ≤ 1 / 2 := by norm_num
    rw [abs_of_nonpos (by linarith [h.2])]
    constructor <;> linarith [h.1, h.2]
  constructor
  · exact is_literal W _ (neg S.P0 (by norm_num) (by norm_num)).1 (neg S.P0 (by norm_num) (by norm_num)).2
  · exact is_literal W _ (neg S.P1 (by norm_num) (by norm_num)).1 (neg S.P1 (by norm_num) (by norm_num)).2
  · exact is_literal W _ (neg S.P2 (by norm_num) (by norm_num)).1 (neg S.P2 (by norm_num) (by norm_num)).2
  · exact is_literal W _ (neg S.P3 (by norm_num) (by norm_num)).1 (neg S.P3 (by norm_num) (by norm_num)).2
  · exact is_literal W _ (neg S.P4 (by norm_num) (by norm_num)).1 (neg S.P4 (by norm_num) (by norm_num)).2
  · exact is_literal W _ (pos S.Q0 (by norm_num) (by norm_num)).1 (pos S.Q0 (by norm_num) (by norm_num)).2
  · exact is_literal W _ (pos S.Q1 (by norm_num) (by norm_num)).1 (pos S.Q1 (by norm_num) (by norm_num)).2
  · exact is_literal W _ (pos S.Q2 (by norm_num) (by norm_num)).1 (pos S.Q2 (by norm_num) (by norm_num)).2
  · exact is_literal W _ (pos S.Q3 (by norm_num) (by norm_num)).1 (pos S.Q3 (by norm_num) (by norm_num)).2
  · exact is_literal W _ (pos S.Q4 (by norm_num) (by norm_num)).1 (pos S.Q4 (by norm_num) (by norm_num)).2
  · exact is_literal W _ (pos S.morebits (by norm_num) (by norm_num)).1 (pos S.morebits (by norm_num) (by norm_num)).2
  · exact is_literal W _ (pos S.low (by norm_num) (by norm_num)).1 (pos S.low (by norm_num) (by norm_num)).2
  · exact is_literal W _ (pos S.high (by norm_num) (by norm_num)).1 (pos S.high (by norm_num) (by norm_num)).2
  · exact is_literal W _ (pos S.half (by norm_num) (by norm_num)).1 (pos S.half (by norm_num) (by norm_num)).2
  · exact is_literal W _ (pos S.pi (by norm_num) (by norm_num)).1 (pos S.pi (by norm_num) (by norm_num)).2
  · exact is_literal W _ (pos S.halfPi (by norm_num) (by norm_num)).1 (pos S.halfPi (by norm_num) (by norm_num)).2
  · exact is_literal W _ (pos S.fourthPi (by norm_num) (by norm_num)).1 (pos S.fourthPi (by norm_num) (by norm_num)).2

omit W in
/-- The arithmetic without limits does the same as the rounding without limits. -/
theorem binary_atan' (p : ℕ) [NeZero p] (c : AtanConsts (Binary p)) (x : Binary p) : (atan c x).val = atanQ (Binary.round p) (c.map Binary.val Binary.val) x.val := by
  have kernel : ∀ x : Binary p, (atanKernel c x).val = kernelQ (Binary.round p) (c.map Binary.val Binary.val) x.val := fun _ => rfl
  have key : ∀ x : Binary p, (atanApprox c x).val = approxQ (Binary.round p) (c.map Binary.val Binary.val) x.val := by
    intro x
    unfold atanApprox approxQ
    by_cases h1 : x.val ≤ c.low.val
    · rw [if_pos (show x ≤ c.low from h1), if_pos (show x.val ≤ (c.map Binary.val Binary.val).low from h1)]
      rfl
    rw [if_neg (show ¬x ≤ c.low from h1), if_neg (show ¬x.val ≤ (c.map Binary.val Binary.val).low from h1)]
    have hlt : x > c.high ↔ c.high.val < x.val := by
      rw [gt_iff_lt, ← not_le, ← not_le]
      rfl
    by_cases h2 : c.high.val < x.val
    · rw [if_pos (hlt.mpr h2), if_pos (show (c.map Binary.val Binary.val).high < x.val from h2)]
      show Binary.round p (Binary.round p (c.halfPi.val + c.morebits.val) - (atanKernel c (((1 : ℤ) : Binary p) / x)).val) = _
      rw [kernel]
      exact congrArg (fun z => Binary.round p (Binary.round p (c.halfPi.val + c.morebits.val) - kernelQ (Binary.round p) (c.map Binary.val Binary.val) z)) rfl
    · rw [if_neg (fun h => h2 (hlt.mp h)), if_neg (show ¬(c.map Binary.val Binary.val).high < x.val from h2)]
      show Binary.round p (Binary.round p (c.fourthPi.val + Binary.round p (c.half.val * c.morebits.val)) + (atanKernel c ((x - ((1 : ℤ) : Binary p)) / (x + ((1 : ℤ) : Binary p)))).val) = _
      rw [kernel]
      exact congrArg (fun z => Binary.round p (Binary.round p (c.fourthPi.val + Binary.round p (c.half.val * c.morebits.val)) + kernelQ (Binary.round p) (c.map Binary.val Binary.val) z)) rfl
  unfold atan atanQ
  by_cases h : 0 ≤ x.val
  · rw [if_pos (show x ≥ 0 from h), if_pos h]
    exact key x
  · rw [if_neg (show ¬x ≥ 0 from h), if_neg h]
    show -(atanApprox c (-x)).val = _
    rw [key]
    rfl

omit W in
theorem binary_atan (l p : ℕ) [NeZero p] (x : Binary p) : (atan (AtanConsts.binary l p) x).val = atanQ (Binary.round p) (values l p) x.val := binary_atan' p _ x

/-- The number of the unlimited type. -/
def toBinary {x : Ieee F} {v : ℚ} (h : Is x v) : Binary F.p := ⟨v, (Is.fits h).1⟩

variable [NeZero F.p] (l : ℕ) (hp' : F.p ≤ 53) (hl : F.p ≤ l)
include hp' hl

/-- For finite numbers the limits of the range do not matter. -/
theorem atan_finite {x : Ieee F} {v : ℚ} (hx : Is x v) : Is (atanIeee (AtanConsts.ieee l F) x) (atanQ (Binary.round F.p) (values l F.p) v) := by
  rw [← atan_agree W (sizes l F.p W.p hp' hl) (Is.fits hx)]
  exact is_atan W (matching W l hp' hl) (sizes l F.p W.p hp' hl) hx

/-- Small numbers are their own angles. -/
theorem atan_small {v : ℚ} (hv : |v| ≤ 1 / 2 ^ F.p) (hf : Fits F v) : atanQ (Binary.round F.p) (values l F.p) v = v := by
  have S := sizes l F.p W.p hp' hl
  have hp := W.p
  have t1 := (tau W).2
  have key : ∀ w : ℚ, 0 ≤ w → |w| ≤ 1 / 2 ^ F.p → Fits F w → approxQ (Binary.round F.p) (values l F.p) w = w := by
    intro w h0 hw hf
    unfold approxQ
    rw [if_pos (by rw [abs_of_nonneg h0] at hw; linarith [S.low.1])]
    exact kernel_small (rounding_binary W) S (by omega) (near_binary W) hw hf.1 ⟨w, (round_of_representable _ _ hf.1).symm⟩
  unfold atanQ
  split_ifs with h
  · exact key v h hv hf
  · rw [key (-v) (by linarith) (by rwa [abs_neg]), neg_neg]
    have := roundTo_fits W.pos (F := F) (-v)
    rwa [roundTo_neg, roundTo_of_fits W.pos v hf] at this

/-- Large numbers have the angle of infinity. -/
theorem atan_large {v : ℚ} (hv : 8 * 2 ^ F.p ≤ v) : atanQ (Binary.round F.p) (values l F.p) v = Binary.round F.p ((values l F.p).halfPi + (values l F.p).morebits) := by
  have S := sizes l F.p W.p hp' hl
  have hp := W.p
  have hb := W.big
  have R := rounding_binary W
  have one2 : Binary.round F.p ((1 : ℤ) : ℚ) = 1 := by rw [R.int 1 (by norm_num)]; norm_num
  have hv0 : 0 < v := by linarith
  have s2 : |Binary.round F.p (1 / v)| ≤ 1 / 2 ^ F.p / 4 := by
    refine (R.double _).trans ?_
    rw [abs_of_nonneg (by positivity)]
    have : 1 / v ≤ 1 / (8 * 2 ^ F.p) := by gcongr
    have e : (1 : ℚ) / (8 * 2 ^ F.p) = 1 / 2 ^ F.p / 8 := by rw [div_div, mul_comm]
    linarith
  have hS : 1 ≤ Binary.round F.p ((values l F.p).halfPi + (values l F.p).morebits) := by
    have := R.mono _ _ (show ((1 : ℤ) : ℚ) ≤ (values l F.p).halfPi + (values l F.p).morebits by
      have := S.morebits.1
      have : (0 : ℚ) ≤ 1 / 2 ^ 55 := by positivity
      push_cast
      linarith [S.halfPi.1])
    rw [one2] at this
    exact this
  have u0 := (tau W).1
  unfold atanQ approxQ
  rw [if_pos hv0.le, if_neg (by linarith [S.low.2]), if_pos (by linarith [S.high.2]), one2,
    kernel_small R S (by omega) (near_binary W) (s2.trans (by linarith)) (round_representable _ W.pos _) ⟨_, rfl⟩, absorb R W.pos (near_binary W) hS s2]

/-- The angle of infinity. -/
theorem atan_inf : Is (atanIeee (AtanConsts.ieee l F) (inf false)) (Binary.round F.p ((values l F.p).halfPi + (values l F.p).morebits)) ∧
    Is (atanIeee (AtanConsts.ieee l F) (inf true)) (-Binary.round F.p ((values l F.p).halfPi + (values l F.p).morebits)) := by
  have S := sizes l F.p W.p hp' hl
  have M := matching W l hp' hl
  have R := rounding_ieee W
  have t1 := (tiny W).1
  have hz : Is (((1 : ℤ) : Ieee F) / inf false) 0 := by
    obtain ⟨s, m, e⟩ := (finite_iff _).mp (is_one W).1
    rw [e]
    show Is (num (s ^^ false) 0 : Ieee F) 0
    refine ⟨trivial, valid_of_fits _ 0 le_rfl (by positivity) (fits_zero W), ?_⟩
    exact signed_zero _
  obtain ⟨ik, -⟩ := is_kernel W M S hz (by norm_num)
  have k0 : kernelQ (roundTo F) (values l F.p) 0 = 0 :=
    kernel_small R S (by have := W.p; omega) (near_ieee W) (by rw [abs_zero]; positivity) (fits_zero W).1 ⟨0, R.at_zero.symm⟩
  rw [k0] at ik
  have mb : 0 ≤ (values l F.p).morebits ∧ (values l F.p).morebits ≤ 1 := ⟨le_trans (by positivity) S.morebits.1, S.morebits.2.trans (by norm_num)⟩
  have hb := R.between 2 6 (by norm_num) (by norm_num) (v := (values l F.p).halfPi + (values l F.p).morebits) (by push_cast; linarith [S.halfPi.1]) (by push_cast; linarith [S.halfPi.2])
  push_cast at hb
  have ih := Is.add W M.halfPi M.morebits (by rw [abs_le]; constructor <;> linarith [hb.1, hb.2])
  have eH : roundTo F ((values l F.p).halfPi + (values l F.p).morebits) = Binary.round F.p ((values l F.p).halfPi + (values l F.p).morebits) :=
    agree W _ (Or.inr (t1.trans (le_trans (by norm_num) ((by linarith [S.halfPi.1] : (3 : ℚ) / 2 ≤ _).trans (le_abs_self _)))))
  have is := Is.sub W ih ik (by rw [sub_zero, roundTo_of_fits W.pos _ (roundTo_fits W.pos _), abs_le]; constructor <;> linarith [hb.1, hb.2])
  rw [sub_zero, roundTo_of_fits W.pos _ (roundTo_fits W.pos _), eH] at is
  have key : Is (atanApproxIeee (AtanConsts.ieee l F) (inf false)) (Binary.round F.p ((values l F.p).halfPi + (values l F.p).morebits)) := by
    unfold atanApproxIeee
    obtain ⟨s, m, e⟩ := (finite_iff _).mp M.low.1
    obtain ⟨s', m', e'⟩ := (finite_iff _).mp M.high.1
    rw [e, e', if_neg (by simp [Ieee.leq, Ieee.less]), if_pos (by simp [Ieee.less])]
    exact is
  constructor
  · unfold atanIeee
    rw [if_pos (by rfl)]
    exact key
  · unfold atanIeee
    rw [if_neg (by rw [show Ieee.leq (0 : Ieee F) (inf true) = false from rfl]; exact Bool.false_ne_true)]
    exact key.neg

omit hp' hl [NeZero F.p] W in
theorem add_nan (a : Ieee F) : a + nan = nan := by cases a <;> rfl

omit hp' hl [NeZero F.p] W in
theorem kernel_nan (c : AtanConsts (Ieee F)) : atanKernel c nan = nan := rfl

omit hp' hl [NeZero F.p] W in
theorem atan_nan (c : AtanConsts (Ieee F)) : atanIeee c nan = nan := by
  have h1 : ∀ a : Ieee F, Ieee.less a nan = false := by intro a; cases a <;> rfl
  have h2 : ∀ a : Ieee F, Ieee.leq nan a = false := fun a => rfl
  have key : atanApproxIeee c nan = nan := by
    unfold atanApproxIeee
    rw [h2, h1, if_neg Bool.false_ne_true, if_neg Bool.false_ne_true]
    exact add_nan _
  unfold atanIeee
  rw [if_neg (by rw [show Ieee.leq (0 : Ieee F) nan = false from rfl]; exact Bool.false_ne_true)]
  show -atanApproxIeee c nan = nan
  rw [key]
  rfl

/-- The angle of infinity against `π / 2`. -/
theorem half_turn : |((Binary.round F.p ((values l F.p).halfPi + (values l F.p).morebits) : ℚ) : ℝ) - Real.pi / 2| ≤ 8.6 / 2 ^ F.p + 1.86 / 10 ^ 16 := by
  have hc := binary_atanConsts l F.p hp' hl
  obtain ⟨-, hh, -⟩ := Atan.pi_const
  have hu : (1 : ℝ) / 2 ^ F.p ≤ 0.000000953675 := (unit_le' F.p W.p).trans (by norm_num)
  have hu0 : (0 : ℝ) ≤ 1 / 2 ^ F.p := by positivity
  have cH : |((values l F.p).halfPi : ℝ) - Real.pi / 2| ≤ 3.1416 * (1 / 2 ^ F.p) + 1 / 10 ^ 19 := by
    have h1 := hc.halfPi
    rw [abs_of_pos (by unfold Const.halfPi; norm_num : 0 < Const.halfPi)] at h1
    have h2 : Const.halfPi ≤ 1.5708 := by unfold Const.halfPi; norm_num
    have h3 : |((values l F.p).halfPi : ℝ) - Const.halfPi| ≤ 2 * (1 / 2 ^ F.p) * Const.halfPi := h1
    have := abs_add_le (((values l F.p).halfPi : ℝ) - Const.halfPi) (Const.halfPi - Real.pi / 2)
    rw [sub_add_sub_cancel] at this
    nlinarith
  have cm : |((values l F.p).morebits : ℝ) - 6.123233995736765886130E-17| ≤ 2 * (1 / 2 ^ F.p) * |(6.123233995736765886130E-17 : ℝ)| := hc.morebits
  rw [abs_of_pos (by norm_num : (0 : ℝ) < 6.123233995736765886130E-17)] at cm
  have cm' := abs_le.mp cm
  have um : (1 : ℝ) / 2 ^ F.p * 6.123233995736765886130E-17 ≤ 0.001 / 10 ^ 17 := by
    have : (1 : ℝ) / 2 ^ F.p * 6.123233995736765886130E-17 ≤ 0.000000953675 * 6.123233995736765886130E-17 := by gcongr
    norm_num at this ⊢
    linarith
  have hs : |((Binary.round F.p ((values l F.p).halfPi + (values l F.p).morebits) : ℚ) : ℝ) - ((values l F.p).halfPi + (values l F.p).morebits)| ≤
      1 / 2 ^ F.p * |((values l F.p).halfPi : ℝ) + (values l F.p).morebits| := by
    have := round_error F.p ((values l F.p).halfPi + (values l F.p).morebits)
    rw [one_div_mul_eq_div]
    exact_mod_cast this
  have m0 : 0 ≤ ((values l F.p).morebits : ℝ) ∧ ((values l F.p).morebits : ℝ) ≤ 6.125 / 10 ^ 17 := by
    clear hs hc cm hh cH
    generalize (1 : ℝ) / 2 ^ F.p = u at *
    generalize ((values l F.p).morebits : ℝ) = m at *
    obtain ⟨c1, c2⟩ := cm'
    constructor
    · clear c2
      norm_num at c1 um hu ⊢
      linarith
    · clear c1
      norm_num at c2 um hu ⊢
      linarith
  have := upper_range (k := 0) (A := 0) (B := 0) hu0 hu cH m0.1 m0.2 hs le_rfl (by norm_num) (by rw [sub_zero, abs_zero]; positivity) (by rw [sub_zero, abs_zero]; positivity)
    (v := ((Binary.round F.p ((values l F.p).halfPi + (values l F.p).morebits) : ℚ) : ℝ)) (by rw [sub_zero, sub_self, abs_zero]; positivity)
  rw [sub_zero, mul_one_div] at this
  exact this

/-! ### Two arguments -/

/-- atan2.hh:66-70 -/
def finish (ρ : ℚ → ℚ) (pi φ w : ℚ) : ℚ := if w < 0 then (if 0 < φ then ρ (φ - pi) else ρ (φ + pi)) else φ

omit hp' hl [NeZero F.p] in
theorem zero_is : Is (0 : Ieee F) 0 := by
  refine ⟨trivial, valid_of_fits false 0 le_rfl (by positivity) (fits_zero W), ?_⟩
  show signed false 0 = 0
  simp [signed]

/-- The angle is less than two. -/
theorem atan_le_two (v : ℚ) (hv : Representable F.p v) : |atanQ (Binary.round F.p) (values l F.p) v| ≤ 2 := by
  have h := (C79_atan l F.p W.p hp' hl ⟨v, hv⟩).1
  rw [binary_atan] at h
  have hu : (1 : ℝ) / 2 ^ F.p ≤ 0.000000953675 := (unit_le' F.p W.p).trans (by norm_num)
  have h1 := Real.arctan_lt_pi_div_two (v : ℝ)
  have h2 := Real.neg_pi_div_two_lt_arctan (v : ℝ)
  have h3 := Real.pi_lt_d2
  have h4 := abs_le.mp h
  rw [← mul_one_div 8.6] at h4
  have h5 : |((atanQ (Binary.round F.p) (values l F.p) v : ℚ) : ℝ)| ≤ ((2 : ℚ) : ℝ) := by
    push_cast
    have h6 : (1.86 : ℝ) / 10 ^ 16 ≤ 0.001 := by norm_num
    have h7 : 8.6 * ((1 : ℝ) / 2 ^ F.p) ≤ 0.001 := by linarith
    have h8 : (Real.arctan (v : ℝ)) ≤ 1.58 := by linarith
    have h9 : -1.58 ≤ (Real.arctan (v : ℝ)) := by linarith
    have k1 := h4.1
    have k2 := h4.2
    rw [abs_le]
    constructor <;> linarith
  exact_mod_cast h5

theorem is_finish {ph x : Ieee F} {φ w : ℚ} (hph : Is ph φ) (hφ : |φ| ≤ 2) (hx : Ieee.less x 0 = true ↔ w < 0) :
    Is (if Ieee.less x 0 then (if Ieee.less 0 ph then ph - (AtanConsts.ieee l F).pi else ph + (AtanConsts.ieee l F).pi) else ph) (finish (Binary.round F.p) (values l F.p).pi φ w) := by
  have S := sizes l F.p W.p hp' hl
  have M := matching W l hp' hl
  have R := rounding_ieee W
  have hφ' := abs_le.mp hφ
  unfold finish
  by_cases hw : w < 0
  · rw [if_pos (hx.mpr hw), if_pos hw]
    by_cases h0 : 0 < φ
    · rw [if_pos ((less_iff (zero_is W) hph).mpr h0), if_pos h0]
      have hb := R.between (-12) 12 (by norm_num) (by norm_num) (v := φ - (values l F.p).pi) (by push_cast; linarith [S.pi.2, hφ'.1]) (by push_cast; linarith [S.pi.1, hφ'.2])
      push_cast at hb
      have := Is.sub W hph M.pi (by rw [abs_le]; constructor <;> linarith [hb.1, hb.2])
      rwa [sub_eq_add_neg φ, agree_grid W _ _ (Is.fits hph) (Is.fits M.pi.neg), ← sub_eq_add_neg] at this
    · rw [if_neg (fun h => h0 ((less_iff (zero_is W) hph).mp h)), if_neg h0]
      have hb := R.between (-12) 12 (by norm_num) (by norm_num) (v := φ + (values l F.p).pi) (by push_cast; linarith [S.pi.1, hφ'.1]) (by push_cast; linarith [S.pi.2, hφ'.2])
      push_cast at hb
      have := Is.add W hph M.pi (by rw [abs_le]; constructor <;> linarith [hb.1, hb.2])
      rwa [agree_grid W _ _ (Is.fits hph) (Is.fits M.pi)] at this
  · rw [if_neg (fun h => hw (hx.mp h)), if_neg hw]
    exact hph

omit W hp' hl in
theorem binary_atan2 (neg : Bool) (y x : Binary F.p) (hy : y.val ≠ 0) (hx : x.val ≠ 0) :
    (atan2 (AtanConsts.binary l F.p) neg y x).val = finish (Binary.round F.p) (values l F.p).pi (atanQ (Binary.round F.p) (values l F.p) (Binary.round F.p (y.val / x.val))) x.val := by
  have hy' : y ≠ 0 := fun h => hy (by rw [h]; rfl)
  have hx' : x ≠ 0 := fun h => hx (by rw [h]; rfl)
  have hl1 : x < 0 ↔ x.val < 0 := by rw [← not_le, ← not_le]; rfl
  have hl2 : ∀ a : Binary F.p, a > 0 ↔ 0 < a.val := fun a => by rw [gt_iff_lt, ← not_le, ← not_le]; rfl
  have hq : (y / x).val = Binary.round F.p (y.val / x.val) := rfl
  have ha := binary_atan l F.p (y / x)
  rw [hq] at ha
  unfold atan2 finish
  rw [if_neg hy', if_neg hx', ← ha]
  show Binary.val (if x < 0 then if atan (AtanConsts.binary l F.p) (y / x) > 0 then _ else _ else _) = _
  by_cases c1 : x.val < 0
  · rw [if_pos (hl1.mpr c1), if_pos c1]
    by_cases c2 : 0 < (atan (AtanConsts.binary l F.p) (y / x)).val
    · rw [if_pos ((hl2 _).mpr c2), if_pos c2]
      rfl
    · rw [if_neg (fun h => c2 ((hl2 _).mp h)), if_neg c2]
      rfl
  · rw [if_neg (fun h => c1 (hl1.mp h)), if_neg c1]

/-- A sum with a tiny number. -/
theorem pi_absorbs {s : ℚ} (hs : |s| ≤ 1 / 2 ^ F.p / 4) : Binary.round F.p (s - (values l F.p).pi) = -(values l F.p).pi ∧ Binary.round F.p (s + (values l F.p).pi) = (values l F.p).pi := by
  have S := sizes l F.p W.p hp' hl
  have M := matching W l hp' hl
  have e : Binary.round F.p (values l F.p).pi = (values l F.p).pi := round_of_representable _ _ (Is.fits M.pi).1
  have R := rounding_binary W
  have key : ∀ s : ℚ, |s| ≤ 1 / 2 ^ F.p / 4 → Binary.round F.p ((values l F.p).pi - s) = (values l F.p).pi := by
    intro s hs
    have := absorb R W.pos (near_binary W) (w := (values l F.p).pi) (by rw [e]; linarith [S.pi.1]) hs
    rwa [e] at this
  constructor
  · rw [show s - (values l F.p).pi = -((values l F.p).pi - s) by ring, Binary.round_neg, key s hs]
  · rw [show s + (values l F.p).pi = (values l F.p).pi - -s by ring, key (-s) (by rwa [abs_neg])]

omit W in
theorem pi_near : |((values l F.p).pi : ℝ) - Real.pi| ≤ 6.2832 / 2 ^ F.p + 1 / 10 ^ 19 := by
  have hc : |((values l F.p).pi : ℝ) - Const.pi| ≤ 2 * (1 / 2 ^ F.p) * |Const.pi| := (binary_atanConsts l F.p hp' hl).pi
  obtain ⟨hp, -, -⟩ := Atan.pi_const
  rw [abs_of_pos (by unfold Const.pi; norm_num : 0 < Const.pi)] at hc
  have vP : Const.pi ≤ 3.1416 := by unfold Const.pi; norm_num
  have hu : (0 : ℝ) ≤ 1 / 2 ^ F.p := by positivity
  rw [show ((values l F.p).pi : ℝ) - Real.pi = (((values l F.p).pi : ℝ) - Const.pi) + (Const.pi - Real.pi) by ring]
  refine (abs_add_le _ _).trans (add_le_add (hc.trans ?_) hp)
  rw [← mul_one_div 6.2832]
  nlinarith

omit hp' hl [NeZero F.p] W in
theorem beq_zero_iff {a : Ieee F} (ha : a.Finite) : (a == 0) = true ↔ a.val = 0 := by
  obtain ⟨s, m, rfl⟩ := (finite_iff a).mp ha
  show decide (signed s m = signed false 0) = true ↔ signed s m = 0
  rw [decide_eq_true_eq, signed_zero]

omit hp' hl [NeZero F.p] W in
/-- Nothing is lost by the quotient: it is zero only if the exact one is at most half of the smallest number. -/
theorem quotient_zero {v : ℚ} (h : roundTo F v = 0) (hs : |v| < 2 ^ (F.emin + F.p)) : |v| ≤ 2 ^ F.emin / 2 := by
  have hq : (0 : ℚ) < 2 ^ F.emin := by positivity
  rw [roundTo_small v hs] at h
  have h1 : (nearest (v / 2 ^ F.emin) : ℚ) = 0 := by
    rcases mul_eq_zero.mp h with h | h
    · exact h
    · exact absurd h hq.ne'
  have h2 := nearest_near (v / 2 ^ F.emin)
  rw [h1, zero_sub, abs_neg, abs_div, abs_of_pos hq, div_le_iff₀ hq] at h2
  linarith

/-- The rest of `atan2` for a quotient that is finite or not. -/
theorem atan2_general (sign : Bool) {y x : Ieee F} (hy : (y == 0) = false) (hx : (x == 0) = false) :
    atan2Ieee (AtanConsts.ieee l F) sign y x =
      if Ieee.less x 0 then (if Ieee.less 0 (atanIeee (AtanConsts.ieee l F) (y / x)) then atanIeee (AtanConsts.ieee l F) (y / x) - (AtanConsts.ieee l F).pi
        else atanIeee (AtanConsts.ieee l F) (y / x) + (AtanConsts.ieee l F).pi) else atanIeee (AtanConsts.ieee l F) (y / x) := by
  unfold atan2Ieee
  rw [hy, hx, if_neg Bool.false_ne_true, if_neg Bool.false_ne_true]

omit hp' hl W in
theorem odd_atanQ (v : ℚ) (hv : v ≠ 0) : atanQ (Binary.round F.p) (values l F.p) (-v) = -atanQ (Binary.round F.p) (values l F.p) v := by
  unfold atanQ
  rcases lt_or_gt_of_ne hv with h | h
  · rw [if_pos (by linarith), if_neg (by linarith), neg_neg]
  · rw [if_neg (by linarith), if_pos h.le, neg_neg]

/-- The angle of the quotient, with its value. -/
theorem phase {y x : Ieee F} {v w : ℚ} (hy : Is y v) (hx : Is x w) (hv : v ≠ 0) (hw : w ≠ 0) :
    ∃ φ : ℚ, Is (atanIeee (AtanConsts.ieee l F) (y / x)) φ ∧ |φ| ≤ 2 ∧
      ((2 : ℚ) ^ (F.emin + F.p - 1) ≤ |v / w| → φ = atanQ (Binary.round F.p) (values l F.p) (Binary.round F.p (v / w))) ∧ (|v / w| ≤ 1 / 2 ^ F.p / 8 → φ = roundTo F (v / w) ∧ |φ| ≤ 1 / 2 ^ F.p / 4) := by
  have hp := W.p
  have u0 := (tau W).1
  have u1 := (tau W).2
  by_cases hfin : |roundTo F (v / w)| < 2 ^ F.emax
  · have hd : Is (y / x) (roundTo F (v / w)) := by
      obtain ⟨f1, v1, rfl⟩ := hy
      obtain ⟨f2, v2, rfl⟩ := hx
      have hf := (div_finite y x f1 f2 hw).mpr hfin
      exact ⟨hf, div_valid W.pos y x, div_val W.pos y x f1 f2 v1 v2 hf hw⟩
    have ha := atan_finite W l hp' hl hd
    refine ⟨_, ha, atan_le_two W l hp' hl _ (Is.fits hd).1, fun h => by rw [roundTo_normal _ h], fun h => ?_⟩
    have hs : |roundTo F (v / w)| ≤ 1 / 2 ^ F.p / 4 := by
      have := (rounding_ieee W).double (v / w)
      linarith
    have e := atan_small W l hp' hl (v := roundTo F (v / w)) (by linarith) (Is.fits hd)
    rw [e]
    exact ⟨rfl, hs⟩
  · push Not at hfin
    have hroom := W.room
    have hnot : ¬|v / w| ≤ 1 / 2 ^ F.p / 8 := by
      intro h
      have := (rounding_ieee W).double (v / w)
      linarith
    have hbig : (8 : ℚ) * 2 ^ F.p ≤ |Binary.round F.p (v / w)| ∧ roundTo F (v / w) = Binary.round F.p (v / w) := by
      have h2 : (1 : ℚ) ≤ |v / w| := by
        have := (rounding_ieee W).double (v / w)
        linarith
      have e := agree W (v / w) (Or.inr ((tiny W).1.trans (le_trans (by norm_num) h2)))
      rw [← e]
      refine ⟨le_trans ?_ hfin, rfl⟩
      have h1 := W.emax_big
      calc (8 : ℚ) * 2 ^ F.p = 2 ^ ((F.p : ℤ) + 3) := by rw [zpow_add₀ (by norm_num), zpow_natCast]; norm_num [mul_comm]
        _ ≤ 2 ^ F.emax := zpow_le_zpow_right₀ (by norm_num) h1
    obtain ⟨i1, i2⟩ := atan_inf W l hp' hl
    have hdiv : y / x = inf (decide (v / w < 0)) := by
      obtain ⟨f1, v1, rfl⟩ := hy
      obtain ⟨f2, v2, rfl⟩ := hx
      obtain ⟨s, m, rfl⟩ := (finite_iff y).mp f1
      obtain ⟨t, n, rfl⟩ := (finite_iff x).mp f2
      have hm : 0 < m := lt_of_le_of_ne v1.1 (fun h => hv (by rw [← h]; exact signed_zero s))
      have hn : 0 < n := lt_of_le_of_ne v2.1 (fun h => hw (by rw [← h]; exact signed_zero t))
      have e1 : (num s m : Ieee F).val / (num t n : Ieee F).val = signed (s ^^ t) (m / n) := signed_div s t m n
      rw [e1] at hfin ⊢
      have e2 : |roundTo F (m / n)| = |roundTo F (signed (s ^^ t) (m / n))| := by
        rw [← signed_round, signed_abs]
      show (if n = 0 then (if m = 0 then nan else inf (s ^^ t)) else pack (s ^^ t) (m / n)) = _
      rw [if_neg hn.ne', pack_cases, if_pos (by rw [e2]; exact hfin)]
      have hpos : 0 < m / n := by positivity
      congr 1
      cases s <;> cases t <;> simp [signed, hpos, hpos.le, hpos.not_gt]
    have hne : v / w ≠ 0 := div_ne_zero hv hw
    have key : Is (atanIeee (AtanConsts.ieee l F) (y / x)) (atanQ (Binary.round F.p) (values l F.p) (Binary.round F.p (v / w))) := by
      rw [hdiv]
      rcases lt_or_gt_of_ne hne with h | h
      · have hr : Binary.round F.p (v / w) ≤ 0 := by
          have := (rounding_binary W).mono _ _ h.le
          rwa [(rounding_binary W).at_zero] at this
        have h8 : 8 * 2 ^ F.p ≤ -Binary.round F.p (v / w) := by rw [← abs_of_nonpos hr]; exact hbig.1
        have hne' : Binary.round F.p (v / w) ≠ 0 := by
          intro h0
          rw [h0, neg_zero] at h8
          have : (0 : ℚ) < 8 * 2 ^ F.p := by positivity
          linarith
        have e := atan_large W l hp' hl h8
        rw [odd_atanQ l _ hne'] at e
        rw [decide_eq_true h, show atanQ (Binary.round F.p) (values l F.p) (Binary.round F.p (v / w)) = -Binary.round F.p ((values l F.p).halfPi + (values l F.p).morebits) by rw [← e, neg_neg]]
        exact i2
      · have hr : 0 ≤ Binary.round F.p (v / w) := by
          have := (rounding_binary W).mono _ _ h.le
          rwa [(rounding_binary W).at_zero] at this
        have h8 : 8 * 2 ^ F.p ≤ Binary.round F.p (v / w) := by rw [← abs_of_nonneg hr]; exact hbig.1
        rw [decide_eq_false h.not_gt, atan_large W l hp' hl h8]
        exact i1
    exact ⟨_, key, atan_le_two W l hp' hl _ (round_representable _ W.pos _), fun _ => rfl, fun h => absurd h hnot⟩

omit hp' hl [NeZero F.p] W in
theorem arg_upper (y x : ℝ) (hx : x < 0) (hy : 0 < y) : Complex.arg ⟨x, y⟩ = Real.arctan (y / x) + Real.pi := by
  have h := Complex.arg_neg_eq_arg_sub_pi_of_im_pos (x := ⟨x, y⟩) hy
  have e : (-⟨x, y⟩ : ℂ) = ⟨-x, -y⟩ := rfl
  rw [e, Atan.arg_right _ _ (by linarith), neg_div_neg_eq] at h
  linarith

omit hp' hl [NeZero F.p] W in
theorem arg_lower (y x : ℝ) (hx : x < 0) (hy : y < 0) : Complex.arg ⟨x, y⟩ = Real.arctan (y / x) - Real.pi := by
  have h := Complex.arg_neg_eq_arg_add_pi_of_im_neg (x := ⟨x, y⟩) hy
  have e : (-⟨x, y⟩ : ℂ) = ⟨-x, -y⟩ := rfl
  rw [e, Atan.arg_right _ _ (by linarith), neg_div_neg_eq] at h
  linarith

/-- Below the normal numbers. -/
theorem subnormal_small {v : ℚ} (h : |v| < 2 ^ (F.emin + F.p - 1)) : |v| ≤ 1 / 2 ^ F.p / 8 := by
  have h1 := W.emin
  have h2 := W.p
  refine h.le.trans ?_
  have e : (1 : ℚ) / 2 ^ F.p / 8 = 2 ^ (-(F.p : ℤ) - 3) := by
    rw [zpow_sub₀ (by norm_num), zpow_neg, zpow_natCast, one_div]
    norm_num
  rw [e]
  exact zpow_le_zpow_right₀ (by norm_num) (by omega)

theorem less_zero_iff {x : Ieee F} {w : ℚ} (hx : Is x w) : Ieee.less x 0 = true ↔ w < 0 := less_iff hx (zero_is W)

theorem pi_sign : ∃ n, (AtanConsts.ieee l F).pi = num false n ∧ n = (values l F.p).pi := by
  obtain ⟨f1, v1, e1⟩ := (matching W l hp' hl).pi
  obtain ⟨t, n, e⟩ := (finite_iff _).mp f1
  rw [e] at e1 v1
  cases t
  · exact ⟨n, e, e1⟩
  · have h3 := (sizes l F.p W.p hp' hl).pi.1
    have : -n = (values l F.p).pi := e1
    have := v1.1
    linarith

theorem halfPi_sign : ∃ n, (AtanConsts.ieee l F).halfPi = num false n ∧ n = (values l F.p).halfPi := by
  obtain ⟨f1, v1, e1⟩ := (matching W l hp' hl).halfPi
  obtain ⟨t, n, e⟩ := (finite_iff _).mp f1
  rw [e] at e1 v1
  cases t
  · exact ⟨n, e, e1⟩
  · have h3 := (sizes l F.p W.p hp' hl).halfPi.1
    have : -n = (values l F.p).halfPi := e1
    have := v1.1
    linarith

theorem halfPi_near : |((values l F.p).halfPi : ℝ) - Real.pi / 2| ≤ 3.1416 / 2 ^ F.p + 1 / 10 ^ 19 := by
  have hc := binary_atanConsts l F.p hp' hl
  obtain ⟨-, hh, -⟩ := Atan.pi_const
  have h1 : |((values l F.p).halfPi : ℝ) - Const.halfPi| ≤ 2 * (1 / 2 ^ F.p) * |Const.halfPi| := hc.halfPi
  rw [abs_of_pos (by unfold Const.halfPi; norm_num : 0 < Const.halfPi)] at h1
  have h2 : Const.halfPi ≤ 1.5708 := by unfold Const.halfPi; norm_num
  have hu0 : (0 : ℝ) ≤ 1 / 2 ^ F.p := by positivity
  rw [← sub_add_sub_cancel _ Const.halfPi]
  refine (abs_add_le _ _).trans (add_le_add (h1.trans ?_) hh)
  rw [← mul_one_div 3.1416]
  nlinarith

omit hp' hl [NeZero F.p] W in
/-- What is left of half a turn after a quarter. -/
theorem quarter_left {S P : ℝ} {R u : ℝ} (hu : 0 ≤ u) (hu' : u ≤ 0.000000953675) (hS : |S - Real.pi / 2| ≤ 8.6 * u + 1.86 / 10 ^ 16) (hP : |P - Real.pi| ≤ 6.2832 * u + 1 / 10 ^ 19) (hR : |R - (P - S)| ≤ u * |P - S|) :
    |R - Real.pi / 2| ≤ 19 * u + 1.9 / 10 ^ 16 := by
  have h1 : |(P - S) - Real.pi / 2| ≤ 14.8832 * u + 1.861 / 10 ^ 16 := by
    rw [show P - S - Real.pi / 2 = (P - Real.pi) - (S - Real.pi / 2) by ring]
    refine (abs_sub _ _).trans ?_
    have : (1 : ℝ) / 10 ^ 19 + 1.86 / 10 ^ 16 = 1.861 / 10 ^ 16 := by norm_num
    linarith
  have h2 : |P - S| ≤ 2 := by
    have := abs_le.mp h1
    have := Real.pi_gt_three
    have := Real.pi_lt_d2
    have h3 : (1.861 : ℝ) / 10 ^ 16 ≤ 0.1 := by norm_num
    rw [abs_le]
    constructor <;> linarith
  have h4 : u * |P - S| ≤ u * 2 := by gcongr
  have h5 : (1.861 : ℝ) / 10 ^ 16 ≤ 1.9 / 10 ^ 16 := by norm_num
  rw [← sub_add_sub_cancel R (P - S)]
  refine (abs_add_le _ _).trans ?_
  linarith

end

instance : NeZero Format.single.p := ⟨by decide⟩

theorem valid_power (s : Bool) (e : ℤ) (h : -149 ≤ e) (h' : e < 128) : (num s (2 ^ e) : Ieee Format.single).Valid := by
  refine ⟨by positivity, ?_, 1, e, by decide, h, by rw [Nat.cast_one, one_mul]⟩
  exact zpow_lt_zpow_right₀ (by norm_num) h'

end AtanIeee
end Elementary

open Elementary AtanIeee Binary Ieee

section
variable {F : Format} (W : Wide F) [NeZero F.p] (l : ℕ) (hp' : F.p ≤ 53) (hl : F.p ≤ l)
include W hp' hl

/-- `atan` of every number that is not NaN is an angle: as accurate as C79 says, without any gap at the limits of the range. -/
theorem C120_atan (x : Ieee F) (hx : x.Valid) :
    (x = nan → atanIeee (AtanConsts.ieee l F) x = nan) ∧
      (x.Finite → (atanIeee (AtanConsts.ieee l F) x).Finite ∧ (atanIeee (AtanConsts.ieee l F) x).Valid ∧
        |((atanIeee (AtanConsts.ieee l F) x).val : ℝ) - Real.arctan x.val| ≤ 8.6 / 2 ^ F.p + 1.86 / 10 ^ 16 ∧
        (0 < x.val → 0 < (atanIeee (AtanConsts.ieee l F) x).val) ∧ (x.val < 0 → (atanIeee (AtanConsts.ieee l F) x).val < 0) ∧
        (|(x.val : ℝ)| ≤ 0.6599 → |((atanIeee (AtanConsts.ieee l F) x).val : ℝ) - Real.arctan x.val| ≤ (4.4 / 2 ^ F.p + 1 / 10 ^ 15) * |(x.val : ℝ)|) ∧
        (|x.val| ≤ 1 / 2 ^ F.p → (atanIeee (AtanConsts.ieee l F) x).val = x.val)) ∧
      (∀ s, x = inf s → (atanIeee (AtanConsts.ieee l F) x).Finite ∧
        |((atanIeee (AtanConsts.ieee l F) x).val : ℝ) - (if s then -(Real.pi / 2) else Real.pi / 2)| ≤ 8.6 / 2 ^ F.p + 1.86 / 10 ^ 16) := by
  refine ⟨?_, ?_, ?_⟩
  · rintro rfl
    exact atan_nan _
  · intro hf
    have hi : Is x x.val := ⟨hf, hx, rfl⟩
    obtain ⟨a1, a2, a3⟩ := atan_finite W l hp' hl hi
    have hC := C79_atan l F.p W.p hp' hl ⟨x.val, (Is.fits hi).1⟩
    rw [binary_atan] at hC
    rw [a3]
    exact ⟨a1, a2, hC.1, hC.2.1, hC.2.2.1, hC.2.2.2, fun h => atan_small W l hp' hl h (Is.fits hi)⟩
  · rintro s rfl
    obtain ⟨i1, i2⟩ := atan_inf W l hp' hl
    have hh := AtanIeee.half_turn W l hp' hl
    cases s
    · rw [i1.2.2]
      exact ⟨i1.1, by simpa using hh⟩
    · rw [i2.2.2]
      refine ⟨i2.1, ?_⟩
      push_cast
      rw [if_pos rfl, ← abs_neg]
      convert hh using 2
      ring

/-- `atan2` of finite numbers is as accurate as C79 says, whether the quotient overflows or underflows, unless the angle is so close to `-π` that the quotient becomes zero. -/
theorem C120_atan2 (sign : Bool) (y x : Ieee F) (fy : y.Finite) (fx : x.Finite) (vy : y.Valid) (vx : x.Valid) (h0 : x.val ≠ 0 ∨ y.val ≠ 0) (hz : y = num true 0 → 0 ≤ x.val)
    (hn : ¬(y.val < 0 ∧ x.val < 0 ∧ |y.val / x.val| ≤ 2 ^ F.emin / 2)) :
    (atan2Ieee (AtanConsts.ieee l F) sign y x).Finite ∧ (atan2Ieee (AtanConsts.ieee l F) sign y x).Valid ∧
      |((atan2Ieee (AtanConsts.ieee l F) sign y x).val : ℝ) - Complex.arg ⟨x.val, y.val⟩| ≤ 19 / 2 ^ F.p + 1.9 / 10 ^ 16 ∧
      (0 < x.val → |((atan2Ieee (AtanConsts.ieee l F) sign y x).val : ℝ) - Complex.arg ⟨x.val, y.val⟩| ≤ 9.2 / 2 ^ F.p + 1.9 / 10 ^ 16) ∧
      (0 < x.val → |y.val / x.val| ≤ 1 / 2 ^ F.p / 8 → (atan2Ieee (AtanConsts.ieee l F) sign y x).val = roundTo F (y.val / x.val)) := by
  have hu0 : (0 : ℝ) ≤ 1 / 2 ^ F.p := by positivity
  have M := matching W l hp' hl
  have iy : Is y y.val := ⟨fy, vy, rfl⟩
  have ix : Is x x.val := ⟨fx, vx, rfl⟩
  have hC := C79_atan2 l F.p W.p hp' hl ⟨y.val, (Is.fits iy).1⟩ ⟨x.val, (Is.fits ix).1⟩ h0
  have hpi := pi_near l hp' hl (F := F)
  have weak : (6.2832 : ℝ) / 2 ^ F.p + 1 / 10 ^ 19 ≤ 19 / 2 ^ F.p + 1.9 / 10 ^ 16 := by
    apply add_le_add
    · gcongr; norm_num
    · norm_num
  by_cases hy : y.val = 0
  · have ex : x.val ≠ 0 := by tauto
    obtain ⟨s, m, rfl⟩ := (finite_iff y).mp fy
    have hm : m = 0 := by
      cases s
      · exact hy
      · have : -m = 0 := hy
        linarith
    subst hm
    unfold atan2Ieee
    rw [if_pos ((beq_zero_iff fy).mpr hy)]
    by_cases hx : 0 ≤ x.val
    · rw [if_pos ((leq_iff (zero_is W) ix).mpr hx)]
      have hx' : 0 < x.val := lt_of_le_of_ne hx (Ne.symm ex)
      have e0 : (Ieee.withSign (Ieee.signbit sign (num s 0 : Ieee F)) (0 : Ieee F)) = num s 0 := rfl
      have ea : Complex.arg ⟨x.val, ((num s 0 : Ieee F).val : ℝ)⟩ = 0 := by
        rw [hy, Atan.arg_right _ _ (by exact_mod_cast hx')]
        simp
      rw [e0, ea, hy]
      refine ⟨trivial, vy, ?_, fun _ => ?_, fun _ _ => ?_⟩
      · rw [Rat.cast_zero, sub_zero, abs_zero]; positivity
      · rw [Rat.cast_zero, sub_zero, abs_zero]; positivity
      · rw [zero_div, roundTo_zero]
    · rw [if_neg (fun h => hx ((leq_iff (zero_is W) ix).mp h))]
      have hs : s = false := by
        cases s
        · rfl
        · exact absurd (hz rfl) hx
      subst hs
      push Not at hx
      obtain ⟨f1, v1, e1⟩ := M.pi
      have e0 : Ieee.withSign (Ieee.signbit sign (num false 0 : Ieee F)) (AtanConsts.ieee l F).pi = (AtanConsts.ieee l F).pi := by
        obtain ⟨t, n, e⟩ := (finite_iff _).mp f1
        rw [e] at e1 v1 ⊢
        cases t
        · rfl
        · have h3 := (sizes l F.p W.p hp' hl).pi.1
          have : -n = (values l F.p).pi := e1
          have := v1.1
          linarith
      have ea : Complex.arg ⟨x.val, ((num false 0 : Ieee F).val : ℝ)⟩ = Real.pi := by
        rw [hy, Rat.cast_zero]
        exact Complex.arg_ofReal_of_neg (x := x.val) (by exact_mod_cast hx)
      rw [e0, ea, e1]
      exact ⟨f1, v1, hpi.trans weak, fun h => absurd h (by linarith), fun h => absurd h (by linarith)⟩
  have hb1 : (y == 0) = false := by
    rw [← Bool.not_eq_true, beq_zero_iff fy]
    exact hy
  by_cases hx : x.val = 0
  · unfold atan2Ieee
    rw [hb1, if_neg Bool.false_ne_true, if_pos ((beq_zero_iff fx).mpr hx)]
    obtain ⟨f1, v1, e1⟩ := M.halfPi
    obtain ⟨t, n, e⟩ := (finite_iff _).mp f1
    have h3 := (sizes l F.p W.p hp' hl).halfPi.1
    rw [e] at e1 v1 ⊢
    have ht : t = false := by
      cases t
      · rfl
      · have : -n = (values l F.p).halfPi := e1
        have := v1.1
        linarith
    subst ht
    have en : n = (values l F.p).halfPi := e1
    obtain ⟨s, m, rfl⟩ := (finite_iff y).mp fy
    show ((num s n : Ieee F)).Finite ∧ (num s n : Ieee F).Valid ∧ |((signed s n : ℚ) : ℝ) - _| ≤ _ ∧ _
    have hs : signed s n = (atan2 (AtanConsts.binary l F.p) (decide ((num s m : Ieee F).val < 0)) ⟨(num s m : Ieee F).val, (Is.fits iy).1⟩ ⟨x.val, (Is.fits ix).1⟩).val := by
      have h1 : (⟨(num s m : Ieee F).val, (Is.fits iy).1⟩ : Binary F.p) ≠ 0 := fun h => hy (congrArg Binary.val h)
      have h2 : (⟨x.val, (Is.fits ix).1⟩ : Binary F.p) = 0 := Binary.val_injective _ hx
      unfold atan2
      rw [if_neg h1, if_pos h2]
      unfold copysign
      have hm : 0 < m := lt_of_le_of_ne vy.1 (fun h => hy (by rw [← h]; exact signed_zero s))
      cases s
      · rw [if_neg (by rw [decide_eq_true_eq]; exact not_lt.mpr hm.le)]
        exact en
      · rw [if_pos (by rw [decide_eq_true_eq]; exact neg_lt_zero.mpr hm)]
        exact congrArg Neg.neg en
    refine ⟨trivial, v1, ?_, fun h => ?_, fun h => absurd h (by rw [hx]; exact lt_irrefl _)⟩
    · rw [hs]; exact hC.1
    · rw [hx] at h; exact absurd h (lt_irrefl _)
  have hb2 : (x == 0) = false := by
    rw [← Bool.not_eq_true, beq_zero_iff fx]
    exact hx
  rw [atan2_general W l hp' hl sign hb1 hb2]
  obtain ⟨φ, hφ, hφ2, hnorm, hsub⟩ := phase W l hp' hl iy ix hy hx
  obtain ⟨r1, r2, r3⟩ := is_finish W l hp' hl hφ hφ2 (less_zero_iff W l hp' hl ix)
  rw [r3]
  refine ⟨r1, r2, ?_⟩
  rcases le_or_gt ((2 : ℚ) ^ (F.emin + F.p - 1)) |y.val / x.val| with hN | hN
  · rw [binary_atan2 l _ _ _ hy hx] at hC
    rw [hnorm hN]
    refine ⟨hC.1, hC.2, fun hx0 hs => ?_⟩
    rw [← hnorm hN, ← (hsub hs).1]
    unfold finish
    rw [if_neg (by linarith)]
  · obtain ⟨e, hs⟩ := hsub (subnormal_small W l hp' hl hN)
    have hsm := subnormal_small W l hp' hl hN
    have hsr : |(y.val : ℝ) / x.val| ≤ 1 / 2 ^ F.p / 8 := by
      have := (Rat.cast_le (K := ℝ)).mpr hsm
      push_cast at this
      exact this
    have hat := (arctan_abs_le ((y.val : ℝ) / x.val)).trans hsr
    have hφr : |(φ : ℝ)| ≤ 1 / 2 ^ F.p / 4 := by
      have := (Rat.cast_le (K := ℝ)).mpr hs
      push_cast at this
      exact this
    have hp10 : (0 : ℝ) ≤ 1.9 / 10 ^ 16 := by positivity
    rcases lt_or_gt_of_ne hx with hx0 | hx0
    · have hxr : (x.val : ℝ) < 0 := by exact_mod_cast hx0
      obtain ⟨p1, p2⟩ := pi_absorbs W l hp' hl hs
      have hpw : (6.2832 : ℝ) / 2 ^ F.p + 1 / 10 ^ 19 + 1 / 2 ^ F.p / 8 ≤ 19 / 2 ^ F.p + 1.9 / 10 ^ 16 := by
        rw [← mul_one_div 6.2832, ← mul_one_div 19]
        have : (1 : ℝ) / 10 ^ 19 ≤ 1.9 / 10 ^ 16 := by norm_num
        linarith
      refine ⟨?_, fun h => absurd h (by linarith), fun h => absurd h (by linarith)⟩
      unfold finish
      rw [if_pos hx0]
      rcases lt_or_gt_of_ne hy with hy0 | hy0
      · have hq : 0 < y.val / x.val := div_pos_of_neg_of_neg hy0 hx0
        have hφ0 : 0 < φ := by
          rw [e]
          refine lt_of_le_of_ne (roundTo_nonneg W.pos _ hq.le) (fun h => hn ⟨hy0, hx0, quotient_zero h.symm (hN.trans_le (zpow_le_zpow_right₀ (by norm_num) (by omega)))⟩)
        rw [if_pos hφ0, p1, arg_lower _ _ hxr (by exact_mod_cast hy0)]
        push_cast
        rw [show -((values l F.p).pi : ℝ) - (Real.arctan ((y.val : ℝ) / x.val) - Real.pi) = -(((values l F.p).pi : ℝ) - Real.pi) - Real.arctan ((y.val : ℝ) / x.val) by ring]
        refine (abs_sub _ _).trans ?_
        rw [abs_neg]
        linarith
      · have hq : y.val / x.val < 0 := div_neg_of_pos_of_neg hy0 hx0
        have hφ0 : ¬0 < φ := by
          rw [e, not_lt]
          have := roundTo_nonneg W.pos (F := F) (-(y.val / x.val)) (by linarith)
          rw [roundTo_neg] at this
          linarith
        rw [if_neg hφ0, p2, arg_upper _ _ hxr (by exact_mod_cast hy0)]
        rw [show ((values l F.p).pi : ℝ) - (Real.arctan ((y.val : ℝ) / x.val) + Real.pi) = (((values l F.p).pi : ℝ) - Real.pi) - Real.arctan ((y.val : ℝ) / x.val) by ring]
        refine (abs_sub _ _).trans ?_
        linarith
    · unfold finish
      rw [if_neg (not_lt.mpr hx0.le), Atan.arg_right _ _ (by exact_mod_cast hx0)]
      have hk : |(φ : ℝ) - Real.arctan ((y.val : ℝ) / x.val)| ≤ 1 / 2 ^ F.p := by
        refine (abs_sub _ _).trans ?_
        linarith
      refine ⟨hk.trans ?_, fun _ => hk.trans ?_, fun _ _ => e⟩
      · rw [← mul_one_div 19]; linarith
      · rw [← mul_one_div 9.2]; linarith

/-- If the quotient becomes zero, the angle close to `-π` is given as `+π`. -/
theorem C120_lost (sign : Bool) (y x : Ieee F) (fy : y.Finite) (fx : x.Finite) (vy : y.Valid) (vx : x.Valid) (hy : y.val < 0) (hx : x.val < 0) (hn : |y.val / x.val| ≤ 2 ^ F.emin / 2) :
    (atan2Ieee (AtanConsts.ieee l F) sign y x).Finite ∧ |((atan2Ieee (AtanConsts.ieee l F) sign y x).val : ℝ) - Real.pi| ≤ 6.2832 / 2 ^ F.p + 1 / 10 ^ 19 ∧
      |Complex.arg ⟨x.val, y.val⟩ + Real.pi| ≤ 2 ^ F.emin / 2 := by
  have iy : Is y y.val := ⟨fy, vy, rfl⟩
  have ix : Is x x.val := ⟨fx, vx, rfl⟩
  have h1 := W.emin
  have h2 := W.p
  have hb1 : (y == 0) = false := by
    rw [← Bool.not_eq_true, beq_zero_iff fy]
    exact hy.ne
  have hb2 : (x == 0) = false := by
    rw [← Bool.not_eq_true, beq_zero_iff fx]
    exact hx.ne
  have hq0 : (0 : ℚ) < 2 ^ F.emin := by positivity
  have hN : |y.val / x.val| < 2 ^ (F.emin + F.p - 1) :=
    (hn.trans_lt (by linarith : (2 : ℚ) ^ F.emin / 2 < 2 ^ F.emin)).trans_le (zpow_le_zpow_right₀ (by norm_num) (by omega))
  rw [atan2_general W l hp' hl sign hb1 hb2]
  obtain ⟨φ, hφ, hφ2, hnorm, hsub⟩ := phase W l hp' hl iy ix hy.ne hx.ne
  obtain ⟨e, hs⟩ := hsub (subnormal_small W l hp' hl hN)
  obtain ⟨r1, r2, r3⟩ := is_finish W l hp' hl hφ hφ2 (less_zero_iff W l hp' hl ix)
  have hq : 0 < y.val / x.val := div_pos_of_neg_of_neg hy hx
  have hz : φ = 0 := by
    rw [e, roundTo_small _ (hN.trans_le (zpow_le_zpow_right₀ (by norm_num) (by omega)))]
    rw [nearest_half 0 (by norm_num) _ (by rw [Int.cast_zero]; positivity) (by
      rw [abs_of_pos hq] at hn
      rw [Int.cast_zero, zero_add, div_le_iff₀ hq0]
      linarith), Int.cast_zero, zero_mul]
  refine ⟨r1, ?_, ?_⟩
  · rw [r3]
    unfold finish
    rw [if_pos hx, if_neg (by rw [hz]; exact lt_irrefl _), (pi_absorbs W l hp' hl hs).2]
    exact pi_near l hp' hl
  · rw [arg_lower _ _ (by exact_mod_cast hx) (by exact_mod_cast hy), sub_add_cancel]
    refine (arctan_abs_le _).trans ?_
    have := (Rat.cast_le (K := ℝ)).mpr hn
    push_cast at this
    exact this

/-- `y` is a zero: `+0` and `-0` are told apart by `y`, but not by `x`. -/
theorem C120_zero (sign s : Bool) (x : Ieee F) :
    (x = inf false ∨ x.Finite ∧ 0 ≤ x.val → atan2Ieee (AtanConsts.ieee l F) sign (num s 0) x = num s 0) ∧
      (x = inf true ∨ x.Finite ∧ x.val < 0 → ∃ m : ℚ, atan2Ieee (AtanConsts.ieee l F) sign (num s 0) x = num s m ∧ |(m : ℝ) - Real.pi| ≤ 6.2832 / 2 ^ F.p + 1 / 10 ^ 19) := by
  have hb : ((num s 0 : Ieee F) == 0) = true := (beq_zero_iff (a := num s 0) trivial).mpr (signed_zero s)
  obtain ⟨n, e, en⟩ := pi_sign W l hp' hl
  have hl' : ∀ t a, Ieee.leq (0 : Ieee F) (num t a) = true ↔ 0 ≤ signed t a := by
    intro t a
    show (decide ((0 : ℚ) < signed t a) || decide ((0 : ℚ) = signed t a)) = true ↔ _
    rw [Bool.or_eq_true, decide_eq_true_eq, decide_eq_true_eq, le_iff_lt_or_eq]
  unfold atan2Ieee
  rw [if_pos hb]
  constructor
  · rintro (rfl | ⟨hf, h⟩)
    · rfl
    · obtain ⟨t, a, rfl⟩ := (finite_iff x).mp hf
      rw [if_pos ((hl' t a).mpr h)]
      rfl
  · rintro (rfl | ⟨hf, h⟩)
    · refine ⟨n, ?_, en ▸ pi_near l hp' hl⟩
      rw [if_neg (by rw [show Ieee.leq (0 : Ieee F) (inf true) = false from rfl]; exact Bool.false_ne_true), e]
      rfl
    · obtain ⟨t, a, rfl⟩ := (finite_iff x).mp hf
      refine ⟨n, ?_, en ▸ pi_near l hp' hl⟩
      rw [if_neg (fun h' => absurd ((hl' t a).mp h') (not_le.mpr h)), e]
      rfl

/-- Infinite arguments: two give NaN, an infinite `y` gives `±π/2`; with `x = -∞` the result is `+π` even below the axis. -/
theorem C120_infinite (sign s t : Bool) (a : Ieee F) (fa : a.Finite) (va : a.Valid) :
    atan2Ieee (AtanConsts.ieee l F) sign (inf s) (inf t) = nan ∧
      ((atan2Ieee (AtanConsts.ieee l F) sign (inf s) a).Finite ∧
        |((atan2Ieee (AtanConsts.ieee l F) sign (inf s) a).val : ℝ) - (if s then -(Real.pi / 2) else Real.pi / 2)| ≤ 19 / 2 ^ F.p + 1.9 / 10 ^ 16) ∧
      (a.val ≠ 0 → (atan2Ieee (AtanConsts.ieee l F) sign a (inf false)).Finite ∧ (atan2Ieee (AtanConsts.ieee l F) sign a (inf false)).val = 0 ∧
        (atan2Ieee (AtanConsts.ieee l F) sign a (inf true)).Finite ∧
        |((atan2Ieee (AtanConsts.ieee l F) sign a (inf true)).val : ℝ) - Real.pi| ≤ 6.2832 / 2 ^ F.p + 1 / 10 ^ 19) := by
  have hu0 : (0 : ℝ) ≤ 1 / 2 ^ F.p := by positivity
  have hu : (1 : ℝ) / 2 ^ F.p ≤ 0.000000953675 := (unit_le' F.p W.p).trans (by norm_num)
  have hi : ∀ s, ((inf s : Ieee F) == 0) = false := fun _ => rfl
  have weak : (8.6 : ℝ) / 2 ^ F.p + 1.86 / 10 ^ 16 ≤ 19 / 2 ^ F.p + 1.9 / 10 ^ 16 := by
    apply add_le_add
    · gcongr; norm_num
    · norm_num
  refine ⟨?_, ?_, fun ha => ?_⟩
  · rw [atan2_general W l hp' hl sign (hi s) (hi t), show (inf s / inf t : Ieee F) = nan from rfl, atan_nan,
      show (if Ieee.less (0 : Ieee F) nan then (nan - (AtanConsts.ieee l F).pi : Ieee F) else nan + (AtanConsts.ieee l F).pi) = nan from rfl, ite_self]
  · by_cases ha : a.val = 0
    · unfold atan2Ieee
      rw [hi s, if_neg Bool.false_ne_true, if_pos ((beq_zero_iff fa).mpr ha)]
      obtain ⟨n, e, en⟩ := halfPi_sign W l hp' hl
      rw [e]
      refine ⟨trivial, ?_⟩
      have hn := halfPi_near W l hp' hl (F := F)
      rw [← en] at hn
      have w2 : (3.1416 : ℝ) / 2 ^ F.p + 1 / 10 ^ 19 ≤ 19 / 2 ^ F.p + 1.9 / 10 ^ 16 := by
        apply add_le_add
        · gcongr; norm_num
        · norm_num
      cases s
      · exact hn.trans w2
      · rw [if_pos rfl, show (Ieee.withSign (Ieee.signbit sign (inf true : Ieee F)) (num false n : Ieee F)).val = -n from rfl]
        push_cast
        rw [sub_neg_eq_add, neg_add_eq_sub, abs_sub_comm]
        exact hn.trans w2
    · have hb : (a == 0) = false := by
        rw [← Bool.not_eq_true, beq_zero_iff fa]
        exact ha
      rw [atan2_general W l hp' hl sign (hi s) hb]
      obtain ⟨r, m, rfl⟩ := (finite_iff a).mp fa
      have hm : 0 < m := lt_of_le_of_ne va.1 (fun h => ha (by rw [← h]; exact signed_zero r))
      rw [show (inf s / num r m : Ieee F) = inf (s ^^ r) from rfl]
      have hH := AtanIeee.half_turn W l hp' hl
      obtain ⟨i1, i2⟩ := atan_inf W l hp' hl
      generalize hSe : Binary.round F.p ((values l F.p).halfPi + (values l F.p).morebits) = S at *
      have hS2 : |S| ≤ 2 := by
        have := abs_le.mp hH
        have := Real.pi_gt_three
        have := Real.pi_lt_d2
        have h3 : (8.6 : ℝ) / 2 ^ F.p ≤ 0.1 := by rw [← mul_one_div]; linarith
        have h4 : (1.86 : ℝ) / 10 ^ 16 ≤ 0.1 := by norm_num
        have : |(S : ℝ)| ≤ 2 := by
          rw [abs_le]
          constructor <;> linarith
        exact_mod_cast this
      have hS0 : 0 < S := by
        have := abs_le.mp hH
        have := Real.pi_gt_three
        have h3 : (8.6 : ℝ) / 2 ^ F.p ≤ 0.1 := by rw [← mul_one_div]; linarith
        have h4 : (1.86 : ℝ) / 10 ^ 16 ≤ 0.1 := by norm_num
        have : (0 : ℝ) < S := by linarith
        exact_mod_cast this
      have hP := pi_near l hp' hl (F := F)
      rw [← mul_one_div 6.2832] at hP
      have hH' := hH
      rw [← mul_one_div 8.6] at hH'
      have hQ := round_error F.p ((values l F.p).pi - S)
      have hQ' : |((Binary.round F.p ((values l F.p).pi - S) : ℚ) : ℝ) - (((values l F.p).pi : ℝ) - S)| ≤ 1 / 2 ^ F.p * |((values l F.p).pi : ℝ) - S| := by
        have := (Rat.cast_le (K := ℝ)).mpr hQ
        push_cast at this
        rw [one_div_mul_eq_div]
        exact this
      have hL := quarter_left hu0 hu hH' hP hQ'
      rw [mul_one_div] at hL
      cases r
      · have hl0 : Ieee.less (num false m : Ieee F) 0 = true ↔ (1 : ℚ) < 0 := by
          show decide (m < 0) = true ↔ _
          rw [decide_eq_true_eq]
          constructor <;> intro h <;> linarith
        cases s
        · obtain ⟨f1, v1, e1⟩ := is_finish W l hp' hl i1 hS2 hl0
          refine ⟨f1, ?_⟩
          rw [show (false ^^ false) = false from rfl, e1]
          exact hH.trans weak
        · obtain ⟨f1, v1, e1⟩ := is_finish W l hp' hl i2 (by rwa [abs_neg]) hl0
          refine ⟨f1, ?_⟩
          rw [show (true ^^ false) = true from rfl, e1, if_pos rfl]
          rw [show finish (Binary.round F.p) (values l F.p).pi (-S) 1 = -S from rfl]
          push_cast
          rw [sub_neg_eq_add, neg_add_eq_sub, abs_sub_comm]
          exact hH.trans weak
      · have hl0 : Ieee.less (num true m : Ieee F) 0 = true ↔ (-1 : ℚ) < 0 := by
          show decide (-m < 0) = true ↔ _
          rw [decide_eq_true_eq]
          constructor <;> intro h <;> linarith
        cases s
        · obtain ⟨f1, v1, e1⟩ := is_finish W l hp' hl i2 (by rwa [abs_neg]) hl0
          refine ⟨f1, ?_⟩
          rw [show (false ^^ true) = true from rfl, e1]
          have e2 : finish (Binary.round F.p) (values l F.p).pi (-S) (-1) = Binary.round F.p ((values l F.p).pi - S) := by
            unfold finish
            rw [if_pos (by norm_num), if_neg (by linarith), neg_add_eq_sub]
          rw [e2]
          exact hL
        · obtain ⟨f1, v1, e1⟩ := is_finish W l hp' hl i1 hS2 hl0
          refine ⟨f1, ?_⟩
          rw [show (true ^^ true) = false from rfl, e1]
          have e2 : finish (Binary.round F.p) (values l F.p).pi S (-1) = -Binary.round F.p ((values l F.p).pi - S) := by
            unfold finish
            rw [if_pos (by norm_num), if_pos hS0, ← Binary.round_neg, neg_sub]
          rw [e2, if_pos rfl]
          push_cast
          rw [sub_neg_eq_add, neg_add_eq_sub, abs_sub_comm]
          exact hL
  · have hb : (a == 0) = false := by
      rw [← Bool.not_eq_true, beq_zero_iff fa]
      exact ha
    obtain ⟨r, m, rfl⟩ := (finite_iff a).mp fa
    have hz : ∀ t, Is (atanIeee (AtanConsts.ieee l F) (num r m / inf t)) 0 := by
      intro t
      rw [show (num r m / inf t : Ieee F) = num (r ^^ t) 0 from rfl]
      have hv : (num (r ^^ t) 0 : Ieee F).Valid := valid_of_fits _ 0 le_rfl (by positivity) (fits_zero W)
      obtain ⟨f, v, -, -, -, -, e⟩ := (C120_atan W l hp' hl (num (r ^^ t) 0) hv).2.1 trivial
      have hs : (num (r ^^ t) 0 : Ieee F).val = 0 := signed_zero _
      exact ⟨f, v, by rw [e (by rw [hs, abs_zero]; positivity), hs]⟩
    have hp0 := (pi_absorbs W l hp' hl (s := 0) (by rw [abs_zero]; positivity)).2
    obtain ⟨f1, v1, e1⟩ := is_finish W l hp' hl (hz false) (by norm_num) (x := inf false) (w := 1) (by
      rw [show Ieee.less (inf false : Ieee F) 0 = false from rfl]
      constructor
      · intro h; exact absurd h Bool.false_ne_true
      · intro h; linarith)
    obtain ⟨f2, v2, e2⟩ := is_finish W l hp' hl (hz true) (by norm_num) (x := inf true) (w := -1) (by
      rw [show Ieee.less (inf true : Ieee F) 0 = true from rfl]
      constructor
      · intro _; norm_num
      · intro _; rfl)
    rw [atan2_general W l hp' hl sign hb (hi false), atan2_general W l hp' hl sign hb (hi true)]
    refine ⟨f1, e1.trans ?_, f2, ?_⟩
    · rfl
    · rw [e2]
      unfold finish
      rw [if_pos (by norm_num), if_neg (lt_irrefl _), hp0]
      exact pi_near l hp' hl

/-- A NaN is passed on, unless the other argument is a zero. -/
theorem C120_nan (sign : Bool) (a : Ieee F) :
    (¬(a.Finite ∧ a.val = 0) → atan2Ieee (AtanConsts.ieee l F) sign nan a = nan ∧ atan2Ieee (AtanConsts.ieee l F) sign a nan = nan) ∧
      ∀ s, (∃ m : ℚ, atan2Ieee (AtanConsts.ieee l F) sign nan (num s 0) = num sign m ∧ |(m : ℝ) - Real.pi / 2| ≤ 3.1416 / 2 ^ F.p + 1 / 10 ^ 19) ∧
        ∃ m : ℚ, atan2Ieee (AtanConsts.ieee l F) sign (num s 0) nan = num s m ∧ |(m : ℝ) - Real.pi| ≤ 6.2832 / 2 ^ F.p + 1 / 10 ^ 19 := by
  have hn : ((nan : Ieee F) == 0) = false := rfl
  constructor
  · intro ha
    have hb : (a == 0) = false := by
      cases a with
      | nan => rfl
      | inf s => rfl
      | num s m =>
        rw [← Bool.not_eq_true, beq_zero_iff (a := num s m) trivial]
        exact fun h => ha ⟨trivial, h⟩
    have h1 : (nan / a : Ieee F) = nan := rfl
    have h2 : (a / nan : Ieee F) = nan := by cases a <;> rfl
    have h3 : (if Ieee.less (0 : Ieee F) nan then (nan - (AtanConsts.ieee l F).pi : Ieee F) else nan + (AtanConsts.ieee l F).pi) = nan := rfl
    rw [atan2_general W l hp' hl sign hn hb, atan2_general W l hp' hl sign hb hn, h1, h2, atan_nan, h3, ite_self, ite_self]
    exact ⟨rfl, rfl⟩
  · intro s
    have hb : ((num s 0 : Ieee F) == 0) = true := (beq_zero_iff (a := num s 0) trivial).mpr (signed_zero s)
    obtain ⟨n, e, en⟩ := pi_sign W l hp' hl
    obtain ⟨n', e', en'⟩ := halfPi_sign W l hp' hl
    refine ⟨⟨n', ?_, en' ▸ halfPi_near W l hp' hl⟩, n, ?_, en ▸ pi_near l hp' hl⟩
    · unfold atan2Ieee
      rw [hn, if_neg Bool.false_ne_true, if_pos hb, e']
      rfl
    · unfold atan2Ieee
      rw [if_pos hb, if_neg (by rw [show Ieee.leq (0 : Ieee F) nan = false from rfl]; exact Bool.false_ne_true), e]
      rfl

end

/-- The sign of a negative zero is lost by `atan`. -/
theorem C120_minus_zero : atanIeee (AtanConsts.ieee 64 Format.single) (num true 0) = num false 0 := by
  decide +kernel

/-- The largest number over the smallest one: the quotient overflows. -/
example (sign : Bool) : |((atan2Ieee (AtanConsts.ieee 64 Format.single) sign (num false (2 ^ (127 : ℤ))) (num true (2 ^ (-149 : ℤ)))).val : ℝ) - Complex.arg ⟨-2 ^ (-149 : ℤ), 2 ^ (127 : ℤ)⟩| ≤ 19 / 2 ^ 24 + 1.9 / 10 ^ 16 := by
  have h := (C120_atan2 wide_single 64 (by decide) (by decide) sign (num false (2 ^ (127 : ℤ))) (num true (2 ^ (-149 : ℤ))) trivial trivial (valid_power _ _ (by norm_num) (by norm_num))
    (valid_power _ _ (by norm_num) (by norm_num)) (Or.inr (by decide +kernel)) (by intro h; cases h) (by
      rintro ⟨h, -⟩
      exact absurd h (by decide +kernel))).2.2.1
  have e1 : (num false (2 ^ (127 : ℤ)) : Ieee Format.single).val = 2 ^ (127 : ℤ) := rfl
  have e2 : (num true (2 ^ (-149 : ℤ)) : Ieee Format.single).val = -2 ^ (-149 : ℤ) := rfl
  rw [e1, e2, Rat.cast_neg, Rat.cast_zpow, Rat.cast_zpow, Rat.cast_ofNat] at h
  exact h

/-- The smallest number below the axis, to the left. -/
example (sign : Bool) : |((atan2Ieee (AtanConsts.ieee 64 Format.single) sign (num true (2 ^ (-149 : ℤ))) (num true (2 ^ (1 : ℤ)))).val : ℝ) - Real.pi| ≤ 6.2832 / 2 ^ 24 + 1 / 10 ^ 19 :=
  (C120_lost wide_single 64 (by decide) (by decide) sign (num true (2 ^ (-149 : ℤ))) (num true (2 ^ (1 : ℤ))) trivial trivial (valid_power _ _ (by norm_num) (by norm_num))
    (valid_power _ _ (by norm_num) (by norm_num)) (by decide +kernel) (by decide +kernel) (by decide +kernel)).2.1

example : atan2Ieee (AtanConsts.ieee 64 Format.single) false (num true 0) (num true 0) = num true 0 :=
  (C120_zero wide_single 64 (by decide) (by decide) false true (num true 0)).1 (Or.inr ⟨trivial, by decide +kernel⟩)

example (sign : Bool) : atan2Ieee (AtanConsts.ieee 64 Format.single) sign (inf true) (inf false) = nan ∧ (atan2Ieee (AtanConsts.ieee 64 Format.single) sign (num true (2 ^ (0 : ℤ))) (inf false)).val = 0 :=
  have h := C120_infinite wide_single 64 (by decide) (by decide) sign true false (num true (2 ^ (0 : ℤ))) trivial (valid_power _ _ (by norm_num) (by norm_num))
  ⟨h.1, (h.2.2 (by decide +kernel)).2.1⟩

example (sign : Bool) : atan2Ieee (AtanConsts.ieee 64 Format.single) sign nan (num false 1) = nan :=
  ((C120_nan wide_single 64 (by decide) (by decide) sign (num false 1)).1 (fun h => absurd h.2 (by decide +kernel))).1

/-- The smallest number is its own arc tangent. -/
example : (atanIeee (AtanConsts.ieee 64 Format.single) (num true (2 ^ (-149 : ℤ)))).val = -2 ^ (-149 : ℤ) :=
  ((C120_atan wide_single 64 (by decide) (by decide) (num true (2 ^ (-149 : ℤ))) (valid_power _ _ (by norm_num) (by norm_num))).2.1 trivial).2.2.2.2.2.2 (by decide +kernel)

end DSP
