import Verif.Model.WindowRounded
import Verif.Props.Kaiser
import Verif.Props.KahanError
import Verif.Lemmas.BinaryRounded
import Verif.Lemmas.BinaryMono
import Verif.Lemmas.Rel
import Verif.Lemmas.UnitCircle
import Verif.Props.PhasorError
import Verif.Props.Constants

/-!
# C83: the Bessel function of window.hh in rounded arithmetic
-/

namespace DSP
namespace Win

open Spec

/-! ### The series -/

theorem term_succ (x : ℝ) (m : ℕ) : term x (m + 1) = term x m * ((x / 2) / (m + 1)) ^ 2 := by
  rw [term_eq, term_eq, Nat.factorial_succ, pow_succ]; push_cast
  have : (m.factorial : ℝ) ≠ 0 := by exact_mod_cast m.factorial_ne_zero
  field_simp

/-- The mean index of the terms is at most `|x| / 2`. -/
theorem sum_index_le (x : ℝ) (n : ℕ) : ∑ k ∈ Finset.range (n + 1), (k : ℝ) * term x k ≤ |x| / 2 * ∑ k ∈ Finset.range (n + 1), term x k := by
  have h : ∀ k : ℕ, ((k + 1 : ℕ) : ℝ) * term x (k + 1) ≤ |x| / 2 * ((term x k + term x (k + 1)) / 2) := by
    intro k
    have e : ∀ m, term x m = ((|x| / 2) ^ m / m.factorial) ^ 2 := by
      intro m
      rw [term, ← sq_abs, abs_div, abs_pow, abs_div, abs_two, Nat.abs_cast]
    rw [e, e]
    have hb : ((k + 1 : ℕ) : ℝ) * ((|x| / 2) ^ (k + 1) / ((k + 1).factorial : ℝ)) = |x| / 2 * ((|x| / 2) ^ k / (k.factorial : ℝ)) := by
      have : (k.factorial : ℝ) ≠ 0 := by exact_mod_cast k.factorial_ne_zero
      rw [Nat.factorial_succ, pow_succ]
      push_cast
      field_simp
    generalize (|x| / 2) ^ (k + 1) / ((k + 1).factorial : ℝ) = b at *
    generalize (|x| / 2) ^ k / (k.factorial : ℝ) = a at *
    have hs : 0 ≤ |x| / 2 := by positivity
    calc ((k + 1 : ℕ) : ℝ) * b ^ 2 = ((k + 1 : ℕ) : ℝ) * b * b := by ring
      _ = |x| / 2 * (a * b) := by rw [hb]; ring
      _ ≤ _ := by
        apply mul_le_mul_of_nonneg_left _ hs
        nlinarith [sq_nonneg (a - b)]
  rw [Finset.sum_range_succ']
  simp only [Nat.cast_zero, zero_mul, add_zero]
  calc _ ≤ ∑ k ∈ Finset.range n, |x| / 2 * ((term x k + term x (k + 1)) / 2) := Finset.sum_le_sum fun k _ => h k
    _ = |x| / 2 * ((∑ k ∈ Finset.range n, term x k + ∑ k ∈ Finset.range n, term x (k + 1)) / 2) := by
      rw [← Finset.mul_sum, ← Finset.sum_div, Finset.sum_add_distrib]
    _ ≤ _ := by
      apply mul_le_mul_of_nonneg_left _ (by positivity)
      have h1 := Finset.sum_range_succ (term x) n
      have h2 := Finset.sum_range_succ' (term x) n
      have h3 := term_nonneg x n
      have h4 := term_nonneg x 0
      linarith

/-- If the terms fall by half from `n` on, what is missing after it is at most as large as the last term. -/
theorem tail_le_last (x : ℝ) (n : ℕ) (h : ∀ m, n ≤ m → term x (m + 1) ≤ term x m / 2) : besselI0 x - ∑ k ∈ Finset.range (n + 1), term x k ≤ term x n := by
  have hs := (summable_term x).sum_add_tsum_nat_add (n + 1)
  have hg : ∀ i, term x (i + (n + 1)) ≤ term x n / 2 * (1 / 2) ^ i := by
    intro i
    induction i with
    | zero => rw [zero_add, pow_zero, mul_one]; exact h n le_rfl
    | succ i ih =>
      calc term x (i + 1 + (n + 1)) ≤ term x (i + (n + 1)) / 2 := by rw [show i + 1 + (n + 1) = i + (n + 1) + 1 by ring]; exact h _ (by omega)
        _ ≤ term x n / 2 * (1 / 2) ^ i / 2 := by linarith
        _ = _ := by rw [pow_succ]; ring
  have hs2 : HasSum (fun i : ℕ => term x n / 2 * (1 / 2 : ℝ) ^ i) (term x n / 2 * 2) := hasSum_geometric_two.mul_left _
  have := Summable.tsum_le_tsum hg ((summable_nat_add_iff (n + 1)).mpr (summable_term x)) hs2.summable
  rw [hs2.tsum_eq] at this
  have e : besselI0 x = ∑' m, term x m := rfl
  rw [e, ← hs]
  linarith

theorem term_halves (x : ℝ) (n : ℕ) (h : |x| ≤ 9.6 ∧ 6 ≤ n ∨ |x| ≤ 2 ∧ 1 ≤ n) (m : ℕ) (hm : n ≤ m) : term x (m + 1) ≤ term x m / 2 := by
  rw [term_succ, div_eq_mul_one_div (term x m)]
  refine mul_le_mul_of_nonneg_left ?_ (term_nonneg x m)
  have hm' : (n : ℝ) + 1 ≤ m + 1 := by exact_mod_cast (by omega)
  rw [← sq_abs, abs_div, abs_div, abs_two, abs_of_pos (by positivity : (0 : ℝ) < m + 1)]
  have h0 : 0 ≤ |x| / 2 / (m + 1) := by positivity
  rcases h with ⟨h1, h2⟩ | ⟨h1, h2⟩
  · have h2' : (6 : ℝ) ≤ n := by exact_mod_cast h2
    have : |x| / 2 / (m + 1) ≤ 0.7 := by rw [div_le_iff₀ (by positivity)]; linarith
    nlinarith
  · have h2' : (1 : ℝ) ≤ n := by exact_mod_cast h2
    have : |x| / 2 / (m + 1) ≤ 0.5 := by rw [div_le_iff₀ (by positivity)]; linarith
    nlinarith

/-- Before the sixth term, none is small compared to the sum, unless `x` is. -/
theorem early_large (x : ℝ) (n : ℕ) (hn : n ≤ 5) (hx : 2 ≤ |x|) : ∑ k ∈ Finset.range (n + 1), term x k ≤ 86400 * term x n := by
  have hq : 1 ≤ (x / 2) ^ 2 := by
    rw [← sq_abs, abs_div, abs_two]
    have : 1 ≤ |x| / 2 := by linarith
    nlinarith
  have h1 : ∀ k ∈ Finset.range (n + 1), term x k ≤ ((x / 2) ^ 2) ^ n := by
    intro k hk
    have := Finset.mem_range.mp hk
    have hf : (1 : ℝ) ≤ (k.factorial : ℝ) ^ 2 := by
      have : (1 : ℝ) ≤ k.factorial := by exact_mod_cast k.factorial_pos
      nlinarith
    rw [term_eq]
    calc _ ≤ ((x / 2) ^ 2) ^ k := div_le_self (by positivity) hf
      _ ≤ _ := pow_le_pow_right₀ hq (by omega)
  have h2 := Finset.sum_le_card_nsmul _ _ _ h1
  rw [Finset.card_range, nsmul_eq_mul] at h2
  have h3 : ((x / 2) ^ 2) ^ n ≤ 14400 * term x n := by
    rw [term_eq, mul_div_assoc', le_div_iff₀ (by positivity), mul_comm]
    apply mul_le_mul_of_nonneg_right _ (by positivity)
    have : (n.factorial : ℝ) ≤ 120 := by
      have : n.factorial ≤ (5).factorial := Nat.factorial_le hn
      exact_mod_cast this
    nlinarith [show (0 : ℝ) ≤ n.factorial by positivity]
  have hn' : ((n + 1 : ℕ) : ℝ) ≤ 6 := by exact_mod_cast (by omega)
  have := term_nonneg x n
  calc _ ≤ ((n + 1 : ℕ) : ℝ) * ((x / 2) ^ 2) ^ n := h2
    _ ≤ 6 * (14400 * term x n) := by gcongr
    _ = _ := by ring

theorem term_last (x : ℝ) (hx : |x| ≤ 9.6) : term x 34 ≤ 1 / 10 ^ 30 := by
  have hx2 : |x / 2| ≤ 4.8 := by rw [abs_div, abs_of_pos (by norm_num : (0 : ℝ) < 2)]; linarith
  have h1 : |(x / 2) ^ 34| ≤ 4.8 ^ 34 := by rw [abs_pow]; exact pow_le_pow_left₀ (abs_nonneg _) hx2 34
  have h2 : ((x / 2) ^ 34) ^ 2 ≤ (4.8 ^ 34) ^ 2 := by rw [← sq_abs ((x / 2) ^ 34)]; exact pow_le_pow_left₀ (abs_nonneg _) h1 2
  have hf : (((34 : ℕ).factorial : ℕ) : ℝ) = 295232799039604140847618609643520000000 := by norm_num [Nat.factorial]
  rw [term, div_pow, hf]
  calc _ ≤ ((4.8 : ℝ) ^ 34) ^ 2 / 295232799039604140847618609643520000000 ^ 2 := by gcongr
    _ ≤ _ := by norm_num

/-- How the Bessel function depends on its argument. -/
theorem bessel_change (x y : ℝ) (h : |x| ≤ |y|) : besselI0 x ≤ besselI0 y ∧ besselI0 y - besselI0 x ≤ (y ^ 2 - x ^ 2) / 4 * besselI0 y := by
  have hq : (x / 2) ^ 2 ≤ (y / 2) ^ 2 := by
    rw [sq_le_sq, abs_div, abs_div]; gcongr
  have hk : ∀ k, term x (k + 1) ≤ term y (k + 1) ∧ term y (k + 1) - term x (k + 1) ≤ (y ^ 2 - x ^ 2) / 4 * term y k := by
    intro k
    have hf : (0 : ℝ) < (k.factorial : ℝ) := by exact_mod_cast k.factorial_pos
    constructor
    · rw [term_eq, term_eq]; gcongr
    · rw [term_eq, term_eq, term_eq, ← sub_div, Nat.factorial_succ]
      rw [show (y ^ 2 - x ^ 2) / 4 = (y / 2) ^ 2 - (x / 2) ^ 2 by ring]
      have ha : 0 ≤ (x / 2) ^ 2 := by positivity
      generalize (x / 2) ^ 2 = a at *
      generalize (y / 2) ^ 2 = b at *
      have hd : b ^ (k + 1) - a ^ (k + 1) ≤ ((k + 1 : ℕ) : ℝ) * b ^ k * (b - a) := by
        induction k with
        | zero => simp
        | succ k ih =>
          have h1 := ih (by exact_mod_cast k.factorial_pos)
          have h2 : a ^ (k + 1) ≤ b ^ (k + 1) := by gcongr
          have hb : 0 ≤ b := ha.trans hq
          have h3 : b ^ (k + 1 + 1) - a ^ (k + 1 + 1) = b * (b ^ (k + 1) - a ^ (k + 1)) + (b - a) * a ^ (k + 1) := by ring
          rw [h3]
          calc _ ≤ b * (((k + 1 : ℕ) : ℝ) * b ^ k * (b - a)) + (b - a) * b ^ (k + 1) := by
                gcongr
            _ = _ := by push_cast; ring
      push_cast at hd ⊢
      rw [div_le_iff₀ (by positivity)]
      calc _ ≤ ((k : ℝ) + 1) * b ^ k * (b - a) := hd
        _ = (b - a) * b ^ k * (k + 1) := by ring
        _ ≤ (b - a) * b ^ k * (k + 1) * (k + 1) := by
          have hb : 0 ≤ b := ha.trans hq
          have : 0 ≤ (b - a) * b ^ k * (k + 1) := by
            have : 0 ≤ b - a := by linarith
            positivity
          have hk1 : (0 : ℝ) ≤ k := by positivity
          nlinarith
        _ = _ := by field_simp
  have ex := (summable_term x).sum_add_tsum_nat_add 1
  have ey := (summable_term y).sum_add_tsum_nat_add 1
  rw [Finset.sum_range_one, term_zero] at ex ey
  have e1 : besselI0 x = ∑' m, term x m := rfl
  have e2 : besselI0 y = ∑' m, term y m := rfl
  have sx := (summable_nat_add_iff 1).mpr (summable_term x)
  have sy := (summable_nat_add_iff 1).mpr (summable_term y)
  constructor
  · rw [e1, e2, ← ex, ← ey]
    have := Summable.tsum_le_tsum (fun k => (hk k).1) sx sy
    linarith
  · have h1 := Summable.tsum_le_tsum (fun k => (hk k).2) (sy.sub sx) ((summable_term y).mul_left ((y ^ 2 - x ^ 2) / 4))
    rw [sy.tsum_sub sx, tsum_mul_left] at h1
    rw [e1, e2, ← ex, ← ey]
    rw [← ey] at h1
    linarith

theorem one_le_bessel (x : ℝ) : 1 ≤ besselI0 x := by
  rw [bessel_split]
  linarith [one_le_partI0 x, tail_nonneg x]

/-! ### The loop -/

section

variable {V : Type} [Zero V] [Add V] [Sub V] [Mul V] [Neg V] [Div V] [IntCast V]

/-- The variable `val` of the loop. -/
def Rounded.factor (one x : V) : ℕ → V
  | 0 => one
  | k + 1 => Rounded.factor one x k * (x / ((2 * (k + 1) : ℕ) : ℤ))

/-- The variable `sum` of the loop. -/
def Rounded.partialSum (one x : V) (n : ℕ) : Kahan V :=
  (Kahan.init one).feed ((List.range n).map fun k => Rounded.factor one x (k + 1) * Rounded.factor one x (k + 1))

omit [Zero V] [Mul V] [Neg V] [Div V] [IntCast V] in
theorem feed_append (k : Kahan V) (l : List V) (a : V) : k.feed (l ++ [a]) = ((k.feed l).call a).1 := by
  induction l generalizing k with
  | nil => rfl
  | cons b l ih => exact ih _

omit [Neg V] in
theorem Rounded.partialSum_succ (one x : V) (n : ℕ) :
    Rounded.partialSum one x (n + 1) = ((Rounded.partialSum one x n).call (Rounded.factor one x (n + 1) * Rounded.factor one x (n + 1))).1 := by
  unfold Rounded.partialSum
  rw [List.range_succ, List.map_append, List.map_singleton, feed_append]

omit [Neg V] in
/-- Where the loop ends: after all terms, or after one that has no effect. -/
theorem Rounded.loop_exit [BEq V] [LawfulBEq V] (one x : V) (j k : ℕ) : ∃ n, k ≤ n ∧ n ≤ k + j ∧
    Rounded.i0Loop x (List.range' (k + 1) j) (Rounded.partialSum one x k) (Rounded.factor one x k) = (Rounded.partialSum one x n).high ∧
    (n = k + j ∨ ∃ m, n = m + 1 ∧ Rounded.partialSum one x (m + 1) = Rounded.partialSum one x m) := by
  induction j generalizing k with
  | zero => exact ⟨k, le_rfl, le_rfl, rfl, Or.inl rfl⟩
  | succ j ih =>
    simp only [List.range'_succ, Rounded.i0Loop]
    have ef : Rounded.factor one x k * (x / (((2 * (k + 1) : ℕ) : ℤ) : V)) = Rounded.factor one x (k + 1) := rfl
    rw [ef]
    have es : ((Rounded.partialSum one x k).same (Rounded.factor one x (k + 1) * Rounded.factor one x (k + 1))).1 = Rounded.partialSum one x (k + 1) :=
      (Rounded.partialSum_succ one x k).symm
    have es2 : ((Rounded.partialSum one x k).same (Rounded.factor one x (k + 1) * Rounded.factor one x (k + 1))).2 = (Rounded.partialSum one x k).eq (Rounded.partialSum one x (k + 1)) := by
      rw [Rounded.partialSum_succ]; rfl
    rw [es, es2]
    split_ifs with c
    · refine ⟨k + 1, by omega, by omega, rfl, Or.inr ⟨k, rfl, ?_⟩⟩
      simp only [Kahan.eq, Bool.and_eq_true, beq_iff_eq] at c
      cases h1 : Rounded.partialSum one x k with
      | mk a b =>
        cases h2 : Rounded.partialSum one x (k + 1) with
        | mk a' b' =>
          rw [h1, h2] at c
          obtain ⟨c1, c2⟩ := c
          simp only at c1 c2
          rw [c1, c2]
    · obtain ⟨n, h1, h2, h3, h4⟩ := ih (k + 1)
      refine ⟨n, by omega, by omega, h3, ?_⟩
      rcases h4 with h4 | h4
      · exact Or.inl (by omega)
      · exact Or.inr h4

variable {val : V → ℝ} {u : ℝ}

omit [Mul V] [Neg V] [Div V] [IntCast V] in
/-- A term without effect is tiny. -/
theorem call_same (hR : Rounded V val u) (hu0 : 0 ≤ u) (hu : u ≤ 1 / 1000) (k : Kahan V) (w : V) (h : (k.call w).1 = k) : |val w| ≤ 3 * u ^ 2 * |val k.high| := by
  have h1 : k.high + (w - k.low) = k.high := congrArg Kahan.high h
  have h2 : (k.high + (w - k.low) - k.high) - (w - k.low) = k.low := congrArg Kahan.low h
  rw [h1] at h2
  set y := w - k.low with hy
  have a1 := hR.add k.high y
  rw [h1] at a1
  have a2 := hR.sub k.high k.high
  rw [sub_self, abs_zero, mul_zero, sub_zero] at a2
  have a2' : val (k.high - k.high) = 0 := abs_eq_zero.mp (le_antisymm a2 (abs_nonneg _))
  have a3 := hR.sub (k.high - k.high) y
  rw [h2, a2', zero_sub, abs_neg, sub_neg_eq_add] at a3
  have a4 := hR.sub w k.low
  rw [← hy] at a4
  set H := val k.high
  set L := val k.low
  set Y := val y
  set W := val w
  have b1 : |Y| ≤ u * (|H| + |Y|) := by
    have : |H - (H + Y)| = |Y| := by rw [show H - (H + Y) = -Y by ring, abs_neg]
    rw [this] at a1
    exact a1.trans (mul_le_mul_of_nonneg_left (abs_add_le _ _) hu0)
  have hH := abs_nonneg H
  have hY := abs_nonneg Y
  have b2 : |Y| ≤ 1.002 * u * |H| := by nlinarith
  have b3 : |W - L| ≤ |Y| + u * |W - L| := by
    have : |W - L| ≤ |Y| + |Y - (W - L)| := by
      have := abs_sub_abs_le_abs_sub (W - L) Y
      rw [abs_sub_comm (W - L) Y] at this
      linarith
    linarith
  have b4 : |W - L| ≤ 1.002 * |Y| := by nlinarith [abs_nonneg (W - L)]
  have b5 : |W| ≤ |Y - (W - L)| + |L + Y| := by
    have e : W = -(Y - (W - L)) + (L + Y) := by ring
    calc |W| = |-(Y - (W - L)) + (L + Y)| := by rw [← e]
      _ ≤ _ := by
        refine (abs_add_le _ _).trans ?_
        rw [abs_neg]
  have b6 : |W| ≤ u * (1.002 * |Y|) + u * |Y| := b5.trans (add_le_add (a4.trans (mul_le_mul_of_nonneg_left b4 hu0)) a3)
  calc |W| ≤ 2.002 * u * |Y| := by linarith
    _ ≤ 2.002 * u * (1.002 * u * |H|) := by gcongr
    _ ≤ _ := by nlinarith [mul_nonneg (mul_nonneg hu0 hu0) hH]

/-- Every factor has a relative error of two roundings for each step. -/
theorem Rounded.factor_rel (hR : RoundedField V val u) (hu0 : 0 ≤ u) (one x : V) (h1 : val one = 1) (hc : ∀ k : ℕ, 1 ≤ k → k ≤ 34 → val (((2 * k : ℕ) : ℤ) : V) = ((2 * k : ℕ) : ℝ)) (k : ℕ) (hk : k ≤ 34) :
    Rel u (2 * k) (val (Rounded.factor one x k)) ((val x / 2) ^ k / k.factorial) := by
  induction k with
  | zero => simpa [Rounded.factor, h1] using Rel.refl u 1
  | succ k ih =>
    have hd := hR.div x (((2 * (k + 1) : ℕ) : ℤ) : V) (by rw [hc (k + 1) (by omega) hk]; positivity)
    rw [hc (k + 1) (by omega) hk] at hd
    have hd' : Rel u 1 (val (x / (((2 * (k + 1) : ℕ) : ℤ) : V))) (val x / ((2 * (k + 1) : ℕ) : ℝ)) := by
      unfold Rel
      rw [pow_one, add_sub_cancel_left]
      exact hd
    have := (ih (by omega)).mul hu0 hd' (hR.mul _ _)
    rw [val_succ] at this
    exact this

/-- The terms. -/
theorem Rounded.term_rel (hR : RoundedField V val u) (hu0 : 0 ≤ u) (hu : u ≤ 1 / 1000) (one x : V) (h1 : val one = 1)
    (hc : ∀ k : ℕ, 1 ≤ k → k ≤ 34 → val (((2 * k : ℕ) : ℤ) : V) = ((2 * k : ℕ) : ℝ)) (k : ℕ) (hk : k ≤ 34) :
    |val (Rounded.factor one x k * Rounded.factor one x k) - term (val x) k| ≤ 1.14 * (4 * k + 1) * u * term (val x) k := by
  have h := Rounded.factor_rel hR hu0 one x h1 hc k hk
  have := h.mul hu0 h (hR.mul _ _)
  unfold Rel at this
  rw [← sq, ← term, abs_of_nonneg (term_nonneg _ _)] at this
  refine this.trans ?_
  have hp := pow_error u hu0 hu (2 * k + 2 * k + 1) (by omega)
  push_cast at hp
  calc _ ≤ 1.14 * (2 * k + 2 * k + 1) * u * term (val x) k := mul_le_mul_of_nonneg_right hp (term_nonneg _ _)
    _ = _ := by ring

set_option maxHeartbeats 1000000 in
/-- **C83** In any rounded arithmetic with relative errors `u` from `10^-20` to `10^-3`, in which the even numbers up to 68 are exact: for arguments up to 9.6, a little more than the three half turns
the comment mentions, the code finds the Bessel function with a relative error of at most 27 units. -/
theorem C83_i0 [BEq V] [LawfulBEq V] (hR : RoundedField V val u) (hu0 : 1 / 10 ^ 20 ≤ u) (hu : u ≤ 1 / 1000) (one x : V) (h1 : val one = 1)
    (hc : ∀ k : ℕ, 1 ≤ k → k ≤ 34 → val (((2 * k : ℕ) : ℤ) : V) = ((2 * k : ℕ) : ℝ)) (hx : |val x| ≤ 9.6) :
    |val (Rounded.i0 one x) - besselI0 (val x)| ≤ 27 * u * besselI0 (val x) := by
  have hu00 : 0 ≤ u := le_trans (by positivity) hu0
  obtain ⟨n, -, hn, he, hend⟩ := Rounded.loop_exit one x 34 0
  rw [zero_add] at hn hend
  have ei : Rounded.i0 one x = (Rounded.partialSum one x n).high := by
    rw [← he]; rfl
  rw [ei]
  set S := ∑ k ∈ Finset.range (n + 1), term (val x) k with hS
  have hS1 : 1 ≤ S := by
    rw [hS, Finset.sum_range_succ', term_zero]
    have := Finset.sum_nonneg (s := Finset.range n) (f := fun k => term (val x) (k + 1)) (fun i _ => term_nonneg _ _)
    linarith
  have hSI : S ≤ besselI0 (val x) := (summable_term (val x)).sum_le_tsum _ fun i _ => term_nonneg _ _
  -- the terms
  set E := ∑ k ∈ Finset.range n, val (Rounded.factor one x (k + 1) * Rounded.factor one x (k + 1)) with hE
  have hterms : ∑ k ∈ Finset.range n, |val (Rounded.factor one x (k + 1) * Rounded.factor one x (k + 1)) - term (val x) (k + 1)| ≤ 23.1 * u * S := by
    have hi := sum_index_le (val x) n
    rw [Finset.sum_range_succ'] at hi
    simp only [Nat.cast_zero, zero_mul, add_zero] at hi
    have hS' : ∑ k ∈ Finset.range n, term (val x) (k + 1) ≤ S := by
      rw [hS, Finset.sum_range_succ', term_zero]; linarith
    calc _ ≤ ∑ k ∈ Finset.range n, 1.14 * (4 * ((k + 1 : ℕ) : ℝ) + 1) * u * term (val x) (k + 1) := by
          apply Finset.sum_le_sum
          intro k hk
          have := Finset.mem_range.mp hk
          exact Rounded.term_rel hR hu00 hu one x h1 hc (k + 1) (by omega)
      _ = 1.14 * u * (4 * ∑ k ∈ Finset.range n, ((k + 1 : ℕ) : ℝ) * term (val x) (k + 1) + ∑ k ∈ Finset.range n, term (val x) (k + 1)) := by
          rw [Finset.mul_sum, ← Finset.sum_add_distrib, Finset.mul_sum]
          exact Finset.sum_congr rfl fun k _ => by ring
      _ ≤ 1.14 * u * (4 * (4.8 * S) + S) := by
          have h48 : |val x| / 2 * S ≤ 4.8 * S := by
            apply mul_le_mul_of_nonneg_right _ (by linarith)
            linarith
          gcongr
          exact hi.trans h48
      _ ≤ _ := by nlinarith [mul_nonneg hu00 (by linarith : 0 ≤ S)]
  have hpos : ∀ k < n, 0 ≤ val (Rounded.factor one x (k + 1) * Rounded.factor one x (k + 1)) := by
    intro k hk
    have h := hR.mul (Rounded.factor one x (k + 1)) (Rounded.factor one x (k + 1))
    have h0 := mul_self_nonneg (val (Rounded.factor one x (k + 1)))
    rw [abs_of_nonneg h0] at h
    have := (abs_le.mp h).1
    nlinarith
  have hES : |1 + E - S| ≤ 23.1 * u * S := by
    refine le_trans ?_ hterms
    have : 1 + E - S = ∑ k ∈ Finset.range n, (val (Rounded.factor one x (k + 1) * Rounded.factor one x (k + 1)) - term (val x) (k + 1)) := by
      rw [hS, Finset.sum_range_succ', term_zero, Finset.sum_sub_distrib]; ring
    rw [this]
    exact Finset.abs_sum_le_sum_abs _ _
  -- the summation
  have hn' : (n : ℝ) ≤ 34 := by exact_mod_cast hn
  have hKahan : |val (Rounded.partialSum one x n).high - (1 + E)| ≤ 3.41 * u * (1 + E) := by
    have hlen : ((List.range n).map fun k => Rounded.factor one x (k + 1) * Rounded.factor one x (k + 1)).length = n := by simp
    have := Kahan.C15_standard_model val u hR.toRounded hu00 (by linarith) one ((List.range n).map fun k => Rounded.factor one x (k + 1) * Rounded.factor one x (k + 1)) (by
      rw [hlen]
      nlinarith)
    rw [hlen, h1, abs_one, List.map_map, List.map_map] at this
    have e1 : ((List.range n).map (val ∘ fun k => Rounded.factor one x (k + 1) * Rounded.factor one x (k + 1))).sum = E := by
      rw [hE, Finset.sum_range, ← List.sum_ofFn, List.ofFn_eq_map]
      rw [← List.map_coe_finRange_eq_range, List.map_map]
      rfl
    have e2 : ((List.range n).map ((fun y => |val y|) ∘ fun k => Rounded.factor one x (k + 1) * Rounded.factor one x (k + 1))).sum = E := by
      rw [← e1]
      congr 1
      apply List.map_congr_left
      intro k hk
      exact abs_of_nonneg (hpos k (List.mem_range.mp hk))
    rw [e1, e2] at this
    have hE0 : 0 ≤ 1 + E := by
      have := Finset.sum_nonneg (s := Finset.range n) (f := fun k => val (Rounded.factor one x (k + 1) * Rounded.factor one x (k + 1))) fun k hk => hpos k (Finset.mem_range.mp hk)
      linarith
    refine this.trans (mul_le_mul_of_nonneg_right ?_ hE0)
    nlinarith
  have hE1 : 1 + E ≤ 1.0231 * S := by
    have := (abs_le.mp hES).2
    nlinarith
  have hhigh : |val (Rounded.partialSum one x n).high - S| ≤ 26.6 * u * S := by
    calc _ ≤ |val (Rounded.partialSum one x n).high - (1 + E)| + |1 + E - S| := abs_sub_le _ _ _
      _ ≤ 3.41 * u * (1.0231 * S) + 23.1 * u * S := by
        apply add_le_add _ hES
        exact hKahan.trans (by gcongr)
      _ ≤ _ := by nlinarith [mul_nonneg hu00 (by linarith : 0 ≤ S)]
  -- what is left out
  have htail : besselI0 (val x) - S ≤ 0.1 * u * S := by
    have hstop : (∃ m, n = m + 1 ∧ Rounded.partialSum one x (m + 1) = Rounded.partialSum one x m) → term (val x) n ≤ 3.8 * u ^ 2 * S := by
      rintro ⟨m, rfl, hm⟩
      have hsame := hm
      rw [Rounded.partialSum_succ] at hsame
      have h2 := call_same hR.toRounded hu00 hu _ _ hsame
      rw [← hm] at h2
      have h3 := Rounded.term_rel hR hu00 hu one x h1 hc (m + 1) hn
      have h4 : |val (Rounded.partialSum one x (m + 1)).high| ≤ 1.03 * S := by
        have := abs_sub_abs_le_abs_sub (val (Rounded.partialSum one x (m + 1)).high) S
        rw [abs_of_nonneg (by linarith : 0 ≤ S)] at this
        nlinarith
      have h5 := (abs_le.mp h3).1
      have h6 := le_abs_self (val (Rounded.factor one x (m + 1) * Rounded.factor one x (m + 1)))
      have ht := term_nonneg (val x) (m + 1)
      have h7 : 1.14 * (4 * ((m + 1 : ℕ) : ℝ) + 1) * u ≤ 0.157 := by
        have : 4 * ((m + 1 : ℕ) : ℝ) + 1 ≤ 137 := by linarith
        nlinarith
      have h8 : 1.14 * (4 * ((m + 1 : ℕ) : ℝ) + 1) * u * term (val x) (m + 1) ≤ 0.157 * term (val x) (m + 1) := mul_le_mul_of_nonneg_right h7 ht
      have h9 : 3 * u ^ 2 * |val (Rounded.partialSum one x (m + 1)).high| ≤ 3 * u ^ 2 * (1.03 * S) := by gcongr
      nlinarith [mul_nonneg (sq_nonneg u) (by linarith : 0 ≤ S)]
    have hsmall : term (val x) n ≤ 0.1 * u * S := by
      rcases hend with h | h
      · rw [h]
        have := term_last (val x) hx
        have : (1 : ℝ) / 10 ^ 30 ≤ 0.1 * u := by
          calc (1 : ℝ) / 10 ^ 30 ≤ 0.1 * (1 / 10 ^ 20) := by norm_num
            _ ≤ _ := by gcongr
        nlinarith
      · have := hstop h
        nlinarith [mul_nonneg hu00 (by linarith : 0 ≤ S)]
    refine (tail_le_last (val x) n (term_halves (val x) n ?_)).trans hsmall
    by_cases h6 : 6 ≤ n
    · exact Or.inl ⟨hx, h6⟩
    · right
      rcases hend with h | h
      · omega
      · have h3 := hstop h
        obtain ⟨m, hm, -⟩ := h
        refine ⟨?_, by omega⟩
        by_contra c
        have := early_large (val x) n (by omega) (by linarith)
        rw [← hS] at this
        nlinarith [mul_nonneg hu00 (by linarith : 0 ≤ S)]
  calc _ ≤ |val (Rounded.partialSum one x n).high - S| + |S - besselI0 (val x)| := abs_sub_le _ _ _
    _ ≤ 26.6 * u * S + 0.1 * u * S := by
      apply add_le_add hhigh
      rw [abs_sub_comm, abs_of_nonneg (by linarith)]
      exact htail
    _ ≤ 27 * u * S := by nlinarith [mul_nonneg hu00 (by linarith : 0 ≤ S)]
    _ ≤ _ := by gcongr

end

/-! ### The window -/

theorem bessel_near (x X δ : ℝ) (h : |x ^ 2 - X ^ 2| / 4 ≤ δ) (hδ : δ ≤ 1 / 100) : |besselI0 x - besselI0 X| ≤ 1.0102 * δ * besselI0 X := by
  have h0 : 0 ≤ δ := le_trans (by positivity) h
  have hX := one_le_bessel X
  have hx := one_le_bessel x
  rcases le_total |x| |X| with c | c
  · obtain ⟨a, b⟩ := bessel_change x X c
    rw [abs_sub_comm, abs_of_nonneg (by linarith)]
    have : (X ^ 2 - x ^ 2) / 4 ≤ δ := le_trans (by rw [abs_sub_comm]; linarith [le_abs_self (X ^ 2 - x ^ 2)]) h
    nlinarith
  · obtain ⟨a, b⟩ := bessel_change X x c
    rw [abs_of_nonneg (by linarith)]
    have : (x ^ 2 - X ^ 2) / 4 ≤ δ := le_trans (by linarith [le_abs_self (x ^ 2 - X ^ 2)]) h
    have h1 : besselI0 x - besselI0 X ≤ δ * besselI0 x := b.trans (by gcongr)
    have h2 : besselI0 x ≤ 1.0102 * besselI0 X := by nlinarith
    nlinarith

theorem quotient_near (a A b B d e : ℝ) (hA : 0 < A) (hB : 0 < B) (ha : |a - A| ≤ d * A) (hb : |b - B| ≤ e * B) (he : e ≤ 3 / 1000) : 0 < b ∧ |a / b - A / B| ≤ 1.004 * (d + e) * (A / B) := by
  have hb1 : 0.997 * B ≤ b := by
    have := (abs_le.mp hb).1
    nlinarith
  have hb0 : 0 < b := by nlinarith
  refine ⟨hb0, ?_⟩
  have h0 : 0 ≤ d * A + e * B * (A / B) := by
    have h1 := (abs_nonneg _).trans ha
    have h2 := (abs_nonneg _).trans hb
    have : 0 ≤ A / B := by positivity
    positivity
  have e1 : a / b - A / B = ((a - A) - (b - B) * (A / B)) / b := by field_simp; ring
  rw [e1, abs_div, abs_of_pos hb0, div_le_iff₀ hb0]
  calc _ ≤ |a - A| + |(b - B) * (A / B)| := abs_sub _ _
    _ ≤ d * A + e * B * (A / B) := by
      rw [abs_mul, abs_of_pos (by positivity : 0 < A / B)]
      exact add_le_add ha (by gcongr)
    _ = (d + e) * (A / B) * B := by field_simp
    _ ≤ (d + e) * (A / B) * (1.004 * b) := by
      apply mul_le_mul_of_nonneg_left (by linarith)
      have : d * A + e * B * (A / B) = (d + e) * (A / B) * B := by field_simp
      rw [this] at h0
      by_contra c
      push Not at c
      nlinarith
    _ = _ := by ring

set_option maxHeartbeats 1000000 in
/-- From the errors of the parts to the error of the weight. `Y` is `πa`, `h` the radicand. -/
theorem kaiser_numbers (u Y h h' q y x P a : ℝ) (hu0 : 0 ≤ u) (hu : u ≤ 1 / 65536) (ha : |a| ≤ 3) (hY : Y = Real.pi * a) (hh0 : 0 ≤ h) (h0' : 0 ≤ h') (h1' : h' ≤ 1) (hh : |h' - h| ≤ 16.01 * u)
    (hq : |q - √h'| ≤ u * √h') (hP : |P - Real.pi| ≤ 2.001 * u * Real.pi) (hy : |y - P * a| ≤ u * |P * a|) (hx : |x - y * q| ≤ u * |y * q|) :
    |x| ≤ 9.6 ∧ |y| ≤ 9.6 ∧ |x ^ 2 - (Y * √h) ^ 2| / 4 ≤ 6.56 * u * Y ^ 2 ∧ |y ^ 2 - Y ^ 2| / 4 ≤ 1.54 * u * Y ^ 2 := by
  have hpi := Real.pi_pos
  have hpi2 : Real.pi < 3.1416 := Real.pi_lt_d4
  have hYa : |Y| ≤ 9.4248 := by
    rw [hY, abs_mul, abs_of_pos hpi]
    nlinarith [abs_nonneg a]
  have y1 : |P * a - Y| ≤ 2.001 * u * |Y| := by
    rw [hY, ← sub_mul, abs_mul, abs_mul, abs_of_pos hpi, ← mul_assoc]
    exact mul_le_mul_of_nonneg_right hP (abs_nonneg _)
  have hY0 := abs_nonneg Y
  have uY : 0 ≤ u * |Y| := by positivity
  have uuY : u * (u * |Y|) ≤ 1 / 65536 * (u * |Y|) := by gcongr
  have y2 : |y - Y| ≤ 3.002 * u * |Y| := by
    have h1 : |P * a| ≤ |Y| + 2.001 * u * |Y| := by
      have := abs_sub_abs_le_abs_sub (P * a) Y
      linarith
    calc _ ≤ |y - P * a| + |P * a - Y| := abs_sub_le _ _ _
      _ ≤ u * (|Y| + 2.001 * u * |Y|) + 2.001 * u * |Y| := by
        apply add_le_add _ y1
        exact hy.trans (by gcongr)
      _ ≤ _ := by nlinarith
  have y3 : |y| ≤ (1 + 3.002 * u) * |Y| := by
    have := abs_sub_abs_le_abs_sub y Y
    linarith
  have hs0 := Real.sqrt_nonneg h'
  have hs1 : √h' ≤ 1 := Real.sqrt_le_one.mpr h1'
  have q1 : |q| ≤ (1 + u) * √h' := by
    have := abs_sub_abs_le_abs_sub q (√h')
    rw [abs_of_nonneg hs0] at this
    linarith
  set Z := |Y| * √h' with hZ
  have hZ0 : 0 ≤ Z := by positivity
  have uZ : 0 ≤ u * Z := by positivity
  have uuZ : u * (u * Z) ≤ 1 / 65536 * (u * Z) := by gcongr
  have uuuZ : u * (u * (u * Z)) ≤ 1 / 65536 * (1 / 65536 * (u * Z)) := by
    calc u * (u * (u * Z)) ≤ u * (1 / 65536 * (u * Z)) := by gcongr
      _ ≤ _ := by gcongr
  have yq : |y * q - Y * √h'| ≤ 4.003 * u * Z := by
    have e : y * q - Y * √h' = y * (q - √h') + (y - Y) * √h' := by ring
    rw [e]
    calc _ ≤ |y| * |q - √h'| + |y - Y| * √h' := by
          refine (abs_add_le _ _).trans ?_
          rw [abs_mul, abs_mul, abs_of_nonneg hs0]
      _ ≤ (1 + 3.002 * u) * |Y| * (u * √h') + 3.002 * u * |Y| * √h' := by gcongr
      _ = 4.002 * (u * Z) + 3.002 * (u * (u * Z)) := by rw [hZ]; ring
      _ ≤ _ := by linarith
  have hYZ : |Y * √h'| = Z := by rw [abs_mul, abs_of_nonneg hs0]
  have x1 : |x - Y * √h'| ≤ 5.004 * u * Z := by
    have h1 : |y * q| ≤ (1 + 4.003 * u) * Z := by
      have := abs_sub_abs_le_abs_sub (y * q) (Y * √h')
      rw [hYZ] at this
      linarith
    calc _ ≤ |x - y * q| + |y * q - Y * √h'| := abs_sub_le _ _ _
      _ ≤ u * ((1 + 4.003 * u) * Z) + 4.003 * u * Z := by
        apply add_le_add _ yq
        exact hx.trans (by gcongr)
      _ = 5.003 * (u * Z) + 4.003 * (u * (u * Z)) := by ring
      _ ≤ _ := by linarith
  have hZY : Z ≤ |Y| := by
    rw [hZ]
    exact mul_le_of_le_one_right hY0 hs1
  have x2 : |x| ≤ (1 + 5.004 * u) * Z := by
    have := abs_sub_abs_le_abs_sub x (Y * √h')
    rw [hYZ] at this
    linarith
  have hZ2 : Z ^ 2 = Y ^ 2 * h' := by rw [hZ, mul_pow, sq_abs, Real.sq_sqrt h0']
  have uY2 : 0 ≤ u * Y ^ 2 := by positivity
  have xx : |x ^ 2 - Z ^ 2| ≤ 10.01 * u * Y ^ 2 := by
    have e : x ^ 2 - Z ^ 2 = (x - Y * √h') * (x + Y * √h') := by
      rw [hZ2]
      have := Real.sq_sqrt h0'
      linear_combination Y ^ 2 * this
    have h1 : |x + Y * √h'| ≤ (2 + 5.004 * u) * Z := by
      refine (abs_add_le _ _).trans ?_
      rw [hYZ]
      linarith
    rw [e, abs_mul]
    calc _ ≤ 5.004 * u * Z * ((2 + 5.004 * u) * Z) := by gcongr
      _ ≤ 5.004 * u * |Y| * ((2 + 5.004 * u) * |Y|) := by gcongr
      _ = 10.008 * (u * Y ^ 2) + 5.004 * 5.004 * (u * (u * Y ^ 2)) := by rw [← sq_abs Y]; ring
      _ ≤ 10.008 * (u * Y ^ 2) + 5.004 * 5.004 * (1 / 65536 * (u * Y ^ 2)) := by gcongr
      _ ≤ _ := by linarith
  have yy : |y ^ 2 - Y ^ 2| ≤ 6.01 * u * Y ^ 2 := by
    have e : y ^ 2 - Y ^ 2 = (y - Y) * (y + Y) := by ring
    have h1 : |y + Y| ≤ (2 + 3.002 * u) * |Y| := by
      refine (abs_add_le _ _).trans ?_
      linarith
    rw [e, abs_mul]
    calc _ ≤ 3.002 * u * |Y| * ((2 + 3.002 * u) * |Y|) := by gcongr
      _ = 6.004 * (u * Y ^ 2) + 3.002 * 3.002 * (u * (u * Y ^ 2)) := by rw [← sq_abs Y]; ring
      _ ≤ 6.004 * (u * Y ^ 2) + 3.002 * 3.002 * (1 / 65536 * (u * Y ^ 2)) := by gcongr
      _ ≤ _ := by linarith
  have zz : |Z ^ 2 - (Y * √h) ^ 2| ≤ 16.01 * u * Y ^ 2 := by
    rw [hZ2, mul_pow, Real.sq_sqrt hh0, ← mul_sub, abs_mul, abs_of_nonneg (sq_nonneg Y)]
    calc _ ≤ Y ^ 2 * (16.01 * u) := by gcongr
      _ = _ := by ring
  refine ⟨?_, ?_, ?_, ?_⟩
  · calc |x| ≤ (1 + 5.004 * u) * Z := x2
      _ ≤ (1 + 5.004 * (1 / 65536)) * 9.4248 := by gcongr; exact hZY.trans hYa
      _ ≤ _ := by norm_num
  · calc |y| ≤ (1 + 3.002 * u) * |Y| := y3
      _ ≤ (1 + 3.002 * (1 / 65536)) * 9.4248 := by gcongr
      _ ≤ _ := by norm_num
  · have := abs_sub_le (x ^ 2) (Z ^ 2) ((Y * √h) ^ 2)
    linarith
  · linarith

/-- The radicand of the Kaiser window is never negative, and its square root is known. -/
theorem Rounded.radicand (l p : ℕ) [NeZero p] (hp : 16 ≤ p) (hl : p ≤ l) (n N : ℤ) (hN : 2 ≤ N) (hN2 : N ≤ 2 ^ 30) (hn : 0 ≤ n) (hnN : n < N) :
    ∃ s : Binary p, Rounded.offset2 (Binary.literal l p 1) n N = .ok s ∧ (Binary.literal l p 1).val = 1 ∧ 0 ≤ ((Binary.literal l p 1) - s).val ∧ ((Binary.literal l p 1) - s).val ≤ 1 ∧
      |((((Binary.literal l p 1) - s).val : ℚ) : ℝ) - (1 - (2 * (n : ℝ) / (N - 1) - 1) ^ 2)| ≤ 16.01 * (1 / 2 ^ p) := by
  have hp0 : 0 < p := by omega
  have h1v : (Binary.literal l p 1).val = 1 := by
    have := literal_exact l p hl 1 0 (by rw [abs_one]; exact one_lt_pow₀ (by norm_num) (by omega))
    simpa using this
  have rep1 : Binary.Representable p 1 := ⟨1, 0, by rw [abs_one]; exact one_lt_pow₀ (by norm_num) (by omega), by simp⟩
  have rep0 : Binary.Representable p 0 := ⟨0, 0, by positivity, by simp⟩
  have repm : Binary.Representable p (-1) := ⟨-1, 0, by rw [abs_neg, abs_one]; exact one_lt_pow₀ (by norm_num) (by omega), by simp⟩
  have rep2 : Binary.Representable p 2 := ⟨1, 1, by rw [abs_one]; exact one_lt_pow₀ (by norm_num) (by omega), by simp⟩
  set r : Binary p := (((2 * n : ℤ) : Binary p)) / (((N - 1 : ℤ) : Binary p)) - Binary.literal l p 1 with hr
  have i1 : int32 (2 * n) = .ok (2 * n) := int32_fits ⟨by omega, by omega⟩
  have i2 : int32 (N - 1) = .ok (N - 1) := int32_fits ⟨by omega, by omega⟩
  have hN0 : (N - 1 == 0) = false := beq_eq_false_iff_ne.mpr (by omega)
  refine ⟨r * r, ?_, h1v, ?_⟩
  · simp only [Rounded.offset2, i1, i2, bind, Except.bind, hN0, M.ite, pure, Except.pure]
    rfl
  -- the names of the values
  obtain ⟨A, hA⟩ : ∃ A : ℚ, A = Binary.round p ((2 * n : ℤ) : ℚ) := ⟨_, rfl⟩
  obtain ⟨B, hB⟩ : ∃ B : ℚ, B = Binary.round p ((N - 1 : ℤ) : ℚ) := ⟨_, rfl⟩
  obtain ⟨ρ, hρ⟩ : ∃ ρ : ℚ, ρ = Binary.round p (A / B) := ⟨_, rfl⟩
  have rv : r.val = Binary.round p (ρ - 1) := by
    rw [hr, hρ, hA, hB]
    show Binary.round p (Binary.round p (Binary.round p _ / Binary.round p _) - (Binary.literal l p 1).val) = _
    rw [h1v]
  obtain ⟨t, ht⟩ : ∃ t : ℚ, t = Binary.round p (ρ - 1) := ⟨_, rfl⟩
  rw [← ht] at rv
  obtain ⟨s, hs⟩ : ∃ s : ℚ, s = Binary.round p (t * t) := ⟨_, rfl⟩
  have gv : ((Binary.literal l p 1) - r * r).val = Binary.round p (1 - s) := by
    show Binary.round p ((Binary.literal l p 1).val - Binary.round p (r.val * r.val)) = _
    rw [h1v, rv, hs]
  rw [gv]
  have hNq : (1 : ℚ) ≤ ((N - 1 : ℤ) : ℚ) := by exact_mod_cast (by omega : (1 : ℤ) ≤ N - 1)
  have hnq : (0 : ℚ) ≤ ((2 * n : ℤ) : ℚ) := by exact_mod_cast (by omega : (0 : ℤ) ≤ 2 * n)
  have hB1 : 1 ≤ B := by rw [hB]; exact Binary.le_round p hp0 _ _ rep1 hNq
  have hA0 : 0 ≤ A := by rw [hA]; exact Binary.le_round p hp0 _ _ rep0 hnq
  have hAB : A ≤ 2 * B := by
    rw [hA, hB, ← Binary.round_two_mul]
    apply Binary.round_mono p hp0
    exact_mod_cast (by omega : 2 * n ≤ 2 * (N - 1))
  have hq0 : 0 ≤ A / B := by positivity
  have hq2 : A / B ≤ 2 := by rw [div_le_iff₀ (by linarith)]; exact hAB
  have hρ0 : 0 ≤ ρ := by rw [hρ]; exact Binary.le_round p hp0 _ _ rep0 hq0
  have hρ2 : ρ ≤ 2 := by rw [hρ]; exact Binary.round_le p hp0 _ _ rep2 hq2
  have ht0 : -1 ≤ t := by rw [ht]; exact Binary.le_round p hp0 _ _ repm (by linarith)
  have ht1 : t ≤ 1 := by rw [ht]; exact Binary.round_le p hp0 _ _ rep1 (by linarith)
  have htt : t * t ≤ 1 := by nlinarith
  have hs0 : 0 ≤ s := by rw [hs]; exact Binary.le_round p hp0 _ _ rep0 (mul_self_nonneg t)
  have hs1 : s ≤ 1 := by rw [hs]; exact Binary.round_le p hp0 _ _ rep1 htt
  refine ⟨Binary.le_round p hp0 _ _ rep0 (by linarith), Binary.round_le p hp0 _ _ rep1 (by linarith), ?_⟩
  -- the errors
  obtain ⟨u, hu⟩ : ∃ u : ℚ, u = 1 / 2 ^ p := ⟨_, rfl⟩
  have hu0 : 0 < u := by rw [hu]; positivity
  have hu1 : u ≤ 1 / 65536 := by
    rw [hu, show (65536 : ℚ) = 2 ^ 16 by norm_num]
    gcongr
    norm_num
  have err : ∀ x : ℚ, |Binary.round p x - x| ≤ u * |x| := by
    intro x
    have := Binary.round_error p x
    rwa [hu, one_div_mul_eq_div]
  have eA := err ((2 * n : ℤ) : ℚ)
  have eB := err ((N - 1 : ℤ) : ℚ)
  have eρ := err (A / B)
  have et := err (ρ - 1)
  have es := err (t * t)
  have eh := err (1 - s)
  rw [← hA, abs_of_nonneg hnq] at eA
  rw [← hB, abs_of_nonneg (by linarith : (0 : ℚ) ≤ ((N - 1 : ℤ) : ℚ))] at eB
  rw [← hρ, abs_of_nonneg hq0] at eρ
  rw [← ht] at et
  rw [← hs, abs_of_nonneg (mul_self_nonneg t)] at es
  rw [abs_of_nonneg (by linarith : 0 ≤ 1 - s)] at eh
  obtain ⟨a, ha⟩ : ∃ a : ℚ, a = ((2 * n : ℤ) : ℚ) := ⟨_, rfl⟩
  obtain ⟨b, hb⟩ : ∃ b : ℚ, b = ((N - 1 : ℤ) : ℚ) := ⟨_, rfl⟩
  rw [← ha] at eA hnq
  rw [← hb] at eB hNq
  have hab : a ≤ 2 * b := by rw [ha, hb]; exact_mod_cast (by omega : 2 * n ≤ 2 * (N - 1))
  have hR2 : a / b ≤ 2 := by rw [div_le_iff₀ (by linarith)]; exact hab
  have hR0 : 0 ≤ a / b := by positivity
  have d1 : |A / B - a / b| ≤ 4.002 * u := by
    have hB0 : 0 < B := by linarith
    have e : A / B - a / b = ((A - a) - (B - b) * (a / b)) / B := by
      have : b ≠ 0 := by linarith
      field_simp; ring
    rw [e, abs_div, abs_of_pos hB0, div_le_iff₀ hB0]
    have hBb : (1 - u) * b ≤ B := by
      have := (abs_le.mp eB).1
      linarith
    calc |A - a - (B - b) * (a / b)| ≤ |A - a| + |(B - b) * (a / b)| := abs_sub _ _
      _ ≤ u * (2 * b) + u * b * 2 := by
        apply add_le_add
        · exact eA.trans (by gcongr)
        · rw [abs_mul, abs_of_nonneg hR0]
          gcongr
      _ = 4 * u * b := by ring
      _ ≤ 4.002 * u * ((1 - u) * b) := by
        have : 0 ≤ u * b := by positivity
        nlinarith
      _ ≤ _ := by gcongr
  have d2 : |ρ - a / b| ≤ 6.002 * u := by
    calc _ ≤ |ρ - A / B| + |A / B - a / b| := abs_sub_le _ _ _
      _ ≤ u * 2 + 4.002 * u := add_le_add (eρ.trans (by gcongr)) d1
      _ = _ := by ring
  have d3 : |t - (a / b - 1)| ≤ 7.002 * u := by
    have hρ1 : |ρ - 1| ≤ 1 := abs_le.mpr ⟨by linarith, by linarith⟩
    calc _ ≤ |t - (ρ - 1)| + |(ρ - 1) - (a / b - 1)| := abs_sub_le _ _ _
      _ ≤ u * 1 + 6.002 * u := by
        apply add_le_add (et.trans (by gcongr))
        rw [show ρ - 1 - (a / b - 1) = ρ - a / b by ring]
        exact d2
      _ = _ := by ring
  have d4 : |t * t - (a / b - 1) ^ 2| ≤ 14.004 * u := by
    rw [show t * t - (a / b - 1) ^ 2 = (t - (a / b - 1)) * (t + (a / b - 1)) by ring, abs_mul]
    have : |t + (a / b - 1)| ≤ 2 := abs_le.mpr ⟨by linarith, by linarith⟩
    calc _ ≤ 7.002 * u * 2 := mul_le_mul d3 this (abs_nonneg _) (by positivity)
      _ = _ := by ring
  have d5 : |Binary.round p (1 - s) - (1 - (a / b - 1) ^ 2)| ≤ 16.01 * u := by
    calc _ ≤ |Binary.round p (1 - s) - (1 - s)| + |(1 - s) - (1 - (a / b - 1) ^ 2)| := abs_sub_le _ _ _
      _ ≤ u * 1 + (u * 1 + 14.004 * u) := by
        apply add_le_add
        · exact eh.trans (by gcongr; linarith)
        · rw [show 1 - s - (1 - (a / b - 1) ^ 2) = -((s - t * t) + (t * t - (a / b - 1) ^ 2)) by ring, abs_neg]
          refine (abs_add_le _ _).trans (add_le_add (es.trans (by gcongr)) d4)
      _ ≤ _ := by linarith
  have d6 : ((|Binary.round p (1 - s) - (1 - (a / b - 1) ^ 2)| : ℚ) : ℝ) ≤ ((16.01 * u : ℚ) : ℝ) := by exact_mod_cast d5
  rw [ha, hb, hu] at d6
  push_cast at d6
  exact d6

theorem Rounded.pi_near (l p : ℕ) [NeZero p] (hp : p ≤ 53) (hl : p ≤ l) : |((Rounded.pi l p).val : ℝ) - Real.pi| ≤ 2.001 * (1 / 2 ^ p) * Real.pi := by
  have h := literal_error l p hl 3.141592653589793238462643383279502884197169399375105820974944592307
  obtain ⟨h1, h2⟩ := Const.pi_between
  have hu : (1 : ℝ) / 2 ^ 53 ≤ 1 / 2 ^ p := by gcongr; norm_num
  have hc : |((3.141592653589793238462643383279502884197169399375105820974944592307 : ℚ) : ℝ) - Real.pi| ≤ 1 / 10 ^ 60 := by
    push_cast
    rw [abs_le]
    constructor
    · norm_num at h1 h2 ⊢; linarith
    · norm_num at h1 h2 ⊢; linarith
  have hle : |((3.141592653589793238462643383279502884197169399375105820974944592307 : ℚ) : ℝ)| ≤ Real.pi := by
    push_cast
    rw [abs_of_pos (by norm_num)]
    norm_num at h1 ⊢; linarith
  have e : ((Rounded.pi l p).val : ℝ) = ((Binary.literal l p 3.141592653589793238462643383279502884197169399375105820974944592307).val : ℝ) := rfl
  have hpi3 := Real.pi_gt_three
  calc _ ≤ _ + |((3.141592653589793238462643383279502884197169399375105820974944592307 : ℚ) : ℝ) - Real.pi| := abs_sub_le _ _ _
    _ ≤ 2 * (1 / 2 ^ p) * Real.pi + 1 / 10 ^ 60 := by
      apply add_le_add _ hc
      rw [e]
      exact h.trans (by gcongr)
    _ ≤ 2 * (1 / 2 ^ p) * Real.pi + 0.001 * (1 / 2 ^ 53) * 3 := by
      gcongr
      norm_num
    _ ≤ 2 * (1 / 2 ^ p) * Real.pi + 0.001 * (1 / 2 ^ p) * Real.pi := by gcongr
    _ = _ := by ring

set_option maxHeartbeats 1000000 in
/-- **C83** The Kaiser window in floating point of 16 to 53 bits, for every length from two to `2^30` and every parameter up to three: the radicand is never negative, the divisor is positive, and
the weight has a relative error of at most `60 + 85 a²` units. -/
theorem C83_kaiser (l p : ℕ) [NeZero p] (hp : 16 ≤ p) (hp' : p ≤ 53) (hl : p ≤ l) (a : Binary p) (ha : |(a.val : ℝ)| ≤ 3) (n N : ℤ) (hN : 2 ≤ N) (hN2 : N ≤ 2 ^ 30) (hn : 0 ≤ n) (hnN : n < N) :
    ∃ w s : Binary p, Rounded.kaiserBinary l p a n N = .ok w ∧ Rounded.offset2 (Binary.literal l p 1) n N = .ok s ∧ 0 ≤ (Binary.literal l p 1 - s).val ∧
      0 < (Rounded.i0 (Binary.literal l p 1) (Rounded.pi l p * a)).val ∧
      |(w.val : ℝ) - besselI0 (Real.pi * a.val * √(1 - (2 * (n : ℝ) / (N - 1) - 1) ^ 2)) / besselI0 (Real.pi * a.val)| ≤
        (60 + 85 * (a.val : ℝ) ^ 2) / 2 ^ p * (besselI0 (Real.pi * a.val * √(1 - (2 * (n : ℝ) / (N - 1) - 1) ^ 2)) / besselI0 (Real.pi * a.val)) := by
  obtain ⟨s, es, h1v, hs0, hs1, herr⟩ := Rounded.radicand l p hp hl n N hN hN2 hn hnN
  set one := Binary.literal l p 1 with hone
  have ew : Rounded.kaiserBinary l p a n N = .ok (Rounded.i0 one (Rounded.pi l p * a * Binary.sqrt (one - s)) / Rounded.i0 one (Rounded.pi l p * a)) := by
    simp only [Rounded.kaiserBinary, Rounded.kaiser, ← hone, es, bind, Except.bind, pure, Except.pure]
  refine ⟨_, s, ew, es, hs0, ?_⟩
  have hR := binary_roundedField p
  obtain ⟨u, hu⟩ : ∃ u : ℝ, u = 1 / 2 ^ p := ⟨_, rfl⟩
  have hu0 : 0 ≤ u := by rw [hu]; positivity
  have hu1 : u ≤ 1 / 65536 := by
    rw [hu, show (65536 : ℝ) = 2 ^ 16 by norm_num]
    gcongr
    norm_num
  have hu2 : 1 / 10 ^ 20 ≤ u := by
    calc (1 : ℝ) / 10 ^ 20 ≤ 1 / 2 ^ 53 := by norm_num
      _ ≤ u := by rw [hu]; gcongr; norm_num
  have hNr : (1 : ℝ) ≤ (N : ℝ) - 1 := by
    have : (2 : ℝ) ≤ N := by exact_mod_cast hN
    linarith
  have hn0r : (0 : ℝ) ≤ n := by exact_mod_cast hn
  have hnr : (n : ℝ) ≤ N - 1 := by
    have : (n : ℝ) + 1 ≤ N := by exact_mod_cast hnN
    linarith
  set h : ℝ := 1 - (2 * (n : ℝ) / (N - 1) - 1) ^ 2 with hh
  have hq0 : 0 ≤ 2 * (n : ℝ) / (N - 1) := by positivity
  have hq2 : 2 * (n : ℝ) / (N - 1) ≤ 2 := by rw [div_le_iff₀ (by linarith)]; linarith
  have hh0 : 0 ≤ h := by rw [hh]; nlinarith
  have hh1 : h ≤ 1 := by rw [hh]; nlinarith [sq_nonneg (2 * (n : ℝ) / (N - 1) - 1)]
  obtain ⟨X, hX⟩ : ∃ X : ℝ, X = Real.pi * a.val * √h := ⟨_, rfl⟩
  obtain ⟨Y, hY⟩ : ∃ Y : ℝ, Y = Real.pi * a.val := ⟨_, rfl⟩
  rw [← hX, ← hY]
  rw [← hu] at hR herr
  have hsq := NCO.binary_sqrt p (one - s) (by show (0 : ℝ) ≤ ((one - s).val : ℝ); exact_mod_cast hs0)
  have hpi := Rounded.pi_near l p hp' hl
  rw [← hu] at hsq hpi
  obtain ⟨k1, k2, k3, k4⟩ := kaiser_numbers u Y h ((one - s).val : ℝ) ((Binary.sqrt (one - s)).val : ℝ) ((Rounded.pi l p * a).val : ℝ) ((Rounded.pi l p * a * Binary.sqrt (one - s)).val : ℝ)
    ((Rounded.pi l p).val : ℝ) (a.val : ℝ) hu0 hu1 ha hY hh0 (by exact_mod_cast hs0) (by exact_mod_cast hs1) herr hsq hpi (hR.mul _ _) (hR.mul _ _)
  have hc : ∀ k : ℕ, 1 ≤ k → k ≤ 34 → ((((2 * k : ℕ) : ℤ) : Binary p).val : ℝ) = ((2 * k : ℕ) : ℝ) := by
    intro k _ hk
    have := Binary.cast_exact p ((2 * k : ℕ) : ℤ) (by
      have : (2 : ℤ) ^ 16 ≤ 2 ^ p := by gcongr; norm_num
      rw [abs_of_nonneg (by positivity)]
      have h68 : ((2 * k : ℕ) : ℤ) ≤ 68 := by exact_mod_cast (by omega)
      linarith)
    exact_mod_cast congrArg (fun q : ℚ => (q : ℝ)) this
  have hone' : ((one.val : ℚ) : ℝ) = 1 := by rw [h1v]; simp
  have i1 := C83_i0 hR hu2 (by linarith) one (Rounded.pi l p * a * Binary.sqrt (one - s)) hone' hc k1
  have i2 := C83_i0 hR hu2 (by linarith) one (Rounded.pi l p * a) hone' hc k2
  have hY2 : Y ^ 2 ≤ 9.8697 * (a.val : ℝ) ^ 2 := by
    have hp2 : Real.pi ^ 2 ≤ 9.8697 := by nlinarith [Real.pi_gt_three, Real.pi_lt_d4]
    rw [hY, mul_pow]
    gcongr
  have hY3 : Y ^ 2 ≤ 88.83 := by
    have : (a.val : ℝ) ^ 2 ≤ 9 := by
      rw [← sq_abs]; nlinarith [abs_nonneg (a.val : ℝ)]
    linarith
  have hYY := sq_nonneg Y
  have uY2 : 0 ≤ u * Y ^ 2 := by positivity
  have uY3 : u * Y ^ 2 ≤ 0.001356 := by nlinarith
  have n1 := bessel_near _ X (6.56 * u * Y ^ 2) (by rw [hX, ← hY]; exact k3) (by linarith)
  have n2 := bessel_near _ Y (1.54 * u * Y ^ 2) k4 (by linarith)
  set I := besselI0 ((Rounded.pi l p * a * Binary.sqrt (one - s)).val : ℝ) with hI
  set J := besselI0 ((Rounded.pi l p * a).val : ℝ) with hJ
  have hX1 := one_le_bessel X
  have hY1 := one_le_bessel Y
  have m1 : |((Rounded.i0 one (Rounded.pi l p * a * Binary.sqrt (one - s))).val : ℝ) - besselI0 X| ≤ (27.3 * u + 6.63 * (u * Y ^ 2)) * besselI0 X := by
    have hI1 : I ≤ 1.01 * besselI0 X := by
      have := (abs_le.mp n1).2
      nlinarith
    calc _ ≤ _ + |I - besselI0 X| := abs_sub_le _ _ _
      _ ≤ 27 * u * (1.01 * besselI0 X) + 1.0102 * (6.56 * u * Y ^ 2) * besselI0 X := add_le_add (i1.trans (by gcongr)) n1
      _ = (27.27 * u + 1.0102 * 6.56 * (u * Y ^ 2)) * besselI0 X := by ring
      _ ≤ _ := by
        apply mul_le_mul_of_nonneg_right _ (by linarith)
        linarith
  have m2 : |((Rounded.i0 one (Rounded.pi l p * a)).val : ℝ) - besselI0 Y| ≤ (27.3 * u + 1.56 * (u * Y ^ 2)) * besselI0 Y := by
    have hI1 : J ≤ 1.01 * besselI0 Y := by
      have := (abs_le.mp n2).2
      nlinarith
    calc _ ≤ _ + |J - besselI0 Y| := abs_sub_le _ _ _
      _ ≤ 27 * u * (1.01 * besselI0 Y) + 1.0102 * (1.54 * u * Y ^ 2) * besselI0 Y := add_le_add (i2.trans (by gcongr)) n2
      _ = (27.27 * u + 1.0102 * 1.54 * (u * Y ^ 2)) * besselI0 Y := by ring
      _ ≤ _ := by
        apply mul_le_mul_of_nonneg_right _ (by linarith)
        linarith
  obtain ⟨hpos, hquot⟩ := quotient_near _ (besselI0 X) _ (besselI0 Y) _ _ (by linarith) (by linarith) m1 m2 (by linarith)
  refine ⟨by exact_mod_cast hpos, ?_⟩
  have hdiv := hR.div (Rounded.i0 one (Rounded.pi l p * a * Binary.sqrt (one - s))) (Rounded.i0 one (Rounded.pi l p * a)) hpos.ne'
  set W := besselI0 X / besselI0 Y with hW
  have hW0 : 0 < W := div_pos (by linarith) (by linarith)
  set D := ((Rounded.i0 one (Rounded.pi l p * a * Binary.sqrt (one - s))).val : ℝ) / ((Rounded.i0 one (Rounded.pi l p * a)).val : ℝ) with hD
  have c1 : 1.004 * (27.3 * u + 6.63 * (u * Y ^ 2) + (27.3 * u + 1.56 * (u * Y ^ 2))) ≤ 54.82 * u + 8.23 * (u * Y ^ 2) := by linarith
  have hD1 : |D - W| ≤ (54.82 * u + 8.23 * (u * Y ^ 2)) * W := hquot.trans (mul_le_mul_of_nonneg_right c1 hW0.le)
  have hD2 : |D| ≤ 1.02 * W := by
    have := abs_sub_abs_le_abs_sub D W
    rw [abs_of_pos hW0] at this
    nlinarith
  calc _ ≤ _ + |D - W| := abs_sub_le _ _ _
    _ ≤ u * (1.02 * W) + (54.82 * u + 8.23 * (u * Y ^ 2)) * W := add_le_add (hdiv.trans (by gcongr)) hD1
    _ ≤ u * (1.02 * W) + (54.82 * u + 8.23 * (u * (9.8697 * (a.val : ℝ) ^ 2))) * W := by gcongr
    _ = (55.84 + 8.23 * 9.8697 * (a.val : ℝ) ^ 2) * u * W := by ring
    _ ≤ (60 + 85 * (a.val : ℝ) ^ 2) * u * W := by
      have := sq_nonneg (a.val : ℝ)
      gcongr
      · norm_num
      · norm_num
    _ = _ := by rw [hu]; ring

end Win
end DSP
