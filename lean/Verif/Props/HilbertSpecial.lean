import Verif.Model.HilbertIeee
import Verif.Props.HilbertError
import Verif.Props.FMDBridge
import Verif.Props.UnitCircleSpecial
import Mathlib.Analysis.Complex.ExponentialBounds

/-!
# C137: the Hilbert transformer with the limits of the exponent
-/

namespace DSP

open Ieee Spec FFT Bridge FMDRounded

namespace SumIeee

variable {F : Format}

theorem fits_step (hp : 0 < F.p) (k : ℕ) (hk : k ≤ 2 ^ F.p) (e : ℤ) (he : F.emin ≤ e) : Fits F (k * 2 ^ e) := by
  refine ⟨Binary.representable_of_le F.p hp _ k e (by push_cast; rfl) ?_, Binary.multiple_down _ e _ he ⟨k, by push_cast; rfl⟩⟩
  rw [abs_of_nonneg (by positivity)]
  refine mul_le_mul_of_nonneg_right ?_ (by positivity)
  exact_mod_cast hk

theorem round_step (hp : 0 < F.p) (x : ℚ) (k : ℕ) (hk : k ≤ 2 ^ F.p) (e : ℤ) (he : F.emin ≤ e) (h : |x| ≤ k * 2 ^ e) : |roundTo F x| ≤ k * 2 ^ e := by
  rw [roundTo_abs hp]
  exact roundTo_le hp _ _ (fits_step hp k hk e he) h

/-- A number that is not too small keeps its value when it is converted. -/
theorem ofBinary_same (hp : 0 < F.p) (b : Binary F.p) (h : b.val = 0 ∨ (2 : ℚ) ^ (F.emin + F.p - 1) ≤ |b.val|) (h2 : |b.val| < 2 ^ F.emax) : Same (ofBinary b) b := by
  have e : roundTo F b.val = b.val := by
    rcases h with h | h
    · rw [h, roundTo_zero]
    · rw [roundTo_normal _ h, Binary.round_of_representable F.p _ b.representable]
  have hf : (ofBinary b : Ieee F).Finite := (pack_finite _ _).mpr (by rw [e]; exact h2)
  refine ⟨hf, pack_valid hp _ _, ?_⟩
  unfold ofBinary at hf ⊢
  rw [pack_val hp _ _ hf, signed_decide, e]

variable [NeZero F.p]

theorem pos : 0 < F.p := Nat.pos_of_ne_zero (NeZero.ne _)

omit [NeZero F.p] in
theorem good_zero : GoodIeee (0 : Ieee F) := zero_good.1

theorem add_step (a b : Ieee F) (ga : GoodIeee a) (gb : GoodIeee b) (k : ℕ) (hk : k ≤ 2 ^ F.p) (e : ℤ) (he : F.emin ≤ e) (room : (k : ℚ) * 2 ^ e < 2 ^ F.emax) (h : |a.val + b.val| ≤ k * 2 ^ e) :
    GoodIeee (a + b) ∧ |(a + b).val| ≤ k * 2 ^ e := by
  have hr := round_step pos _ k hk e he h
  have hf := (add_finite a b ga.1 gb.1).mpr (hr.trans_lt room)
  refine ⟨⟨hf, add_valid pos a b⟩, ?_⟩
  rw [add_val pos a b ga.1 gb.1 hf]
  exact hr

theorem mul_step (a b : Ieee F) (ga : GoodIeee a) (gb : GoodIeee b) (k : ℕ) (hk : k ≤ 2 ^ F.p) (e : ℤ) (he : F.emin ≤ e) (room : (k : ℚ) * 2 ^ e < 2 ^ F.emax) (h : |a.val * b.val| ≤ k * 2 ^ e) :
    GoodIeee (a * b) ∧ |(a * b).val| ≤ k * 2 ^ e := by
  have hr := round_step pos _ k hk e he h
  have hf := (mul_finite a b ga.1 gb.1).mpr (hr.trans_lt room)
  refine ⟨⟨hf, mul_valid pos a b⟩, ?_⟩
  rw [mul_val pos a b ga.1 gb.1 ga.2 gb.2 hf]
  exact hr

theorem free_of_same {a : Ieee F} {b : Binary F.p} (h : Same a b) : free a = b := Binary.val_injective _ (by rw [free_val h.2.1, h.2.2])

/-- A sum from left to right never underflows, and it stays finite as long as the number of terms times their greatest size is in range. -/
theorem sum_same (f : ℕ → Ieee F) (e : ℤ) (he : F.emin ≤ e) (m : ℕ) (hm : 1 ≤ m) (hk : m ≤ 2 ^ F.p) (room : (m : ℚ) * 2 ^ e < 2 ^ F.emax) (h : ∀ i < m, GoodIeee (f i) ∧ |(f i).val| ≤ 2 ^ e) :
    Same (leftSum f m) (leftSum (fun i => free (f i)) m) ∧ |(leftSum f m).val| ≤ m * 2 ^ e := by
  obtain ⟨n, rfl⟩ : ∃ n, m = n + 1 := ⟨m - 1, by omega⟩
  clear hm
  induction n with
  | zero =>
    obtain ⟨g, b⟩ := h 0 (by norm_num)
    exact ⟨free_same g.1 g.2, by simpa [leftSum] using b⟩
  | succ n ih =>
    have hs : ∀ {V : Type} [Add V] (f : ℕ → V), leftSum f (n + 1 + 1) = leftSum f (n + 1) + f (n + 1) := by
      intro V _ f
      simp only [leftSum]
      rw [show n + 1 + 1 - 1 = n + 1 by omega, show n + 1 - 1 = n by omega, List.range_succ, List.foldl_append]
      rfl
    have room' : ((n + 1 : ℕ) : ℚ) * 2 ^ e < 2 ^ F.emax := by
      refine lt_of_le_of_lt ?_ room
      refine mul_le_mul_of_nonneg_right ?_ (by positivity)
      push_cast
      linarith
    obtain ⟨s, b⟩ := ih (by omega) room' fun i hi => h i (by omega)
    obtain ⟨g', b'⟩ := h (n + 1) (by omega)
    rw [hs, hs]
    obtain ⟨g, b2⟩ := add_step (leftSum f (n + 1)) (f (n + 1)) ⟨s.1, s.2.1⟩ g' (n + 1 + 1) hk e he room (by
      refine (abs_add_le _ _).trans ((add_le_add b b').trans (le_of_eq ?_))
      push_cast
      ring)
    exact ⟨Agree.add (fun _ => s) (fun _ => free_same g'.1 g'.2) g.1, b2⟩

/-- The error of a sum whose terms also have small absolute errors. -/
theorem sum_error {p : ℕ} [NeZero p] (u : ℝ) (hu : u = 1 / 2 ^ p) (f : ℕ → Binary p) (T : ℕ → ℝ) (K : ℕ) (η : ℝ) (m : ℕ) (hm : 1 ≤ m)
    (h : ∀ i < m, |((f i).val : ℝ) - T i| ≤ ((1 + u) ^ K - 1) * |T i| + η) :
    |((leftSum f m).val : ℝ) - ∑ i ∈ Finset.range m, T i| ≤ ((1 + u) ^ (K + (m - 1)) - 1) * ∑ i ∈ Finset.range m, |T i| + (1 + u) ^ (m - 1) * (m * η) := by
  have hu0 : 0 ≤ u := by rw [hu]; positivity
  have h0 := leftSum_error u hu f (fun i => ((f i).val : ℝ)) 0 m hm fun i _ => Rel.refl u _
  rw [zero_add] at h0
  have hq : 1 ≤ (1 + u) ^ (m - 1) := one_le_pow₀ (by linarith)
  have h1 : ∑ i ∈ Finset.range m, |((f i).val : ℝ)| ≤ (1 + u) ^ K * ∑ i ∈ Finset.range m, |T i| + m * η := by
    have : ∀ i ∈ Finset.range m, |((f i).val : ℝ)| ≤ (1 + u) ^ K * |T i| + η := by
      intro i hi
      have := h i (Finset.mem_range.mp hi)
      have := abs_sub_abs_le_abs_sub ((f i).val : ℝ) (T i)
      linarith
    refine (Finset.sum_le_sum this).trans (le_of_eq ?_)
    rw [Finset.sum_add_distrib, ← Finset.mul_sum, Finset.sum_const, Finset.card_range, nsmul_eq_mul]
  have h2 : |∑ i ∈ Finset.range m, ((f i).val : ℝ) - ∑ i ∈ Finset.range m, T i| ≤ ((1 + u) ^ K - 1) * ∑ i ∈ Finset.range m, |T i| + m * η := by
    rw [← Finset.sum_sub_distrib]
    refine (Finset.abs_sum_le_sum_abs _ _).trans ((Finset.sum_le_sum fun i hi => h i (Finset.mem_range.mp hi)).trans (le_of_eq ?_))
    rw [Finset.sum_add_distrib, ← Finset.mul_sum, Finset.sum_const, Finset.card_range, nsmul_eq_mul]
  rw [pow_add]
  generalize (∑ i ∈ Finset.range m, |T i|) = S at *
  generalize (∑ i ∈ Finset.range m, |((f i).val : ℝ)|) = S' at *
  generalize (1 + u) ^ (m - 1) = q at *
  calc |((leftSum f m).val : ℝ) - ∑ i ∈ Finset.range m, T i| ≤ _ := abs_sub_le _ (∑ i ∈ Finset.range m, ((f i).val : ℝ)) _
    _ ≤ (q - 1) * ((1 + u) ^ K * S + m * η) + (((1 + u) ^ K - 1) * S + m * η) := add_le_add (h0.trans (mul_le_mul_of_nonneg_left h1 (by linarith))) h2
    _ = _ := by ring

/-- A product of a coefficient and a sample. -/
theorem term_close (c d : Ieee F) (c' : Binary F.p) (sc : Same c c') (h1 : |c'.val| ≤ 1) (gd : GoodIeee d) (e : ℤ) (he : F.emin ≤ e) (room : (2 : ℚ) ^ e < 2 ^ F.emax) (hd : |d.val| ≤ 2 ^ e) :
    GoodIeee (c * d) ∧ |(c * d).val| ≤ 2 ^ e ∧ |((c * d).val : ℝ) - ((c' * free d).val : ℝ)| ≤ 2 ^ F.emin := by
  have one : 1 ≤ 2 ^ F.p := Nat.one_le_two_pow
  obtain ⟨g, b⟩ := mul_step c d ⟨sc.1, sc.2.1⟩ gd 1 one e he (by simpa using room) (by
    rw [abs_mul, sc.2.2, Nat.cast_one, one_mul]
    exact (mul_le_of_le_one_left (abs_nonneg _) h1).trans hd)
  refine ⟨g, by simpa using b, ?_⟩
  have := product_close (s := c) (t := d) ⟨sc.1, sc.2.1⟩ gd g.1
  rwa [free_of_same sc] at this

omit [NeZero F.p] in
theorem past_good (x : ℕ → Ieee F) (h : ∀ t, GoodIeee (x t)) (h0 : GoodIeee (0 : Ieee F)) (j : ℤ) : GoodIeee (past x j) := by
  unfold past
  split
  · exact h _
  · exact h0

omit [NeZero F.p] in
theorem past_val (x : ℕ → Ieee F) (j : ℤ) : ((past x j).val : ℝ) = past (fun t => ((x t).val : ℝ)) j := by
  by_cases h : 0 ≤ j
  · simp only [past, if_pos h]
  · simp only [past, if_neg h]
    exact Rat.cast_zero

omit [NeZero F.p] in
theorem past_le (x : ℕ → Ieee F) (B : ℚ) (hB : 0 ≤ B) (h : ∀ t, |(x t).val| ≤ B) (j : ℤ) : |(past x j).val| ≤ B := by
  unfold past
  split
  · exact h _
  · show |(0 : ℚ)| ≤ B
    rwa [abs_zero]

omit [NeZero F.p] in
/-- A power of two that bounds the sums of two samples, and leaves room for a sum of `m` of them. -/
theorem room (D : UnitCircle.Deep F) (m : ℕ) (hm : 1 ≤ m) (hm2 : m < 2 ^ 28) : ∃ e : ℤ, F.emin ≤ e ∧ (m : ℚ) * 2 ^ e < 2 ^ F.emax ∧ (2 : ℚ) ^ e < 2 ^ F.emax ∧ ∀ x : ℚ, 4 * m * |x| ≤ 2 ^ F.emax → |x| ≤ 2 ^ e / 2 := by
  obtain ⟨q, q1, q2, q3⟩ : ∃ q : ℕ, m < 2 ^ q ∧ 2 ^ q ≤ 2 * m ∧ q ≤ 28 := by
    refine ⟨Nat.log 2 m + 1, Nat.lt_pow_succ_log_self (by norm_num) m, ?_, ?_⟩
    · rw [pow_succ, mul_comm]
      exact Nat.mul_le_mul_left 2 (Nat.pow_log_le_self 2 (by omega))
    · exact Nat.log_lt_of_lt_pow (by omega) hm2
  have hq0 : q ≠ 0 := by
    rintro rfl
    omega
  have hlow := D.low
  have hhigh := D.high
  have e1 : (2 : ℚ) ^ (F.emax - q) = 2 ^ F.emax / 2 ^ q := by rw [zpow_sub₀ (by norm_num), zpow_natCast]
  have hP : (0 : ℚ) < 2 ^ F.emax := by positivity
  have hm' : (1 : ℚ) ≤ m := by exact_mod_cast hm
  have q1' : (m : ℚ) < 2 ^ q := by exact_mod_cast q1
  have q2' : (2 : ℚ) ^ q ≤ 2 * m := by exact_mod_cast q2
  refine ⟨F.emax - q, by omega, ?_, zpow_lt_zpow_right₀ (by norm_num) (by omega), fun x h => ?_⟩
  · rw [e1, mul_div_assoc', div_lt_iff₀ (by positivity)]
    nlinarith
  · rw [e1, le_div_iff₀ (by norm_num), le_div_iff₀ (by positivity)]
    have := mul_le_mul_of_nonneg_left q2' (abs_nonneg x)
    nlinarith

/-- The room of a transformer is at least what the error takes. -/
theorem pow_two (u : ℝ) (hu : 0 ≤ u) (K m : ℕ) (h : 10 * (K * u) ≤ 1) (hm : m ≤ K) : (1 + u) ^ m ≤ 2 := by
  have h1 := pow_units u hu K h
  have h2 : (1 + u) ^ m ≤ (1 + u) ^ K := pow_le_pow_right₀ (by linarith) hm
  nlinarith

end SumIeee

/-! ### The Kaiser window is between `exp (-(π a / 2)^2)` and one -/

theorem besselI0_le (x : ℝ) : besselI0 x ≤ Real.exp ((x / 2) ^ 2) := by
  rw [Real.exp_eq_exp_ℝ, NormedSpace.exp_eq_tsum_div]
  refine Summable.tsum_le_tsum (fun k => ?_) (Win.summable_term x) (NormedSpace.expSeries_div_summable ((x / 2) ^ 2))
  rw [show ((x / 2) ^ k / (k.factorial : ℝ)) ^ 2 = ((x / 2) ^ 2) ^ k / (k.factorial : ℝ) ^ 2 from Win.term_eq x k]
  have h1 : (1 : ℝ) ≤ k.factorial := by exact_mod_cast Nat.one_le_iff_ne_zero.mpr (Nat.factorial_ne_zero k)
  refine div_le_div_of_nonneg_left (by positivity) (by linarith) ?_
  nlinarith

theorem kaiserWindow_range (a : ℝ) (ha : |a| ≤ 3) (N : ℕ) (n : ℤ) : 1 / 2 ^ 37 ≤ kaiserWindow a N n ∧ kaiserWindow a N n ≤ 1 := by
  have h1 := Win.one_le_bessel (Real.pi * a * √(1 - (2 * (n : ℝ) / ((N : ℝ) - 1) - 1) ^ 2))
  have h2 := Win.one_le_bessel (Real.pi * a)
  constructor
  · have h3 : besselI0 (Real.pi * a) ≤ 2 ^ 37 := by
      refine (besselI0_le _).trans ?_
      have hpi := Real.pi_lt_d2
      have hpi0 := Real.pi_pos
      have ha2 : a ^ 2 ≤ 9 := by
        rw [← sq_abs]
        nlinarith [abs_nonneg a]
      have h4 : (Real.pi * a / 2) ^ 2 ≤ 23 := by
        have : Real.pi ^ 2 ≤ 9.9225 := by nlinarith
        have : Real.pi ^ 2 * a ^ 2 ≤ 9.9225 * 9 := mul_le_mul this ha2 (by positivity) (by norm_num)
        nlinarith
      calc Real.exp ((Real.pi * a / 2) ^ 2) ≤ Real.exp (23 * 1) := Real.exp_le_exp.mpr (by linarith)
        _ = Real.exp 1 ^ 23 := by rw [← Real.exp_nat_mul]; norm_num
        _ ≤ 2.7182818286 ^ 23 := pow_le_pow_left₀ (Real.exp_pos _).le Real.exp_one_lt_d9.le _
        _ ≤ 2 ^ 37 := by norm_num
    unfold kaiserWindow
    rw [div_le_div_iff₀ (by positivity) (by linarith)]
    nlinarith
  · unfold kaiserWindow
    rw [div_le_one (by linarith)]
    refine (Win.bessel_change _ _ ?_).1
    rw [abs_mul]
    refine mul_le_of_le_one_right (abs_nonneg _) ?_
    rw [abs_of_nonneg (Real.sqrt_nonneg _)]
    exact Real.sqrt_le_one.mpr (by nlinarith [sq_nonneg (2 * (n : ℝ) / ((N : ℝ) - 1) - 1)])

namespace SumIeee

variable {F : Format} [NeZero F.p]

omit [NeZero F.p] in
theorem ofBinary_zero [NeZero F.p] : (ofBinary (0 : Binary F.p) : Ieee F) = 0 := by
  unfold ofBinary
  rw [show (0 : Binary F.p).val = 0 from rfl, pack_num _ _ (by rw [roundTo_zero, abs_zero]; positivity), roundTo_zero, abs_zero]
  rfl

/-- A coefficient that is moderate, up to some roundings. -/
theorem coefficient (D : UnitCircle.Deep F) (K : ℕ) (hK : 10 * K ≤ 2 ^ F.p) (c : Binary F.p) (T : ℝ) (h : Rel (1 / 2 ^ F.p) K c.val T) (h1 : 1 / 2 ^ 70 ≤ |T|) (h2 : |T| ≤ 0.65) :
    Same (ofBinary c) c ∧ |c.val| ≤ 1 := by
  have hlow := D.low
  have hhigh := D.high
  have hu0 : (0 : ℝ) ≤ 1 / 2 ^ F.p := by positivity
  have hb := pow_units (1 / 2 ^ F.p) hu0 K (by
    rw [mul_one_div, ← mul_div_assoc, div_le_one (by positivity)]
    exact_mod_cast hK)
  have hb2 : (K : ℝ) * (1 / 2 ^ F.p) ≤ 1 / 10 := by
    rw [mul_one_div, div_le_div_iff₀ (by positivity) (by norm_num)]
    have : (10 : ℝ) * K ≤ 2 ^ F.p := by exact_mod_cast hK
    linarith
  have hd : |(c.val : ℝ) - T| ≤ 0.11 * |T| := h.trans (mul_le_mul_of_nonneg_right (by nlinarith) (abs_nonneg _))
  have l1 := abs_sub_abs_le_abs_sub T (c.val : ℝ)
  have l2 := abs_sub_abs_le_abs_sub (c.val : ℝ) T
  rw [abs_sub_comm] at l1
  have hle : |(c.val : ℝ)| ≤ 1 := by linarith
  have hge : 1 / 2 ^ 71 ≤ |(c.val : ℝ)| := by
    have : (1 : ℝ) / 2 ^ 71 = 1 / 2 ^ 70 / 2 := by norm_num
    linarith
  have hle' : |c.val| ≤ 1 := by
    have : ((|c.val| : ℚ) : ℝ) ≤ 1 := by push_cast; exact hle
    exact_mod_cast this
  have hge' : 1 / 2 ^ 71 ≤ |c.val| := by
    have : (((1 / 2 ^ 71 : ℚ)) : ℝ) ≤ ((|c.val| : ℚ) : ℝ) := by push_cast; exact hge
    exact_mod_cast this
  refine ⟨ofBinary_same pos c (Or.inr ?_) ?_, hle'⟩
  · refine le_trans ?_ hge'
    calc (2 : ℚ) ^ (F.emin + F.p - 1) ≤ 2 ^ (-71 : ℤ) := zpow_le_zpow_right₀ (by norm_num) (by omega)
      _ = _ := by norm_num
  · refine hle'.trans_lt ?_
    calc (1 : ℚ) < 2 ^ (1 : ℤ) := by norm_num
      _ ≤ _ := zpow_le_zpow_right₀ (by norm_num) (by omega)

/-- The sum of products of coefficients and finite numbers. -/
theorem products (m : ℕ) (hm : 1 ≤ m) (A : ℕ) (hsize : 10 * (A + m) ≤ 2 ^ F.p) (c : ℕ → Binary F.p) (d : ℕ → Ieee F) (e : ℤ) (he : F.emin ≤ e)
    (room : (m : ℚ) * 2 ^ e < 2 ^ F.emax) (room' : (2 : ℚ) ^ e < 2 ^ F.emax) (T : ℕ → ℝ) (hc : ∀ i < m, Same (ofBinary (c i) : Ieee F) (c i) ∧ |(c i).val| ≤ 1)
    (hd : ∀ i < m, GoodIeee (d i) ∧ |(d i).val| ≤ 2 ^ e) (hT : ∀ i < m, Rel (1 / 2 ^ F.p) (A + 1) ((c i * free (d i)).val : ℝ) (T i)) :
    GoodIeee (leftSum (fun i => ofBinary (c i) * d i) m) ∧
      |((leftSum (fun i => ofBinary (c i) * d i) m).val : ℝ) - ∑ i ∈ Finset.range m, T i| ≤ 1.1 * (A + m) / 2 ^ F.p * ∑ i ∈ Finset.range m, |T i| + 2 * m * 2 ^ F.emin := by
  have hu0 : (0 : ℝ) ≤ 1 / 2 ^ F.p := by positivity
  have ht := fun i hi => term_close (ofBinary (c i)) (d i) (c i) (hc i hi).1 (hc i hi).2 (hd i hi).1 e he room' (hd i hi).2
  obtain ⟨s, -⟩ := sum_same (fun i => ofBinary (c i) * d i) e he m hm (by omega) room fun i hi => ⟨(ht i hi).1, (ht i hi).2.1⟩
  refine ⟨⟨s.1, s.2.1⟩, ?_⟩
  rw [s.2.2]
  have hunits : (10 : ℝ) * ((A + m : ℕ) * (1 / 2 ^ F.p)) ≤ 1 := by
    rw [mul_one_div, ← mul_div_assoc, div_le_one (by positivity)]
    exact_mod_cast hsize
  refine (sum_error (1 / 2 ^ F.p) rfl (fun i => free (ofBinary (c i) * d i)) T (A + 1) (2 ^ F.emin) m hm fun i hi => ?_).trans (add_le_add ?_ ?_)
  · rw [free_val (ht i hi).1.2]
    have h1 := (ht i hi).2.2
    have h2 := hT i hi
    unfold Rel at h2
    calc _ ≤ _ := abs_sub_le _ ((c i * free (d i)).val : ℝ) _
      _ ≤ _ := by linarith
  · refine mul_le_mul_of_nonneg_right ?_ (Finset.sum_nonneg fun i _ => abs_nonneg _)
    rw [show A + 1 + (m - 1) = A + m by omega]
    refine (pow_units _ hu0 _ hunits).trans (le_of_eq ?_)
    push_cast
    ring
  · have := pow_two (1 / 2 ^ F.p) hu0 (A + m) (m - 1) hunits (by omega)
    calc _ ≤ 2 * (m * 2 ^ F.emin : ℝ) := mul_le_mul_of_nonneg_right this (by positivity)
      _ = _ := by ring

/-- The sum is zero if all the numbers are. -/
theorem products_zero (m : ℕ) (hm : 1 ≤ m) (hm2 : m ≤ 2 ^ F.p) (c : ℕ → Binary F.p) (d : ℕ → Ieee F) (e : ℤ) (he : F.emin ≤ e)
    (room : (m : ℚ) * 2 ^ e < 2 ^ F.emax) (room' : (2 : ℚ) ^ e < 2 ^ F.emax) (hc : ∀ i < m, Same (ofBinary (c i) : Ieee F) (c i) ∧ |(c i).val| ≤ 1)
    (hd : ∀ i < m, GoodIeee (d i) ∧ (d i).val = 0) : (leftSum (fun i => ofBinary (c i) * d i) m).val = 0 := by
  have ht := fun i hi => term_close (ofBinary (c i)) (d i) (c i) (hc i hi).1 (hc i hi).2 (hd i hi).1 e he room' (by rw [(hd i hi).2, abs_zero]; positivity)
  obtain ⟨s, -⟩ := sum_same (fun i => ofBinary (c i) * d i) e he m hm hm2 room fun i hi => ⟨(ht i hi).1, (ht i hi).2.1⟩
  rw [s.2.2, Hilbert.leftSum_zero _ m hm]
  · rfl
  · intro i hi
    refine Binary.val_injective _ ?_
    rw [free_val (ht i hi).1.2, mul_val pos _ _ (hc i hi).1.1 (hd i hi).1.1 (hc i hi).1.2.1 (hd i hi).1.2 (ht i hi).1.1, (hd i hi).2, mul_zero, roundTo_zero]
    rfl

theorem sub_step (a b : Ieee F) (ga : GoodIeee a) (gb : GoodIeee b) (e : ℤ) (he : F.emin ≤ e) (room : (2 : ℚ) ^ e < 2 ^ F.emax) (ha : |a.val| ≤ 2 ^ e / 2) (hb : |b.val| ≤ 2 ^ e / 2) :
    GoodIeee (a - b) ∧ |(a - b).val| ≤ 2 ^ e ∧ free (a - b) = free a - free b := by
  have gn := good_neg b gb
  obtain ⟨g, h⟩ := add_step a (-b) ga gn 1 Nat.one_le_two_pow e he (by simpa using room) (by
    rw [neg_val, Nat.cast_one, one_mul]
    refine (abs_add_le _ _).trans ?_
    rw [abs_neg]
    linarith)
  have h' : |(a - b).val| ≤ ((1 : ℕ) : ℚ) * 2 ^ e := h
  exact ⟨g, by simpa using h', free_of_same (Agree.sub (fun _ => free_same ga.1 ga.2) (fun _ => free_same gb.1 gb.2) g.1)⟩

theorem plus_step (a b : Ieee F) (ga : GoodIeee a) (gb : GoodIeee b) (e : ℤ) (he : F.emin ≤ e) (room : (2 : ℚ) ^ e < 2 ^ F.emax) (ha : |a.val| ≤ 2 ^ e / 2) (hb : |b.val| ≤ 2 ^ e / 2) :
    GoodIeee (a + b) ∧ |(a + b).val| ≤ 2 ^ e ∧ free (a + b) = free a + free b := by
  obtain ⟨g, h⟩ := add_step a b ga gb 1 Nat.one_le_two_pow e he (by simpa using room) (by
    rw [Nat.cast_one, one_mul]
    refine (abs_add_le _ _).trans ?_
    linarith)
  exact ⟨g, by simpa using h, free_of_same (Agree.add (fun _ => free_same ga.1 ga.2) (fun _ => free_same gb.1 gb.2) g.1)⟩

end SumIeee

namespace Hilbert

variable {m : ℕ} (hm : 1 ≤ m)

theorem Rounded.converted_state {F : Format} [NeZero F.p] (c : ℕ → Binary F.p) (one : Binary F.p) (x : ℕ → Ieee F) :
    Rounded.converted (Rounded.state m c one (fun _ => 0) 0) = Rounded.state m (fun i => ofBinary (c i)) (ofBinary one) x 0 := by
  simp only [Rounded.converted, Rounded.state, List.map_map]
  congr 1
  refine List.map_congr_left fun j hj => ?_
  rw [List.mem_range] at hj
  simp only [Function.comp_apply, past]
  rw [if_neg (by omega), if_neg (by omega), SumIeee.ofBinary_zero]

theorem tap_size (a : ℝ) (ha : |a| ≤ 3) (m i : ℕ) (hi : i < m) (hm2 : m < 2 ^ 28) (n : ℤ) :
    1 / 2 ^ 70 ≤ |kaiserWindow a (4 * m + 1) n * 2 / (((2 * i + 1 : ℕ) : ℝ) * Real.pi)| ∧ |kaiserWindow a (4 * m + 1) n * 2 / (((2 * i + 1 : ℕ) : ℝ) * Real.pi)| ≤ 0.65 := by
  obtain ⟨h1, h2⟩ := kaiserWindow_range a ha (4 * m + 1) n
  have hpi := Real.pi_gt_d2
  have hpi2 := Real.pi_lt_d2
  have hk : (1 : ℝ) ≤ ((2 * i + 1 : ℕ) : ℝ) := by exact_mod_cast Nat.le_add_left 1 (2 * i)
  have hk2 : ((2 * i + 1 : ℕ) : ℝ) ≤ 2 ^ 29 := by exact_mod_cast (show 2 * i + 1 ≤ 2 ^ 29 by omega)
  generalize ((2 * i + 1 : ℕ) : ℝ) = k at *
  generalize kaiserWindow a (4 * m + 1) n = w at *
  have h0 : 0 < w := lt_of_lt_of_le (by norm_num) h1
  have hkp : 0 < k * Real.pi := by positivity
  rw [abs_of_pos (by positivity)]
  constructor
  · rw [div_le_div_iff₀ (by norm_num) hkp]
    have h3 : k * Real.pi ≤ 2 ^ 29 * 4 := mul_le_mul hk2 (by linarith) (by linarith) (by norm_num)
    norm_num at h1 ⊢
    linarith
  · rw [div_le_iff₀ hkp]
    nlinarith

include hm in
/-- **C137** The Hilbert transformer in IEEE arithmetic. What the constructor leaves behind are numbers of the format. As long as the samples are finite and the number of pairs times
their size is in range, all results are finite; the real part is exactly the input, `2m + 1` samples ago; the imaginary part is as accurate as without limits of the exponent, up to
twice the smallest number of the format for every pair; and it is zero whenever the samples in the delay line are the same on both sides of its centre. -/
theorem C137_hilbert {F : Format} [NeZero F.p] (D : UnitCircle.Deep F) (hm2 : m < 2 ^ 28) (l : ℕ) (hp' : F.p ≤ 53) (hl : F.p ≤ l) (a : Binary F.p) (ha : |(a.val : ℝ)| ≤ 3)
    (A : ℕ) (hA : 60 + 85 * (a.val : ℝ) ^ 2 ≤ A) (hsize : 10 * (A + m + 10) ≤ 2 ^ F.p) (real imco : List (Binary F.p)) (hr : real.length = 4 * m + 1) (hi : imco.length = m) :
    ∃ h, Rounded.makeBinary l F.p (4 * m + 1) a real imco = .ok h ∧ (∀ c ∈ h.imco, Same (ofBinary c : Ieee F) c) ∧ Same (ofBinary h.reco : Ieee F) h.reco ∧
      ∀ x : ℕ → Ieee F, (∀ t, GoodIeee (x t) ∧ 4 * m * |(x t).val| ≤ 2 ^ F.emax) → ∃ re im : ℕ → Ieee F,
        (∀ T : ℕ, ∃ h', run (Rounded.call (4 * m + 1)) (Rounded.converted h) ((List.range T).map x) = .ok (h', (List.range T).map fun t => (re t, im t))) ∧
        ∀ t : ℕ, GoodIeee (re t) ∧ (re t).val = (past x ((t : ℤ) - 1 - (2 * m : ℕ))).val ∧ GoodIeee (im t) ∧
          |((im t).val : ℝ) - fir (4 * m + 1) (fun k => kaiserWindow a.val (4 * m + 1) k * quarterTurn ((k : ℝ) - (2 * m : ℕ))) (past fun t => ((x t).val : ℝ)) ((t : ℤ) - 1)| ≤
            1.1 * (A + m + 10) / 2 ^ F.p * fir (4 * m + 1) (fun k => |kaiserWindow a.val (4 * m + 1) k * quarterTurn ((k : ℝ) - (2 * m : ℕ))|) (fun j => |past (fun t => ((x t).val : ℝ)) j|) ((t : ℤ) - 1) +
              2 * m * 2 ^ F.emin ∧
          ((∀ k : ℕ, k ≤ 2 * m → (past x ((t : ℤ) - 1 - (2 * m : ℕ) - k)).val = (past x ((t : ℤ) - 1 - (2 * m : ℕ) + k)).val) → (im t).val = 0) := by
  have hp : 16 ≤ F.p := by have := D.wide.p; omega
  have hp0 : 0 < F.p := by omega
  have hlow := D.low
  have hhigh := D.high
  have hR := binary_roundedField F.p
  have hu0 : (0 : ℝ) ≤ 1 / 2 ^ F.p := by positivity
  obtain ⟨one, e1, h1⟩ := Win.C83_kaiser_middle l F.p (by omega) hp' hl hp a ha (2 * m) (by omega) (by omega)
  have hc : ∀ i, ∃ c, i < m → ((do
      let w ← Win.Rounded.kaiserBinary l F.p a ((2 * i + 1) + 2 * m : ℕ) (4 * m + 1 : ℕ)
      Fir.Rounded.fdiv (w * ((2 : ℤ) : Binary F.p)) (((2 * i + 1 : ℤ) : Binary F.p) * Win.Rounded.pi l F.p)) = .ok c ∧
    Rel (1 / 2 ^ F.p) (A + 9) (c.val : ℝ) (kaiserWindow a.val (4 * m + 1) ((2 * i + 1) + 2 * m : ℕ) * 2 / (((2 * i + 1 : ℕ) : ℝ) * Real.pi))) := by
    intro i
    by_cases hi : i < m
    · obtain ⟨c, hc⟩ := imco_rel hm l F.p hp hp' hl a ha A hA hm2 i hi
      exact ⟨c, fun _ => hc⟩
    · exact ⟨0, fun h => absurd h hi⟩
  choose c hc using hc
  have hcs : ∀ i < m, Same (ofBinary (c i) : Ieee F) (c i) ∧ |(c i).val| ≤ 1 := by
    intro i hi
    obtain ⟨s1, s2⟩ := tap_size a.val ha m i hi hm2 ((2 * i + 1) + 2 * m : ℕ)
    exact SumIeee.coefficient D (A + 9) (by omega) (c i) _ (hc i hi).2 s1 s2
  have hone : Same (ofBinary one : Ieee F) one := by
    refine SumIeee.ofBinary_same hp0 one (Or.inr ?_) ?_
    · rw [h1, abs_one]
      exact zpow_le_one_of_nonpos₀ (by norm_num) (by omega)
    · rw [h1, abs_one]
      exact one_lt_zpow₀ (by norm_num) (by omega)
  have e1' : Win.Rounded.kaiserBinary l F.p a (2 * m : ℕ) (4 * m + 1 : ℕ) = .ok one := by
    rw [← e1]
    congr 1
    push_cast; ring
  have hmake := Rounded.make_ok (Win.Rounded.kaiserBinary l F.p a) (Win.Rounded.pi l F.p) c one e1' (fun i hi => (hc i hi).1) real imco hr hi fun _ => 0
  refine ⟨Rounded.state m c one (fun _ => 0) 0, hmake, ?_, hone, ?_⟩
  · intro b hb
    simp only [Rounded.state, List.mem_map, List.mem_range] at hb
    obtain ⟨i, hi, rfl⟩ := hb
    exact (hcs i hi).1
  intro x hx
  obtain ⟨e, he, room, room', hroom⟩ := SumIeee.room D m hm hm2
  have g0 : GoodIeee (0 : Ieee F) := SumIeee.good_zero
  have gx : ∀ j, GoodIeee (past x j) := SumIeee.past_good x (fun t => (hx t).1) g0
  have bx : ∀ j, |(past x j).val| ≤ 2 ^ e / 2 := SumIeee.past_le x _ (by positivity) fun t => hroom _ (hx t).2
  refine ⟨fun t => ofBinary one * past x ((t : ℤ) - 1 - (2 * m : ℕ)), fun t => leftSum (Rounded.terms m (fun i => ofBinary (c i)) x t) m,
    fun T => ⟨Rounded.state m (fun i => ofBinary (c i)) (ofBinary one) x T, ?_⟩, fun t => ?_⟩
  · rw [Rounded.converted_state c one x]
    exact run_known _ x (Rounded.state m (fun i => ofBinary (c i)) (ofBinary one) x) _ (fun t => Rounded.call_ok hm _ _ x t) T
  have hre : GoodIeee (ofBinary one * past x ((t : ℤ) - 1 - (2 * m : ℕ))) ∧ (ofBinary one * past x ((t : ℤ) - 1 - (2 * m : ℕ))).val = (past x ((t : ℤ) - 1 - (2 * m : ℕ))).val := by
    obtain ⟨g, -, -⟩ := SumIeee.term_close (ofBinary one) (past x ((t : ℤ) - 1 - (2 * m : ℕ))) one hone (by rw [h1, abs_one]) (gx _) e he room' ((bx _).trans (half_le_self (by positivity)))
    refine ⟨g, ?_⟩
    rw [mul_val hp0 _ _ hone.1 (gx _).1 hone.2.1 (gx _).2 g.1, hone.2.2, h1, one_mul, roundTo_of_fits hp0 _ (valid_fits (gx _).2)]
  have hd := fun i : ℕ => SumIeee.sub_step _ _ (gx ((t : ℤ) - 1 - ((2 * i + 1 + 2 * m : ℕ) : ℤ))) (gx ((t : ℤ) - 1 - ((2 * m - (2 * i + 1) : ℕ) : ℤ))) e he room' (bx _) (bx _)
  have hterm : ∀ i < m, Rel (1 / 2 ^ F.p) (A + 10 + 1)
      ((c i * free (past x ((t : ℤ) - 1 - ((2 * i + 1 + 2 * m : ℕ) : ℤ)) - past x ((t : ℤ) - 1 - ((2 * m - (2 * i + 1) : ℕ) : ℤ)))).val : ℝ)
      (kaiserWindow a.val (4 * m + 1) ((2 * i + 1) + 2 * m : ℕ) * 2 / (((2 * i + 1 : ℕ) : ℝ) * Real.pi) *
        (past (fun t => ((x t).val : ℝ)) ((t : ℤ) - 1 - ((2 * i + 1 + 2 * m : ℕ) : ℤ)) - past (fun t => ((x t).val : ℝ)) ((t : ℤ) - 1 - ((2 * m - (2 * i + 1) : ℕ) : ℤ)))) := by
    intro i hi
    rw [← SumIeee.past_val, ← SumIeee.past_val, (hd i).2.2, ← free_val (gx ((t : ℤ) - 1 - ((2 * i + 1 + 2 * m : ℕ) : ℤ))).2, ← free_val (gx ((t : ℤ) - 1 - ((2 * m - (2 * i + 1) : ℕ) : ℤ))).2]
    have rd := Rel.of_le (K := 1) hu0 (hR.sub (free (past x ((t : ℤ) - 1 - ((2 * i + 1 + 2 * m : ℕ) : ℤ)))) (free (past x ((t : ℤ) - 1 - ((2 * m - (2 * i + 1) : ℕ) : ℤ))))) (by norm_num)
    exact (hc i hi).2.mul hu0 rd (hR.mul _ _)
  obtain ⟨gim, him⟩ := SumIeee.products m hm (A + 10) (by omega) c
    (fun i => past x ((t : ℤ) - 1 - ((2 * i + 1 + 2 * m : ℕ) : ℤ)) - past x ((t : ℤ) - 1 - ((2 * m - (2 * i + 1) : ℕ) : ℤ))) e he room room' _ hcs (fun i _ => ⟨(hd i).1, (hd i).2.1⟩) hterm
  refine ⟨hre.1, hre.2, gim, ?_, fun hsym => ?_⟩
  · rw [fir_pairs _ (fun n _ _ => kaiserWindow_symmetric _ m hm n)]
    have hle := pairs_le (m := m) (kaiserWindow a.val (4 * m + 1)) (fun n _ _ => kaiserWindow_symmetric _ m hm n) (past fun t => ((x t).val : ℝ)) ((t : ℤ) - 1)
    refine him.trans (add_le_add_left ?_ _)
    refine mul_le_mul (le_of_eq ?_) hle (Finset.sum_nonneg fun i _ => abs_nonneg _) (by positivity)
    push_cast
    ring
  · refine SumIeee.products_zero m hm (by omega) c _ e he room room' hcs fun i hi => ⟨(hd i).1, ?_⟩
    have h := hsym (2 * i + 1) (by omega)
    rw [show (t : ℤ) - 1 - (2 * m : ℕ) - (2 * i + 1 : ℕ) = (t : ℤ) - 1 - ((2 * i + 1 + 2 * m : ℕ) : ℤ) by omega,
      show (t : ℤ) - 1 - (2 * m : ℕ) + (2 * i + 1 : ℕ) = (t : ℤ) - 1 - ((2 * m - (2 * i + 1) : ℕ) : ℤ) by omega, ← free_val (gx _).2, ← free_val (gx ((t : ℤ) - 1 - ((2 * m - (2 * i + 1) : ℕ) : ℤ))).2] at h
    rw [← free_val (hd i).1.2, (hd i).2.2]
    show Binary.round F.p (_ - _) = 0
    rw [h, sub_self]
    exact Binary.round_of_representable F.p _ ⟨0, 0, by positivity, by simp⟩

/-- A transformer with 65 taps and the parameter two, in single precision, and samples between minus one and one: 469 units. -/
example (real imco : List (Binary 24)) (hr : real.length = 65) (hi : imco.length = 16) (x : ℕ → Ieee Format.single) (hx : ∀ t, GoodIeee (x t) ∧ |(x t).val| ≤ 1) :
    ∃ h, ∃ re im : ℕ → Ieee Format.single, Rounded.makeBinary 64 24 65 (Binary.literal 64 24 2) real imco = .ok h ∧
      ∀ T : ℕ, ∃ h', run (Rounded.call 65) (Rounded.converted (F := Format.single) h) ((List.range T).map x) = .ok (h', (List.range T).map fun t => (re t, im t)) ∧ ∀ t, GoodIeee (re t) ∧ GoodIeee (im t) := by
  have h2 : ((Binary.literal 64 24 2).val : ℝ) = 2 := by
    have : (Binary.literal 64 24 2).val = 2 := by decide +kernel
    rw [this]; norm_num
  have : NeZero Format.single.p := ⟨by decide⟩
  obtain ⟨h, e, -, -, H⟩ := C137_hilbert (m := 16) (F := Format.single) (by norm_num) UnitCircle.deep_single (by norm_num) 64 (by decide) (by decide) (Binary.literal 64 24 2) (by rw [h2]; norm_num) 400
    (by rw [h2]; norm_num) (by decide) real imco hr hi
  obtain ⟨re, im, h1, h3⟩ := H x fun t => ⟨(hx t).1, by
    have := (hx t).2
    have h128 : (2 : ℚ) ^ 10 ≤ 2 ^ Format.single.emax := by
      rw [show Format.single.emax = 128 from rfl]
      norm_num
    push_cast
    linarith⟩
  exact ⟨h, re, im, e, fun T => (h1 T).imp fun h' e' => ⟨e', fun t => ⟨(h3 t).1, (h3 t).2.2.1⟩⟩⟩

end Hilbert

end DSP
