import Verif.Model.WindowIeee
import Verif.Props.UnitCircleSpecial
import Verif.Props.WindowError
import Verif.Lemmas.BinaryMono

/-!
# C142: the windows with the limits of the exponent
-/

namespace DSP

open Ieee Spec FFT Bridge

namespace Win

/-! ### The size of sines and cosines -/

section
variable (l p : ℕ) [NeZero p] (hp : 10 ≤ p) (hp' : p ≤ 53) (hl : p ≤ l)
include hp hp' hl

/-- No result exceeds one, and none is tiny besides zero. -/
theorem result_size (r : M (Binary p)) (v : ℝ) (h : UnitCircle.Reduced (Kernels.of (UnitCircle.Coeffs.binary l p)) r v) : ∃ a, r = .ok a ∧ |a.val| ≤ 1 ∧ (a.val = 0 ∨ 1 / 2 ^ 31 ≤ |a.val|) := by
  have hR := binary_roundedField p
  have hu0 : (0 : ℝ) ≤ 1 / 2 ^ p := by positivity
  have hu := unit_small p hp
  have hc := UnitCircle.binary_coeffs l p hp' hl
  have hp0 : 0 < p := by omega
  obtain ⟨a, ea, ha⟩ := UnitCircle.reduced_relative hR hu0 hu hc r v h
  refine ⟨a, ea, ?_⟩
  have hrel : |(a.val : ℝ) - v| ≤ 1 / 50 * |v| := ha.trans (mul_le_mul_of_nonneg_right (by nlinarith) (abs_nonneg _))
  have low := abs_sub_abs_le_abs_sub v (a.val : ℝ)
  have high := abs_sub_abs_le_abs_sub (a.val : ℝ) v
  rw [abs_sub_comm] at low
  obtain ⟨neg, j, J, hJ, h1, h2, h3, h⟩ := h
  have hJ' : (0 : ℝ) < J := by exact_mod_cast hJ
  have h1' : -(J : ℝ) ≤ 8 * j := by exact_mod_cast h1
  have h2' : 8 * (j : ℝ) ≤ J := by exact_mod_cast h2
  have hq : |(j : ℝ) / J| ≤ 1 / 8 := by
    rw [abs_div, abs_of_pos hJ', div_le_iff₀ hJ', abs_le]
    constructor <;> linarith
  have hθ : |2 * Real.pi * ((j : ℝ) / J)| ≤ 0.7854 := by
    rw [abs_mul, abs_of_pos (by positivity)]
    have := Real.pi_lt_d6
    nlinarith [abs_nonneg ((j : ℝ) / J), Real.pi_pos]
  have hfl : ∀ x : ℝ, |UnitCircle.flip neg x| = |x| := by
    intro x
    cases neg
    · rfl
    · exact abs_neg x
  rcases h with ⟨hr, hv⟩ | ⟨hr, hv⟩
  · rw [ea] at hr
    cases hr
    constructor
    · have hx := UnitCircle.rad_off hR hu0 hu hc j J hJ h1 h2
      obtain ⟨-, ⟨-, g1⟩, g2⟩ := UnitCircle.cosine_inner_off hR hu0 hu hc hx
      have e1 : (UnitCircle.Coeffs.binary l p).a1.val = 1 := by exact_mod_cast hc.a1
      have a2 : UnitCircle.Coeffs.real.a2 = -0.5 := by norm_num [UnitCircle.Coeffs.real, UnitCircle.Coeffs.map, UnitCircle.Coeffs.decimal]
      rw [a2] at g1
      have e : ∀ b : Binary p, |(UnitCircle.flip neg b).val| = |b.val| := by
        intro b
        cases neg
        · rfl
        · exact abs_neg b.val
      rw [e]
      change |(UnitCircle.cosineApprox (UnitCircle.Coeffs.binary l p) ((UnitCircle.Coeffs.binary l p).twoPi * (j : Binary p) / (J : Binary p))).val| ≤ 1
      have hpos : 0 ≤ ((UnitCircle.cosineApprox (UnitCircle.Coeffs.binary l p) ((UnitCircle.Coeffs.binary l p).twoPi * (j : Binary p) / (J : Binary p))).val) := by
        by_contra c
        have c' : ((UnitCircle.cosineApprox (UnitCircle.Coeffs.binary l p) ((UnitCircle.Coeffs.binary l p).twoPi * (j : Binary p) / (J : Binary p))).val : ℝ) < 0 := by exact_mod_cast not_le.mp c
        have k := UnitCircle.cosineApprox_off hR hu0 hu hc hx
        have k2 := UnitCircle.cosine_error _ hx.1
        have k3 := Real.one_sub_sq_div_two_le_cos (x := UnitCircle.Coeffs.real.twoPi * ((j : ℝ) / J))
        have k4 := UnitCircle.square_bound _ hx.1
        have k5 := (abs_le.mp k).1
        have k6 := (abs_le.mp k2).1
        nlinarith
      rw [abs_of_nonneg hpos]
      simp only [UnitCircle.cosineApprox]
      generalize (UnitCircle.Coeffs.binary l p).twoPi * (j : Binary p) / (J : Binary p) = x at *
      generalize x * x * (x * x * (x * x * (x * x * (x * x * (x * x * (UnitCircle.Coeffs.binary l p).a14 + (UnitCircle.Coeffs.binary l p).a12) + (UnitCircle.Coeffs.binary l p).a10) + (UnitCircle.Coeffs.binary l p).a8) + (UnitCircle.Coeffs.binary l p).a6) + (UnitCircle.Coeffs.binary l p).a4) + (UnitCircle.Coeffs.binary l p).a2 = y at *
      have hy : y.val ≤ 0 := by
        have : (y.val : ℝ) ≤ 0 := by
          have := (abs_le.mp g1).2
          have := (abs_le.mp g2).2
          linarith
        exact_mod_cast this
      have rep0 : Binary.Representable p 0 := ⟨0, 0, by positivity, by simp⟩
      have rep1 : Binary.Representable p 1 := ⟨1, 0, by rw [abs_one]; exact one_lt_pow₀ (by norm_num) (by omega), by simp⟩
      have hxx : 0 ≤ (x * x).val := Binary.le_round p hp0 _ _ rep0 (mul_self_nonneg _)
      have hm : (x * x * y).val ≤ 0 := Binary.round_le p hp0 _ _ rep0 (mul_nonpos_of_nonneg_of_nonpos hxx hy)
      exact Binary.round_le p hp0 _ _ rep1 (by rw [e1]; linarith)
    · right
      have k3 := Real.one_sub_sq_div_two_le_cos (x := 2 * Real.pi * ((j : ℝ) / J))
      have k4 := UnitCircle.square_bound _ hθ
      have k5 : (1 : ℝ) / 2 ≤ |v| := by
        rw [hv, hfl]
        refine le_trans ?_ (le_abs_self _)
        nlinarith
      have : ((1 / 2 ^ 31 : ℚ) : ℝ) ≤ ((|(UnitCircle.flip neg ((Kernels.of (UnitCircle.Coeffs.binary l p)).cosine ((Kernels.of (UnitCircle.Coeffs.binary l p)).twoPi * (j : Binary p) / (J : Binary p)))).val| : ℚ) : ℝ) := by
        push_cast
        have : (1 : ℝ) / 2 ^ 31 ≤ 1 / 4 := by norm_num
        linarith
      exact_mod_cast this
  · have ub : |v| ≤ 0.7854 := by
      rw [hv, hfl]
      exact Real.abs_sin_le_abs.trans hθ
    have lb := UnitCircle.sine_lower _ hθ
    constructor
    · have : ((|a.val| : ℚ) : ℝ) ≤ ((1 : ℚ) : ℝ) := by
        push_cast
        linarith
      exact_mod_cast this
    · by_cases hj : j = 0
      · left
        have v0 : v = 0 := by
          rw [← abs_eq_zero, hv, hfl, hj]
          simp
        rw [v0, abs_zero, mul_zero, sub_zero] at hrel
        have := abs_nonpos_iff.mp hrel
        exact_mod_cast this
      · right
        have hj1 : (1 : ℝ) ≤ |(j : ℝ)| := by exact_mod_cast Int.one_le_abs hj
        have hJ2 : (J : ℝ) ≤ 2 ^ 31 := by
          have : (J : ℝ) ≤ 2147483647 := by exact_mod_cast h3
          linarith
        have hjJ : 1 / 2 ^ 31 ≤ |(j : ℝ) / J| := by
          rw [abs_div, abs_of_pos hJ', div_le_div_iff₀ (by positivity) hJ']
          linarith
        rw [abs_mul, abs_of_pos (show (0 : ℝ) < 2 * Real.pi by positivity)] at lb
        have k : 6 * (1 / 2 ^ 31) ≤ 2 * Real.pi * |(j : ℝ) / J| := by
          have := Real.pi_gt_three
          exact mul_le_mul (by linarith) hjJ (by norm_num) (by linarith)
        have vb : 2 * (1 / 2 ^ 31) ≤ |v| := by
          rw [hv, hfl]
          linarith
        have : ((1 / 2 ^ 31 : ℚ) : ℝ) ≤ ((|a.val| : ℚ) : ℝ) := by
          push_cast
          linarith
        exact_mod_cast this

end

variable {F : Format} [NeZero F.p] (D : UnitCircle.Deep F)
include D

omit [NeZero F.p] in
theorem deep_ten : 10 ≤ F.p := by have := D.wide.p; omega

/-- Both arithmetics side by side, with the size of the results. -/
theorem results (l : ℕ) (hp : F.p ≤ 53) (hl : F.p ≤ l) (n N : ℤ) (h1 : 1 ≤ N) (h2 : N ≤ 268435455) (h3 : -N ≤ n) (h4 : n ≤ N) :
    (∃ a b, UnitCircle.cos (Kernels.of (UnitCircle.Coeffs.ieee l F)) n N = .ok a ∧ UnitCircle.cos (Kernels.of (UnitCircle.Coeffs.binary l F.p)) n N = .ok b ∧ Same a b ∧ |b.val| ≤ 1 ∧ (b.val = 0 ∨ 1 / 2 ^ 31 ≤ |b.val|)) ∧
      ∃ a b, UnitCircle.sin (Kernels.of (UnitCircle.Coeffs.ieee l F)) n N = .ok a ∧ UnitCircle.sin (Kernels.of (UnitCircle.Coeffs.binary l F.p)) n N = .ok b ∧ Same a b ∧ |b.val| ≤ 1 ∧ (b.val = 0 ∨ 1 / 2 ^ 31 ≤ |b.val|) := by
  obtain ⟨⟨a, b, e1, e2, s⟩, ⟨a', b', e1', e2', s'⟩⟩ := UnitCircle.results_same D l hp hl n N h1 h2 h3 h4
  obtain ⟨c, f, g⟩ := result_size l F.p (deep_ten D) hp hl _ _ (UnitCircle.cos_reduced _ n N h1 h2 h3 h4)
  obtain ⟨c', f', g'⟩ := result_size l F.p (deep_ten D) hp hl _ _ (UnitCircle.sin_reduced _ n N h1 h2 h3 h4)
  rw [e2] at f
  rw [e2'] at f'
  cases f
  cases f'
  exact ⟨⟨a, b, e1, e2, s, g⟩, a', b', e1', e2', s', g'⟩

/-- **C142** No sine or cosine exceeds one. -/
theorem C142_bounded (l : ℕ) (hp : F.p ≤ 53) (hl : F.p ≤ l) (n N : ℤ) (h1 : 1 ≤ N) (h2 : N ≤ 268435455) (h3 : -N ≤ n) (h4 : n ≤ N) :
    (∃ a, UnitCircle.cos (Kernels.of (UnitCircle.Coeffs.ieee l F)) n N = .ok a ∧ a.Finite ∧ |a.val| ≤ 1) ∧
      ∃ a, UnitCircle.sin (Kernels.of (UnitCircle.Coeffs.ieee l F)) n N = .ok a ∧ a.Finite ∧ |a.val| ≤ 1 := by
  obtain ⟨⟨a, b, e1, -, s, g, -⟩, a', b', e1', -, s', g', -⟩ := results D l hp hl n N h1 h2 h3 h4
  exact ⟨⟨a, e1, s.1, by rw [s.2.2]; exact g⟩, a', e1', s'.1, by rw [s'.2.2]; exact g'⟩

/-! ### The windows -/

theorem same_sub {a b : Ieee F} {a' b' : Binary F.p} (ha : Same a a') (hb : Same b b') (h2 : |a'.val - b'.val| ≤ 2 ^ 60) : Same (a - b) (a' - b') := by
  have n := hb.agree.neg (Ieee.neg_finite b hb.1)
  refine (ha.agree.sub hb.agree) (UnitCircle.same_add D ha n ?_).1
  show |a'.val + -b'.val| ≤ _
  rw [← sub_eq_add_neg]
  exact h2

/-- A constant of the code. -/
theorem same_constant (x : ℚ) (hp : F.p ≤ 53) (h1 : 1 / 2 ^ 38 ≤ |x|) (h2 : |x| ≤ 100) : Same (constant F x) (Binary.literal 53 F.p x) ∧ 99 / 100 * |x| ≤ |(Binary.literal 53 F.p x).val| ∧ |(Binary.literal 53 F.p x).val| ≤ 101 / 100 * |x| :=
  UnitCircle.const_of D x 53 hp h1 h2

section
variable (l : ℕ) (hp : F.p ≤ 53) (hl : F.p ≤ l) (n N : ℤ) (hN : 2 ≤ N) (hN2 : N ≤ 268435456) (hn : 0 ≤ n) (hnN : n < N)
include hp hl hN hN2 hn hnN

/-- **C142** The Hann window: every weight is a finite number between zero and one, off by at most seven units. -/
theorem C142_hann : ∃ w, hannIeee l F n N = .ok w ∧ w.Finite ∧ w.Valid ∧ 0 ≤ w.val ∧ w.val ≤ 1 ∧ |(w.val : ℝ) - (1 - Real.cos (2 * Real.pi * n / (N - 1 : ℤ))) / 2| ≤ 7 / 2 ^ F.p := by
  obtain ⟨w', ew, hw⟩ := C83_hann l F.p (deep_ten D) hp hl n N hN hN2 hn hnN
  obtain ⟨⟨c, c', e1, e2, s, g, g0⟩, -⟩ := results D l hp hl n (N - 1) (by omega) (by omega) (by omega) (by omega)
  have i1 := int32_fits (show -2147483648 ≤ N - 1 ∧ N - 1 ≤ 2147483647 by omega)
  simp only [Rounded.hann, bind, Except.bind, i1, e2, pure, Except.pure] at ew
  cases ew
  have hp0 : 0 < F.p := by have := deep_ten D; omega
  obtain ⟨s1, -, -⟩ := same_constant D 1 hp (by norm_num) (by norm_num)
  obtain ⟨s2, -, -⟩ := same_constant D 0.5 hp (by norm_num [abs_of_pos]) (by norm_num [abs_of_pos])
  have v1 : (Binary.literal 53 F.p 1).val = 1 := by
    have := literal_one 53 F.p hp
    exact_mod_cast this
  have v2 : (Binary.literal 53 F.p 0.5).val = 1 / 2 := by
    have := literal_half 53 F.p hp
    have h : (((Binary.literal 53 F.p 0.5).val : ℚ) : ℝ) = ((1 / 2 : ℚ) : ℝ) := by rw [this]; norm_num
    exact_mod_cast h
  generalize Binary.literal 53 F.p 1 = o at *
  generalize Binary.literal 53 F.p 0.5 = h at *
  obtain ⟨g1, g2⟩ := abs_le.mp g
  have rep : ∀ k : ℤ, |k| ≤ 2 → Binary.Representable F.p k := fun k hk => ⟨k, 0, lt_of_le_of_lt hk (by
    have := deep_ten D
    calc (2 : ℤ) < 2 ^ 10 := by norm_num
      _ ≤ 2 ^ F.p := pow_le_pow_right₀ (by norm_num) this), by simp⟩
  have rep0 : Binary.Representable F.p 0 := by simpa using rep 0 (by norm_num)
  have rep1 : Binary.Representable F.p 1 := by simpa using rep 1 (by norm_num)
  have rep2 : Binary.Representable F.p 2 := by simpa using rep 2 (by norm_num)
  have d0 : 0 ≤ (o - c').val := Binary.le_round _ hp0 _ _ rep0 (by rw [v1]; linarith)
  have d2 : (o - c').val ≤ 2 := Binary.round_le _ hp0 _ _ rep2 (by rw [v1]; linarith)
  have w0 : 0 ≤ (h * (o - c')).val := Binary.le_round _ hp0 _ _ rep0 (by rw [v2]; linarith)
  have w1 : (h * (o - c')).val ≤ 1 := Binary.round_le _ hp0 _ _ rep1 (by rw [v2]; linarith)
  have sd : Same (constant F 1 - c) (o - c') := same_sub D s1 s (by
    rw [v1, abs_le]
    constructor <;> linarith)
  have sw : Same (constant F 0.5 * (constant F 1 - c)) (h * (o - c')) := by
    have tiny : (o - c').val = 0 ∨ 1 / 2 ^ 60 ≤ (o - c').val := by
      rcases eq_or_lt_of_le g2 with h | h
      · left
        show Binary.round F.p (o.val - c'.val) = 0
        rw [v1, h, sub_self]
        exact Binary.round_of_representable _ _ rep0
      · right
        by_cases hc : c'.val ≤ 1 / 2
        · refine le_trans (b := 1 / 2) (by norm_num) ?_
          exact Binary.le_round _ hp0 _ _ ⟨1, -1, by rw [abs_one]; exact one_lt_pow₀ (by norm_num) (by omega), by norm_num⟩ (by rw [v1]; linarith)
        · have hc := not_le.mp hc
          obtain ⟨m, e, hm, he⟩ := c'.representable
          have hm' : |(m : ℚ)| < 2 ^ F.p := by exact_mod_cast hm
          have he1 : (-(F.p : ℤ)) ≤ e := by
            by_contra k
            have : (2 : ℚ) ^ e ≤ 2 ^ (-(F.p : ℤ) - 1) := zpow_le_zpow_right₀ (by norm_num) (by omega)
            have e2 : (2 : ℚ) ^ (F.p : ℕ) * 2 ^ (-(F.p : ℤ) - 1) = 1 / 2 := by
              rw [← zpow_natCast, ← zpow_add₀ (by norm_num), show (F.p : ℤ) + (-(F.p : ℤ) - 1) = -1 by ring]
              norm_num
            have : c'.val ≤ 2 ^ F.p * 2 ^ (-(F.p : ℤ) - 1) := by
              rw [he]
              refine (le_abs_self _).trans ?_
              rw [abs_mul, abs_of_pos (show (0 : ℚ) < 2 ^ e by positivity)]
              exact mul_le_mul hm'.le this (by positivity) (by positivity)
            linarith
          have key : (2 : ℚ) ^ (-(F.p : ℤ)) ≤ 1 - c'.val := by
            have ek : c'.val = ((m * 2 ^ (e + F.p).toNat : ℤ) : ℚ) * 2 ^ (-(F.p : ℤ)) := by
              rw [he]
              push_cast
              rw [mul_assoc, ← zpow_natCast, ← zpow_add₀ (by norm_num), Int.toNat_of_nonneg (by omega)]
              congr 2
              ring
            rw [ek] at h ⊢
            generalize m * 2 ^ (e + F.p).toNat = k at *
            have one : (1 : ℚ) = ((2 ^ F.p : ℤ) : ℚ) * 2 ^ (-(F.p : ℤ)) := by
              push_cast
              rw [← zpow_natCast, ← zpow_add₀ (by norm_num)]
              norm_num
            have pos : (0 : ℚ) < 2 ^ (-(F.p : ℤ)) := by positivity
            have hk : k < 2 ^ F.p := by
              have : (k : ℚ) < ((2 ^ F.p : ℤ) : ℚ) := by
                rw [one] at h
                exact lt_of_mul_lt_mul_right h pos.le
              exact_mod_cast this
            have hk' : (k : ℚ) + 1 ≤ ((2 ^ F.p : ℤ) : ℚ) := by exact_mod_cast hk
            nlinarith
          refine le_trans (b := (2 : ℚ) ^ (-(F.p : ℤ))) ?_ ?_
          · calc (1 : ℚ) / 2 ^ 60 = 2 ^ (-60 : ℤ) := by norm_num
              _ ≤ _ := zpow_le_zpow_right₀ (by norm_num) (by omega)
          · exact Binary.le_round _ hp0 _ _ ⟨1, -(F.p : ℤ), by rw [abs_one]; exact one_lt_pow₀ (by norm_num) (by omega), by simp⟩ (by rw [v1]; exact key)
    refine UnitCircle.same_mul D s2 sd ?_ ?_
    · rcases tiny with h | h
      · left; rw [h, mul_zero]
      · right
        rw [v2, abs_of_nonneg (by linarith)]
        have : (1 : ℚ) / 2 ^ 98 ≤ 1 / 2 * (1 / 2 ^ 60) := by norm_num
        linarith
    · rw [v2, abs_of_nonneg (by linarith)]
      linarith [show (2 : ℚ) ≤ 2 ^ 60 by norm_num]
  refine ⟨_, by simp only [hannIeee, Rounded.hann, bind, Except.bind, i1, e1, pure, Except.pure], sw.1, sw.2.1, ?_, ?_, ?_⟩
  · rw [sw.2.2]; exact w0
  · rw [sw.2.2]; exact w1
  · rw [sw.2.2]; exact hw

/-- **C142** The Hamming window: every weight is a finite number, off by at most eight units. -/
theorem C142_hamming : ∃ w, hammingIeee l F n N = .ok w ∧ w.Finite ∧ w.Valid ∧ |(w.val : ℝ) - (0.54 - 0.46 * Real.cos (2 * Real.pi * n / (N - 1 : ℤ)))| ≤ 8 / 2 ^ F.p := by
  obtain ⟨w', ew, hw⟩ := C83_hamming l F.p (deep_ten D) hp hl n N hN hN2 hn hnN
  obtain ⟨⟨c, c', e1, e2, s, g, g0⟩, -⟩ := results D l hp hl n (N - 1) (by omega) (by omega) (by omega) (by omega)
  have i1 := int32_fits (show -2147483648 ≤ N - 1 ∧ N - 1 ≤ 2147483647 by omega)
  simp only [Rounded.hamming, bind, Except.bind, i1, e2, pure, Except.pure] at ew
  cases ew
  obtain ⟨s1, -, b1⟩ := same_constant D 0.54 hp (by norm_num [abs_of_pos]) (by norm_num [abs_of_pos])
  obtain ⟨s2, a2, b2⟩ := same_constant D 0.46 hp (by norm_num [abs_of_pos]) (by norm_num [abs_of_pos])
  rw [abs_of_pos (show (0 : ℚ) < 0.54 by norm_num)] at b1
  rw [abs_of_pos (show (0 : ℚ) < 0.46 by norm_num)] at a2 b2
  have sm : Same (constant F 0.46 * c) (Binary.literal 53 F.p 0.46 * c') ∧ |(Binary.literal 53 F.p 0.46 * c').val| ≤ 2 := by
    have le1 : |(Binary.literal 53 F.p 0.46).val * c'.val| ≤ 1 := by
      rw [abs_mul]
      calc _ ≤ (1 : ℚ) * 1 := mul_le_mul (b2.trans (by norm_num)) g (abs_nonneg _) (by norm_num)
        _ = 1 := by norm_num
    refine ⟨UnitCircle.same_mul D s2 s ?_ (le1.trans (by norm_num)), ?_⟩
    · rcases g0 with h | h
      · left; rw [h, mul_zero]
      · right
        rw [abs_mul]
        calc (1 : ℚ) / 2 ^ 98 ≤ (99 / 100 * 0.46) * (1 / 2 ^ 31) := by norm_num
          _ ≤ _ := mul_le_mul a2 h (by norm_num) (abs_nonneg _)
    · have := UnitCircle.round_close D ((Binary.literal 53 F.p 0.46).val * c'.val)
      have k := abs_sub_abs_le_abs_sub (Binary.round F.p ((Binary.literal 53 F.p 0.46).val * c'.val)) ((Binary.literal 53 F.p 0.46).val * c'.val)
      show |Binary.round F.p ((Binary.literal 53 F.p 0.46).val * c'.val)| ≤ 2
      linarith
  have sw := same_sub D s1 sm.1 ((abs_sub _ _).trans (by
    have : (3 : ℚ) ≤ 2 ^ 60 := by norm_num
    norm_num at b1
    linarith [sm.2]))
  refine ⟨_, by simp only [hammingIeee, Rounded.hamming, bind, Except.bind, i1, e1, pure, Except.pure], sw.1, sw.2.1, ?_⟩
  rw [sw.2.2]; exact hw

/-- **C142** The Blackman window with any coefficients that are zero or of an ordinary size: every weight is a finite number, with the error of unbounded arithmetic. -/
theorem C142_blackman (a0 a1 a2 : Ieee F) (ha : ∀ a ∈ [a0, a1, a2], a.Finite ∧ a.Valid ∧ (a.val = 0 ∨ 1 / 2 ^ 60 ≤ |a.val|) ∧ |a.val| ≤ 2 ^ 50) : ∃ w, blackmanIeee l F a0 a1 a2 n N = .ok w ∧ w.Finite ∧ w.Valid ∧
    |(w.val : ℝ) - (a0.val - a1.val * Real.cos (2 * Real.pi * n / (N - 1 : ℤ)) + a2.val * Real.cos (2 * Real.pi * (2 * n : ℤ) / (N - 1 : ℤ)))| ≤
      (3 * |(a0.val : ℝ)| + 13 * |(a1.val : ℝ)| + 12 * |(a2.val : ℝ)|) / 2 ^ F.p := by
  have lift : ∀ a : Ieee F, a.Finite → a.Valid → ∃ b : Binary F.p, Same a b := fun a f v => by
    obtain ⟨xs, h, -, -⟩ := exists_same [a] (by simpa using ⟨f, v⟩)
    cases h with
    | cons h _ => exact ⟨_, h⟩
  obtain ⟨f0, v0, z0, m0⟩ := ha a0 (by simp)
  obtain ⟨f1, v1, z1, m1⟩ := ha a1 (by simp)
  obtain ⟨f2, v2, z2, m2⟩ := ha a2 (by simp)
  obtain ⟨b0, s0⟩ := lift a0 f0 v0
  obtain ⟨b1, s1⟩ := lift a1 f1 v1
  obtain ⟨b2, s2⟩ := lift a2 f2 v2
  rw [s0.2.2] at z0 m0 ⊢
  rw [s1.2.2] at z1 m1 ⊢
  rw [s2.2.2] at z2 m2 ⊢
  obtain ⟨w', ew, hw⟩ := C83_blackman l F.p (deep_ten D) hp hl n N hN hN2 hn hnN b0 b1 b2
  obtain ⟨⟨c, c', e1, e2, s, g, g0⟩, -⟩ := results D l hp hl n (N - 1) (by omega) (by omega) (by omega) (by omega)
  obtain ⟨r1, r2⟩ := tmod_range (2 * n) (N - 1) (by omega)
  obtain ⟨⟨d, d', f1, f2, t, k, k0⟩, -⟩ := results D l hp hl ((2 * n).tmod (N - 1)) (N - 1) (by omega) (by omega) r1 r2
  have i1 := int32_fits (show -2147483648 ≤ N - 1 ∧ N - 1 ≤ 2147483647 by omega)
  have i2 := int32_fits (show -2147483648 ≤ 2 * n ∧ 2 * n ≤ 2147483647 by omega)
  have i3 := irem_ok (2 * n) (N - 1) (by omega)
  simp only [Rounded.blackman, bind, Except.bind, i1, i2, i3, e2, f2, pure, Except.pure] at ew
  cases ew
  have prod : ∀ (x : Ieee F) (x' : Binary F.p) (y : Ieee F) (y' : Binary F.p), Same x x' → (x'.val = 0 ∨ 1 / 2 ^ 60 ≤ |x'.val|) → |x'.val| ≤ 2 ^ 50 → Same y y' → |y'.val| ≤ 1 → (y'.val = 0 ∨ 1 / 2 ^ 31 ≤ |y'.val|) →
      Same (x * y) (x' * y') ∧ |(x' * y').val| ≤ 2 ^ 51 := by
    intro x x' y y' hx zx mx hy my zy
    have le1 : |x'.val * y'.val| ≤ 2 ^ 50 := by
      rw [abs_mul]
      calc _ ≤ (2 : ℚ) ^ 50 * 1 := mul_le_mul mx my (abs_nonneg _) (by norm_num)
        _ = _ := by norm_num
    refine ⟨UnitCircle.same_mul D hx hy ?_ (le1.trans (by norm_num)), ?_⟩
    · rcases zx with h | h
      · left; rw [h, zero_mul]
      · rcases zy with h' | h'
        · left; rw [h', mul_zero]
        · right
          rw [abs_mul]
          calc (1 : ℚ) / 2 ^ 98 ≤ 1 / 2 ^ 60 * (1 / 2 ^ 31) := by norm_num
            _ ≤ _ := mul_le_mul h h' (by norm_num) (abs_nonneg _)
    · have := UnitCircle.round_close D (x'.val * y'.val)
      have k := abs_sub_abs_le_abs_sub (Binary.round F.p (x'.val * y'.val)) (x'.val * y'.val)
      show |Binary.round F.p (x'.val * y'.val)| ≤ 2 ^ 51
      norm_num [-abs_mul] at le1 ⊢
      linarith
  obtain ⟨p1, q1⟩ := prod _ _ _ _ s1 z1 m1 s g g0
  obtain ⟨p2, q2⟩ := prod _ _ _ _ s2 z2 m2 t k k0
  have le0 : |b0.val - (b1 * c').val| ≤ 2 ^ 52 := (abs_sub _ _).trans (by norm_num at m0 q1 ⊢; linarith)
  have sf := same_sub D s0 p1 (le0.trans (by norm_num))
  have le2 : |(b0 - b1 * c').val| ≤ 2 ^ 53 := by
    have := UnitCircle.round_close D (b0.val - (b1 * c').val)
    have k := abs_sub_abs_le_abs_sub (Binary.round F.p (b0.val - (b1 * c').val)) (b0.val - (b1 * c').val)
    show |Binary.round F.p (b0.val - (b1 * c').val)| ≤ 2 ^ 53
    norm_num at le0 ⊢
    linarith
  have sw := UnitCircle.same_add D sf p2 ((abs_add_le _ _).trans (by norm_num at le2 q2 ⊢; linarith))
  refine ⟨_, by simp only [blackmanIeee, Rounded.blackman, bind, Except.bind, i1, i2, i3, e1, f1, pure, Except.pure], sw.1, sw.2.1, ?_⟩
  rw [sw.2.2]; exact hw

/-- **C142** The window `Blackman()`: every weight is a finite number, off by at most ten units. -/
theorem C142_blackman_exact : ∃ w, blackmanExactIeee l F n N = .ok w ∧ w.Finite ∧ w.Valid ∧
    |(w.val : ℝ) - (7938 - 9240 * Real.cos (2 * Real.pi * n / (N - 1 : ℤ)) + 1430 * Real.cos (2 * Real.pi * (2 * n : ℤ) / (N - 1 : ℤ))) / 18608| ≤ 10 / 2 ^ F.p := by
  have q : ∀ k : ℤ, 1430 ≤ k → k ≤ 9240 → (((k : ℤ) : Ieee F) / ((18608 : ℤ) : Ieee F)).Finite ∧ (((k : ℤ) : Ieee F) / ((18608 : ℤ) : Ieee F)).Valid ∧
      |(((k : ℤ) : Ieee F) / ((18608 : ℤ) : Ieee F)).val - k / 18608| ≤ 1 / 2 ^ F.p * (k / 18608) := by
    intro k k1 k2
    have k1' : (1430 : ℚ) ≤ k := by exact_mod_cast k1
    have k2' : (k : ℚ) ≤ 9240 := by exact_mod_cast k2
    have big : ∀ j : ℤ, |j| ≤ 18608 → ((j : ℤ) : Binary F.p).val = j := fun j hj => Binary.cast_exact F.p j (lt_of_le_of_lt hj (by
      have := D.wide.p
      calc (18608 : ℤ) < 2 ^ 20 := by norm_num
        _ ≤ 2 ^ F.p := pow_le_pow_right₀ (by norm_num) this))
    have ek := big k (by rw [abs_le]; omega)
    have ed := big 18608 (by norm_num)
    have sk := UnitCircle.same_int D k (by rw [abs_le]; omega)
    have sd := UnitCircle.same_int D 18608 (by norm_num)
    have eq : ((k : ℤ) : Binary F.p).val / ((18608 : ℤ) : Binary F.p).val = k / 18608 := by rw [ek, ed]; norm_num
    have pos : (0 : ℚ) ≤ k / 18608 := by positivity
    have s := UnitCircle.same_div D sk sd (by rw [ed]; norm_num) (by
      right
      rw [eq, abs_of_nonneg pos]
      linarith [show (1 : ℚ) / 2 ^ 98 ≤ 1430 / 18608 by norm_num]) (by
      rw [eq, abs_of_nonneg pos]
      linarith [show (9240 : ℚ) / 18608 ≤ 2 ^ 60 by norm_num])
    refine ⟨s.1, s.2.1, ?_⟩
    rw [s.2.2]
    have := Binary.round_error F.p (((k : ℤ) : Binary F.p).val / ((18608 : ℤ) : Binary F.p).val)
    rw [eq, abs_of_nonneg pos] at this
    show |Binary.round F.p (((k : ℤ) : Binary F.p).val / ((18608 : ℤ) : Binary F.p).val) - _| ≤ _
    rw [eq]
    refine this.trans (le_of_eq ?_)
    ring
  have hu := unit_small F.p (deep_ten D)
  have hu' : (1 : ℚ) / 2 ^ F.p ≤ 1 / 1000 := by
    have : ((1 / 2 ^ F.p : ℚ) : ℝ) ≤ ((1 / 1000 : ℚ) : ℝ) := by push_cast; exact hu
    exact_mod_cast this
  have q0 := q 7938 (by norm_num) (by norm_num)
  have q1 := q 9240 (by norm_num) (by norm_num)
  have q2 := q 1430 (by norm_num) (by norm_num)
  have real : ∀ (k : ℤ) (a : Ieee F), |a.val - k / 18608| ≤ 1 / 2 ^ F.p * (k / 18608) → |(a.val : ℝ) - k / 18608| ≤ 1 / 2 ^ F.p * (k / 18608) := by
    intro k a h
    have : ((|a.val - k / 18608| : ℚ) : ℝ) ≤ ((1 / 2 ^ F.p * (k / 18608) : ℚ) : ℝ) := by exact_mod_cast h
    push_cast at this
    exact this
  have ok : ∀ (k : ℤ) (a : Ieee F), 1430 ≤ k → k ≤ 9240 → |a.val - k / 18608| ≤ 1 / 2 ^ F.p * (k / 18608) → (a.val = 0 ∨ 1 / 2 ^ 60 ≤ |a.val|) ∧ |a.val| ≤ 2 ^ 50 := by
    intro k a k1 k2 h
    have k1' : (1430 : ℚ) ≤ k := by exact_mod_cast k1
    have k2' : (k : ℚ) ≤ 9240 := by exact_mod_cast k2
    have h' : |a.val - k / 18608| ≤ 1 / 1000 * (k / 18608) := h.trans (mul_le_mul_of_nonneg_right hu' (by positivity))
    obtain ⟨l1, l2⟩ := abs_le.mp h'
    have : 0 ≤ a.val := by linarith
    rw [abs_of_nonneg this]
    constructor
    · right; norm_num; linarith
    · norm_num; linarith
  have o0 := ok _ _ (by norm_num) (by norm_num) q0.2.2
  have o1 := ok _ _ (by norm_num) (by norm_num) q1.2.2
  have o2 := ok _ _ (by norm_num) (by norm_num) q2.2.2
  obtain ⟨w, e, f, v, h⟩ := C142_blackman D l hp hl n N hN hN2 hn hnN _ _ _ (by
    intro a ha
    simp only [List.mem_cons, List.not_mem_nil, or_false] at ha
    rcases ha with rfl | rfl | rfl
    · exact ⟨q0.1, q0.2.1, o0⟩
    · exact ⟨q1.1, q1.2.1, o1⟩
    · exact ⟨q2.1, q2.2.1, o2⟩)
  refine ⟨w, e, f, v, ?_⟩
  have r0 := real _ _ q0.2.2
  have r1 := real _ _ q1.2.2
  have r2 := real _ _ q2.2.2
  generalize (((7938 : ℤ) : Ieee F) / ((18608 : ℤ) : Ieee F)).val = a0 at *
  generalize (((9240 : ℤ) : Ieee F) / ((18608 : ℤ) : Ieee F)).val = a1 at *
  generalize (((1430 : ℤ) : Ieee F) / ((18608 : ℤ) : Ieee F)).val = a2 at *
  have hc1 := Real.abs_cos_le_one (2 * Real.pi * n / (N - 1 : ℤ))
  have hc2 := Real.abs_cos_le_one (2 * Real.pi * (2 * n : ℤ) / (N - 1 : ℤ))
  generalize Real.cos (2 * Real.pi * n / (N - 1 : ℤ)) = c1 at *
  generalize Real.cos (2 * Real.pi * (2 * n : ℤ) / (N - 1 : ℤ)) = c2 at *
  have hu0 : (0 : ℝ) ≤ 1 / 2 ^ F.p := by positivity
  rw [div_eq_mul_one_div] at h
  rw [div_eq_mul_one_div (10 : ℝ)]
  generalize (1 : ℝ) / 2 ^ F.p = u at *
  push_cast at r0 r1 r2
  have size : ∀ (a k : ℝ), 0 ≤ k → |a - k| ≤ u * k → |a| ≤ 1.001 * k := by
    intro a k hk h
    have := abs_sub_abs_le_abs_sub a k
    rw [abs_of_nonneg hk] at this
    nlinarith
  have t0 := size _ _ (by norm_num) r0
  have t1 := size _ _ (by norm_num) r1
  have t2 := size _ _ (by norm_num) r2
  have p1 : |((a1 : ℝ) - 9240 / 18608) * c1| ≤ u * (9240 / 18608) := by
    rw [abs_mul]
    exact (mul_le_of_le_one_right (abs_nonneg _) hc1).trans r1
  have p2 : |((a2 : ℝ) - 1430 / 18608) * c2| ≤ u * (1430 / 18608) := by
    rw [abs_mul]
    exact (mul_le_of_le_one_right (abs_nonneg _) hc2).trans r2
  have key : (w.val : ℝ) - (7938 - 9240 * c1 + 1430 * c2) / 18608 =
      (w.val - (a0 - a1 * c1 + a2 * c2)) + ((a0 - 7938 / 18608) + (-((a1 - 9240 / 18608) * c1) + (a2 - 1430 / 18608) * c2)) := by ring
  rw [key]
  have b : (3 * |(a0 : ℝ)| + 13 * |(a1 : ℝ)| + 12 * |(a2 : ℝ)|) * u ≤ 8.9 * u := mul_le_mul_of_nonneg_right (by norm_num at t0 t1 t2 ⊢; linarith) hu0
  calc _ ≤ |(w.val : ℝ) - (a0 - a1 * c1 + a2 * c2)| + (|(a0 : ℝ) - 7938 / 18608| + (|((a1 : ℝ) - 9240 / 18608) * c1| + |((a2 : ℝ) - 1430 / 18608) * c2|)) := by
        refine (abs_add_le _ _).trans (add_le_add le_rfl ((abs_add_le _ _).trans (add_le_add le_rfl ((abs_add_le _ _).trans ?_))))
        rw [abs_neg]
    _ ≤ _ := by linarith

omit hN2 in
/-- **C142** The Lanczos window: every weight is a finite number with a relative error of at most 24 units, and exactly one in the middle. -/
theorem C142_lanczos (hN2 : N ≤ 134217728) : ∃ w, lanczosIeee l F n N = .ok w ∧ w.Finite ∧ w.Valid ∧ (2 * n = N - 1 → w.val = 1) ∧
    (2 * n ≠ N - 1 → |(w.val : ℝ) - Real.sin (Real.pi * ((2 * n - (N - 1 : ℤ)) / (N - 1 : ℤ))) / (Real.pi * ((2 * n - (N - 1 : ℤ)) / (N - 1 : ℤ)))| ≤
      24 / 2 ^ F.p * |Real.sin (Real.pi * ((2 * n - (N - 1 : ℤ)) / (N - 1 : ℤ))) / (Real.pi * ((2 * n - (N - 1 : ℤ)) / (N - 1 : ℤ)))|) := by
  obtain ⟨w', ew, hw1, hw2⟩ := C83_lanczos l F.p (deep_ten D) hp hl n N hN hn hnN hN2
  suffices h : ∃ w, lanczosIeee l F n N = .ok w ∧ Same w w' by
    obtain ⟨w, e, s⟩ := h
    refine ⟨w, e, s.1, s.2.1, ?_, ?_⟩
    · rw [s.2.2]; exact hw1
    · rw [s.2.2]; exact hw2
  have i1 := int32_fits (show -2147483648 ≤ N - 1 ∧ N - 1 ≤ 2147483647 by omega)
  have i2 := int32_fits (show -2147483648 ≤ 2 * n ∧ 2 * n ≤ 2147483647 by omega)
  by_cases c : 2 * n = N - 1
  · have b : (2 * n == N - 1) = true := beq_iff_eq.mpr c
    simp only [Rounded.lanczos, bind, Except.bind, i1, i2, b, M.ite, pure, Except.pure, if_true] at ew
    cases ew
    refine ⟨constant F 1, ?_, (same_constant D 1 hp (by norm_num) (by norm_num)).1⟩
    simp only [lanczosIeee, Rounded.lanczos, bind, Except.bind, i1, i2, b, M.ite, pure, Except.pure, if_true]
  · have i3 := int32_fits (show -2147483648 ≤ 2 * n - (N - 1) ∧ 2 * n - (N - 1) ≤ 2147483647 by omega)
    have i4 := int32_fits (show -2147483648 ≤ 2 * (N - 1) ∧ 2 * (N - 1) ≤ 2147483647 by omega)
    obtain ⟨-, s, s', e1, e2, ss, g, g0⟩ := results D l hp hl (2 * n - (N - 1)) (2 * (N - 1)) (by omega) (by omega) (by omega) (by omega)
    have b1 : (2 * n == N - 1) = false := beq_eq_false_iff_ne.mpr c
    have b2 : (N - 1 == 0) = false := beq_eq_false_iff_ne.mpr (by omega)
    simp only [Rounded.lanczos, bind, Except.bind, i1, i2, i3, i4, e2, b1, b2, M.ite, pure, Except.pure, Bool.false_eq_true, if_false] at ew
    have hπ : Same (piIeee l F) (Rounded.pi l F.p) ∧ 3 ≤ (Rounded.pi l F.p).val ∧ (Rounded.pi l F.p).val ≤ 4 := by
      obtain ⟨lo, hi⟩ := Elementary.AtanIeee.literal_between l F.p D.wide.p hl 3.141592653589793238462643383279502884197169399375105820974944592307 3 4 (by norm_num [abs_of_pos]) (by norm_num [abs_of_pos])
      refine ⟨UnitCircle.same_literal D _ ?_ ?_, lo, hi⟩
      · rw [abs_of_nonneg (by show (0 : ℚ) ≤ (Binary.literal l F.p _).val; linarith)]
        show _ ≤ (Binary.literal l F.p _).val
        linarith [show (1 : ℚ) / 2 ^ 60 ≤ 3 by norm_num]
      · rw [abs_of_nonneg (by show (0 : ℚ) ≤ (Binary.literal l F.p _).val; linarith)]
        show (Binary.literal l F.p _).val ≤ _
        linarith
    obtain ⟨sπ, lo, hi⟩ := hπ
    have sd := UnitCircle.same_int D (2 * n - (N - 1)) (by rw [abs_le]; omega)
    have sM := UnitCircle.same_int D (N - 1) (by rw [abs_le]; omega)
    have rd := UnitCircle.round_close D ((2 * n - (N - 1) : ℤ) : ℚ)
    have rM := UnitCircle.round_close D ((N - 1 : ℤ) : ℚ)
    have ed : ((2 * n - (N - 1) : ℤ) : Binary F.p).val = Binary.round F.p ((2 * n - (N - 1) : ℤ) : ℚ) := rfl
    have eM : ((N - 1 : ℤ) : Binary F.p).val = Binary.round F.p ((N - 1 : ℤ) : ℚ) := rfl
    rw [← ed] at rd
    rw [← eM] at rM
    have d1 : (1 : ℚ) ≤ |((2 * n - (N - 1) : ℤ) : ℚ)| := by exact_mod_cast Int.one_le_abs (by omega : 2 * n - (N - 1) ≠ 0)
    have d2 : |((2 * n - (N - 1) : ℤ) : ℚ)| ≤ 2 ^ 28 := by
      have : |2 * n - (N - 1)| ≤ 2 ^ 28 := by rw [abs_le]; constructor <;> norm_num <;> omega
      exact_mod_cast this
    have M1 : (1 : ℚ) ≤ ((N - 1 : ℤ) : ℚ) := by exact_mod_cast (by omega : 1 ≤ N - 1)
    have M2 : ((N - 1 : ℤ) : ℚ) ≤ 2 ^ 28 := by
      have : N - 1 ≤ 2 ^ 28 := by norm_num; omega
      exact_mod_cast this
    generalize hd : ((2 * n - (N - 1) : ℤ) : ℚ) = d at *
    generalize hM : ((N - 1 : ℤ) : ℚ) = m at *
    generalize ((2 * n - (N - 1) : ℤ) : Binary F.p) = d' at *
    generalize ((N - 1 : ℤ) : Binary F.p) = m' at *
    generalize hdi : ((2 * n - (N - 1) : ℤ) : Ieee F) = di at *
    generalize hmi : ((N - 1 : ℤ) : Ieee F) = mi at *
    generalize Rounded.pi l F.p = π' at *
    have kd1 : 99 / 100 ≤ |d'.val| := by
      have := abs_sub_abs_le_abs_sub d d'.val
      rw [abs_sub_comm] at this
      linarith
    have kd2 : |d'.val| ≤ 2 ^ 29 := by
      have := abs_sub_abs_le_abs_sub d'.val d
      norm_num at d2 ⊢
      linarith
    rw [abs_of_nonneg (show 0 ≤ m by linarith)] at rM
    obtain ⟨rM1, rM2⟩ := abs_le.mp rM
    have km1 : 99 / 100 ≤ m'.val := by linarith
    have km2 : m'.val ≤ 2 ^ 29 := by norm_num at M2 ⊢; linarith
    have pd : 2 ≤ |π'.val * d'.val| ∧ |π'.val * d'.val| ≤ 2 ^ 31 := by
      rw [abs_mul, abs_of_nonneg (show 0 ≤ π'.val by linarith)]
      constructor
      · nlinarith
      · calc π'.val * |d'.val| ≤ 4 * 2 ^ 29 := mul_le_mul hi kd2 (abs_nonneg _) (by norm_num)
          _ = _ := by norm_num
    have s1 := UnitCircle.same_mul D sπ sd (.inr (le_trans (by norm_num) pd.1)) (pd.2.trans (by norm_num))
    have rp := UnitCircle.round_close D (π'.val * d'.val)
    have ep : (π' * d').val = Binary.round F.p (π'.val * d'.val) := rfl
    rw [← ep] at rp
    have pp : 1 ≤ |(π' * d').val| ∧ |(π' * d').val| ≤ 2 ^ 32 := by
      have t1 := abs_sub_abs_le_abs_sub (π'.val * d'.val) (π' * d').val
      have t2 := abs_sub_abs_le_abs_sub (π' * d').val (π'.val * d'.val)
      rw [abs_sub_comm] at t1
      obtain ⟨u1, u2⟩ := pd
      norm_num [-abs_mul] at u2 ⊢
      constructor <;> linarith
    generalize π' * d' = x' at *
    generalize hxi : piIeee l F * di = xi at *
    have qd : 1 / 2 ^ 29 ≤ |x'.val / m'.val| ∧ |x'.val / m'.val| ≤ 2 ^ 33 := by
      have m0 : 0 < m'.val := by linarith
      rw [abs_div, abs_of_pos m0, le_div_iff₀ m0, div_le_iff₀ m0]
      obtain ⟨u1, u2⟩ := pp
      constructor
      · refine le_trans ?_ u1
        rw [div_mul_eq_mul_div, one_mul, div_le_one (by norm_num)]
        exact km2
      · norm_num [-abs_mul] at u2 ⊢
        linarith
    have s2 := UnitCircle.same_div D s1 sM (by linarith) (.inr (le_trans (by norm_num) qd.1)) (qd.2.trans (by norm_num))
    have rq := UnitCircle.round_close D (x'.val / m'.val)
    have eq : (x' / m').val = Binary.round F.p (x'.val / m'.val) := rfl
    rw [← eq] at rq
    have qq : 1 / 2 ^ 30 ≤ |(x' / m').val| ∧ |(x' / m').val| ≤ 2 ^ 34 := by
      have t1 := abs_sub_abs_le_abs_sub (x'.val / m'.val) (x' / m').val
      have t2 := abs_sub_abs_le_abs_sub (x' / m').val (x'.val / m'.val)
      rw [abs_sub_comm] at t1
      obtain ⟨u1, u2⟩ := qd
      norm_num [-abs_mul] at u1 u2 ⊢
      constructor <;> linarith
    generalize x' / m' = q' at *
    generalize hqi : xi / mi = qi at *
    have q0 : q'.val ≠ 0 := by
      intro h
      rw [h, abs_zero] at qq
      norm_num at qq
    have b3 : (q' == 0) = false := by
      rw [beq_eq_false_iff_ne]
      rintro rfl
      exact q0 rfl
    have b4 : (qi == 0) = false := by
      rw [Bool.eq_false_iff]
      intro h
      apply q0
      rw [← s2.2.2]
      exact (Elementary.AtanIeee.beq_zero_iff s2.1).mp h
    rw [b3] at ew
    simp only [Bool.false_eq_true, if_false] at ew
    cases ew
    refine ⟨s / qi, ?_, UnitCircle.same_div D ss s2 q0 ?_ ?_⟩
    · simp only [lanczosIeee, Rounded.lanczos, bind, Except.bind, i1, i2, i3, i4, e1, b1, b2, M.ite, pure, Except.pure, Bool.false_eq_true, if_false, hdi, hmi, hxi, hqi, b4]
    · rcases g0 with h | h
      · left; rw [h, zero_div]
      · right
        rw [abs_div, le_div_iff₀ (abs_pos.mpr q0)]
        calc (1 : ℚ) / 2 ^ 98 * |q'.val| ≤ 1 / 2 ^ 98 * 2 ^ 34 := mul_le_mul_of_nonneg_left qq.2 (by norm_num)
          _ ≤ 1 / 2 ^ 31 := by norm_num
          _ ≤ _ := h
    · rw [abs_div, div_le_iff₀ (abs_pos.mpr q0)]
      refine g.trans ?_
      calc (1 : ℚ) ≤ 2 ^ 60 * (1 / 2 ^ 30) := by norm_num
        _ ≤ _ := mul_le_mul_of_nonneg_left qq.1 (by norm_num)

end

/-! ### The Kaiser window with a large parameter -/

omit [NeZero F.p] D in
theorem div_nan (a : Ieee F) : a / .nan = .nan := by
  cases a <;> rfl

set_option maxRecDepth 100000 in
omit [NeZero F.p] D in
theorem i0_large : Rounded.i0 (constant Format.single 1) (piIeee 64 Format.single * ((40 : ℤ) : Ieee Format.single)) = .nan := by
  decide +kernel

omit [NeZero F.p] D in
/-- **C142** In single precision with the parameter `40` all weights of the Kaiser window are NaN, also in the middle: the sum in `i0` overflows, and the compensation makes infinity less infinity of it. -/
theorem C142_kaiser_nan (n N : ℤ) (hN : 2 ≤ N) (hN2 : N ≤ 2 ^ 30) (hn : 0 ≤ n) (hnN : n < N) : kaiserIeee 64 Format.single ((40 : ℤ) : Ieee Format.single) n N = .ok .nan := by
  norm_num at hN2
  have i1 := int32_fits (show -2147483648 ≤ N - 1 ∧ N - 1 ≤ 2147483647 by omega)
  have i2 := int32_fits (show -2147483648 ≤ 2 * n ∧ 2 * n ≤ 2147483647 by omega)
  have b2 : (N - 1 == 0) = false := beq_eq_false_iff_ne.mpr (by omega)
  simp only [kaiserIeee, Rounded.kaiser, Rounded.offset2, bind, Except.bind, i1, i2, b2, M.ite, pure, Except.pure, Bool.false_eq_true, if_false, i0_large, div_nan]

/-! ### Examples -/

omit [NeZero F.p] D in
/-- The weight beside the middle of a Hann window of five samples in single precision. -/
example : ∃ w, hannIeee 64 Format.single 1 5 = .ok w ∧ w.Finite ∧ |(w.val : ℝ) - 1 / 2| ≤ 7 / 2 ^ 24 := by
  obtain ⟨w, h1, h2, -, -, -, h3⟩ := C142_hann UnitCircle.deep_single 64 (by decide) (by decide) 1 5 (by norm_num) (by norm_num) (by norm_num) (by norm_num)
  refine ⟨w, h1, h2, ?_⟩
  have e : 2 * Real.pi * ((1 : ℤ) : ℝ) / ((5 - 1 : ℤ) : ℝ) = Real.pi / 2 := by push_cast; ring
  rw [e, Real.cos_pi_div_two, sub_zero] at h3
  exact h3

omit [NeZero F.p] D in
/-- The middle of a Lanczos window of seven samples in single precision. -/
example : ∃ w, lanczosIeee 64 Format.single 3 7 = .ok w ∧ w.val = 1 := by
  obtain ⟨w, h1, -, -, h2, -⟩ := C142_lanczos UnitCircle.deep_single 64 (by decide) (by decide) 3 7 (by norm_num) (by norm_num) (by norm_num) (by norm_num)
  exact ⟨w, h1, h2 (by norm_num)⟩

omit [NeZero F.p] D in
/-- The first weight of a Hamming window of nine samples and of `Blackman()` in single precision. -/
example : (∃ w, hammingIeee 64 Format.single 0 9 = .ok w ∧ |(w.val : ℝ) - 0.08| ≤ 8 / 2 ^ 24) ∧ ∃ w, blackmanExactIeee 64 Format.single 0 9 = .ok w ∧ |(w.val : ℝ) - 128 / 18608| ≤ 10 / 2 ^ 24 := by
  obtain ⟨w, h1, -, -, h2⟩ := C142_hamming UnitCircle.deep_single 64 (by decide) (by decide) 0 9 (by norm_num) (by norm_num) (by norm_num) (by norm_num)
  obtain ⟨v, k1, -, -, k2⟩ := C142_blackman_exact UnitCircle.deep_single 64 (by decide) (by decide) 0 9 (by norm_num) (by norm_num) (by norm_num) (by norm_num)
  refine ⟨⟨w, h1, ?_⟩, v, k1, ?_⟩
  · norm_num [Format.single] at h2 ⊢
    exact h2
  · norm_num [Format.single] at k2 ⊢
    exact k2

end Win
end DSP
