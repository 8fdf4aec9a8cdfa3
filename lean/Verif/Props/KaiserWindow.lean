import Verif.Props.KaiserSpecial

/-!
# C143: the Kaiser window with the limits of the exponent
-/

namespace DSP

open Ieee Spec FFT Bridge

namespace Win

/-- The difference of one and a number of the format is zero or not tiny. -/
theorem one_grid (p : ℕ) (hp : 0 < p) (x y : ℚ) (hx : Binary.Representable p x) (h0 : 0 ≤ x) (hy : y = x - 1 ∨ y = 1 - x) : Binary.round p y = 0 ∨ 1 / 2 ^ p / 2 ≤ |Binary.round p y| := by
  have eg : (1 : ℚ) / 2 ^ p / 2 = 2 ^ (-1 - p : ℤ) := by
    rw [zpow_sub₀ (by norm_num), zpow_natCast, zpow_neg, zpow_one]
    field_simp
  rcases lt_or_ge x (1 / 4) with h | h
  · right
    have rep : Binary.Representable p (1 / 2) := ⟨1, -1, by rw [abs_one]; exact one_lt_pow₀ (by norm_num) (by omega), by norm_num⟩
    have rep' : Binary.Representable p (-1 / 2) := ⟨-1, -1, by rw [abs_neg, abs_one]; exact one_lt_pow₀ (by norm_num) (by omega), by norm_num⟩
    have h1 : (1 : ℚ) / 2 ^ p / 2 ≤ 1 / 2 := by
      have : (1 : ℚ) / 2 ^ p ≤ 1 := by
        rw [div_le_one (by positivity)]
        exact one_le_pow₀ (by norm_num)
      linarith
    refine h1.trans ?_
    rcases hy with rfl | rfl
    · have := Binary.round_le p hp (x - 1) (-1 / 2) rep' (by linarith)
      rw [abs_of_nonpos (by linarith)]
      linarith
    · have := Binary.le_round p hp (1 - x) (1 / 2) rep (by linarith)
      rw [abs_of_nonneg (by linarith)]
      exact this
  · rw [eg]
    apply FMDRounded.multiple_size
    apply FMDRounded.multiple_round
    have hm := Binary.multiple_of_representable p x hx
    have hl : -2 ≤ Int.log 2 |x| := by
      rw [← Int.zpow_le_iff_le_log (by norm_num) (by rw [abs_of_nonneg h0]; linarith), abs_of_nonneg h0]
      norm_num
      linarith
    obtain ⟨m, hm⟩ := Binary.multiple_down x _ (-1 - p : ℤ) (by omega) hm
    have e1 : (1 : ℚ) = ((2 ^ (p + 1) : ℤ) : ℚ) * 2 ^ (-1 - p : ℤ) := by
      rw [← eg]
      push_cast
      rw [pow_succ]
      field_simp
    rcases hy with rfl | rfl
    · exact ⟨m - 2 ^ (p + 1), by rw [Int.cast_sub, sub_mul, ← hm, ← e1]⟩
    · exact ⟨2 ^ (p + 1) - m, by rw [Int.cast_sub, sub_mul, ← hm, ← e1]⟩

/-- The function is far from an overflow for these arguments. -/
theorem bessel_le (X : ℝ) (hX : |X| ≤ 9.6) : besselI0 X ≤ 2 ^ 20 := by
  have h1 := tail_le_last X 34 (term_halves X 34 (Or.inl ⟨hX, by norm_num⟩))
  have ht : ∀ k, term X k ≤ 22500 := by
    intro k
    have := factor_le X hX k
    unfold term
    rw [← sq_abs]
    calc _ ≤ (150 : ℝ) ^ 2 := by gcongr
      _ = _ := by norm_num
  have h2 : ∑ k ∈ Finset.range (34 + 1), term X k ≤ ∑ k ∈ Finset.range (34 + 1), (22500 : ℝ) := Finset.sum_le_sum fun k _ => ht k
  rw [Finset.sum_const, Finset.card_range] at h2
  have := ht 34
  norm_num at h1 h2 ⊢
  linarith

/-- From the errors of the two values to the error of the quotient. -/
theorem kaiser_quotient (u a X Y x y P Q : ℝ) (hu0 : 0 ≤ u) (hu1 : u ≤ 1 / 65536) (ha : |a| ≤ 3) (hY : Y = Real.pi * a) (k3 : |x ^ 2 - X ^ 2| / 4 ≤ 6.56 * u * Y ^ 2) (k4 : |y ^ 2 - Y ^ 2| / 4 ≤ 1.54 * u * Y ^ 2)
    (i1 : |P - besselI0 x| ≤ 27 * u * besselI0 x) (i2 : |Q - besselI0 y| ≤ 27 * u * besselI0 y) :
    0 < Q ∧ ∀ w, |w - P / Q| ≤ u * |P / Q| → |w - besselI0 X / besselI0 Y| ≤ (60 + 85 * a ^ 2) * u * (besselI0 X / besselI0 Y) := by
  have hY2 : Y ^ 2 ≤ 9.8697 * a ^ 2 := by
    have hp2 : Real.pi ^ 2 ≤ 9.8697 := by nlinarith [Real.pi_gt_three, Real.pi_lt_d4]
    rw [hY, mul_pow]
    gcongr
  have hY3 : Y ^ 2 ≤ 88.83 := by
    have : a ^ 2 ≤ 9 := by
      rw [← sq_abs]; nlinarith [abs_nonneg a]
    linarith
  have hYY := sq_nonneg Y
  have uY2 : 0 ≤ u * Y ^ 2 := by positivity
  have uY3 : u * Y ^ 2 ≤ 0.001356 := by nlinarith
  have n1 := bessel_near x X (6.56 * u * Y ^ 2) k3 (by linarith)
  have n2 := bessel_near y Y (1.54 * u * Y ^ 2) k4 (by linarith)
  have hX1 := one_le_bessel X
  have hY1 := one_le_bessel Y
  have m1 : |P - besselI0 X| ≤ (27.3 * u + 6.63 * (u * Y ^ 2)) * besselI0 X := by
    have hI1 : besselI0 x ≤ 1.01 * besselI0 X := by
      have := (abs_le.mp n1).2
      nlinarith
    calc _ ≤ _ + |besselI0 x - besselI0 X| := abs_sub_le _ _ _
      _ ≤ 27 * u * (1.01 * besselI0 X) + 1.0102 * (6.56 * u * Y ^ 2) * besselI0 X := add_le_add (i1.trans (by gcongr)) n1
      _ = (27.27 * u + 1.0102 * 6.56 * (u * Y ^ 2)) * besselI0 X := by ring
      _ ≤ _ := by
        apply mul_le_mul_of_nonneg_right _ (by linarith)
        linarith
  have m2 : |Q - besselI0 Y| ≤ (27.3 * u + 1.56 * (u * Y ^ 2)) * besselI0 Y := by
    have hI1 : besselI0 y ≤ 1.01 * besselI0 Y := by
      have := (abs_le.mp n2).2
      nlinarith
    calc _ ≤ _ + |besselI0 y - besselI0 Y| := abs_sub_le _ _ _
      _ ≤ 27 * u * (1.01 * besselI0 Y) + 1.0102 * (1.54 * u * Y ^ 2) * besselI0 Y := add_le_add (i2.trans (by gcongr)) n2
      _ = (27.27 * u + 1.0102 * 1.54 * (u * Y ^ 2)) * besselI0 Y := by ring
      _ ≤ _ := by
        apply mul_le_mul_of_nonneg_right _ (by linarith)
        linarith
  obtain ⟨hpos, hquot⟩ := quotient_near P (besselI0 X) Q (besselI0 Y) _ _ (by linarith) (by linarith) m1 m2 (by linarith)
  refine ⟨hpos, fun w hdiv => ?_⟩
  set W := besselI0 X / besselI0 Y with hW
  have hW0 : 0 < W := div_pos (by linarith) (by linarith)
  set D := P / Q with hD
  have c1 : 1.004 * (27.3 * u + 6.63 * (u * Y ^ 2) + (27.3 * u + 1.56 * (u * Y ^ 2))) ≤ 54.82 * u + 8.23 * (u * Y ^ 2) := by linarith
  have hD1 : |D - W| ≤ (54.82 * u + 8.23 * (u * Y ^ 2)) * W := hquot.trans (mul_le_mul_of_nonneg_right c1 hW0.le)
  have hD2 : |D| ≤ 1.02 * W := by
    have := abs_sub_abs_le_abs_sub D W
    rw [abs_of_pos hW0] at this
    nlinarith
  calc _ ≤ _ + |D - W| := abs_sub_le _ _ _
    _ ≤ u * (1.02 * W) + (54.82 * u + 8.23 * (u * Y ^ 2)) * W := add_le_add (hdiv.trans (by gcongr)) hD1
    _ ≤ u * (1.02 * W) + (54.82 * u + 8.23 * (u * (9.8697 * a ^ 2))) * W := by gcongr
    _ = (55.84 + 8.23 * 9.8697 * a ^ 2) * u * W := by ring
    _ ≤ (60 + 85 * a ^ 2) * u * W := by
      have := sq_nonneg a
      gcongr
      · norm_num
      · norm_num

section
variable {F : Format} [NeZero F.p] (D : UnitCircle.Deep F) (A : Ample F)
include D

/-- The square root of a number from zero to one. -/
theorem root_same {h : Ieee F} {h' : Binary F.p} (s : Same h h') (h0 : 0 ≤ h'.val) : Same (Ieee.sqrt h) (Binary.sqrt h') := by
  rcases h0.lt_or_eq with c | c
  · exact (Elementary.DecibelIeee.same_sqrt D.wide s c).1
  · obtain ⟨f, v, e⟩ := s
    have hz : ((Binary.sqrt h').val : ℝ) = 0 := by
      have := NCO.binary_sqrt F.p h' (by show (0 : ℝ) ≤ (h'.val : ℝ); rw [← c]; norm_num)
      simp only [← c, Rat.cast_zero, Real.sqrt_zero, mul_zero, sub_zero] at this
      exact abs_eq_zero.mp (le_antisymm this (abs_nonneg _))
    have hz' : (Binary.sqrt h').val = 0 := by exact_mod_cast hz
    obtain ⟨σ, m, rfl⟩ := (finite_iff h).mp f
    have hm : m = 0 := by
      have : signed σ m = 0 := by rw [c]; exact e
      have := signed_abs σ m
      rw [‹signed σ m = 0›, abs_zero] at this
      exact abs_eq_zero.mp this.symm
    subst hm
    have es : Ieee.sqrt (num σ 0 : Ieee F) = num σ 0 := by simp [Ieee.sqrt]
    rw [es]
    exact ⟨trivial, v, by rw [hz']; exact signed_zero σ⟩

theorem pi_same (l : ℕ) (hl : F.p ≤ l) : Same (piIeee l F) (Rounded.pi l F.p) ∧ 3 ≤ (Rounded.pi l F.p).val ∧ (Rounded.pi l F.p).val ≤ 4 := by
  obtain ⟨lo, hi⟩ := Elementary.AtanIeee.literal_between l F.p D.wide.p hl 3.141592653589793238462643383279502884197169399375105820974944592307 3 4 (by norm_num [abs_of_pos]) (by norm_num [abs_of_pos])
  refine ⟨UnitCircle.same_literal D _ ?_ ?_, lo, hi⟩
  · rw [abs_of_nonneg (by show (0 : ℚ) ≤ (Binary.literal l F.p _).val; linarith)]
    show _ ≤ (Binary.literal l F.p _).val
    linarith [show (1 : ℚ) / 2 ^ 60 ≤ 3 by norm_num]
  · rw [abs_of_nonneg (by show (0 : ℚ) ≤ (Binary.literal l F.p _).val; linarith)]
    show (Binary.literal l F.p _).val ≤ _
    linarith

set_option maxHeartbeats 1000000 in
/-- The radicand is the one without limits of the exponent. -/
theorem radicand_same (hp : F.p ≤ 53) (n N : ℤ) (hN : 2 ≤ N) (hN2 : N ≤ 2 ^ 30) (hn : 0 ≤ n) (hnN : n < N) :
    ∃ (s : Ieee F) (s' : Binary F.p), Rounded.offset2 (constant F 1) n N = .ok s ∧ Rounded.offset2 (Binary.literal 53 F.p 1) n N = .ok s' ∧ Same (constant F 1 - s) (Binary.literal 53 F.p 1 - s') ∧
      ((Binary.literal 53 F.p 1 - s').val = 0 ∨ 1 / 2 ^ F.p / 2 ≤ |(Binary.literal 53 F.p 1 - s').val|) := by
  have hp0 : 0 < F.p := by have := D.wide.p; omega
  norm_num at hN2
  have so := (same_constant D 1 hp (by norm_num) (by norm_num)).1
  obtain ⟨s', es', h1v, hs0, hs1, -⟩ := Rounded.radicand 53 F.p (by have := D.wide.p; omega) hp n N hN (by norm_num; omega) hn hnN
  have i1 := int32_fits (show -2147483648 ≤ N - 1 ∧ N - 1 ≤ 2147483647 by omega)
  have i2 := int32_fits (show -2147483648 ≤ 2 * n ∧ 2 * n ≤ 2147483647 by omega)
  have b2 : (N - 1 == 0) = false := beq_eq_false_iff_ne.mpr (by omega)
  refine ⟨_, s', by simp only [Rounded.offset2, bind, Except.bind, i1, i2, b2, M.ite, pure, Except.pure, Bool.false_eq_true, if_false]; rfl, es', ?_⟩
  simp only [Rounded.offset2, bind, Except.bind, i1, i2, b2, M.ite, pure, Except.pure, Bool.false_eq_true, if_false] at es'
  have sn := UnitCircle.same_int D (2 * n) (by rw [abs_le]; omega)
  have sN := UnitCircle.same_int D (N - 1) (by rw [abs_le]; omega)
  have cn := UnitCircle.round_close D ((2 * n : ℤ) : ℚ)
  have cN := UnitCircle.round_close D ((N - 1 : ℤ) : ℚ)
  have en : (((2 * n : ℤ) : Binary F.p)).val = Binary.round F.p ((2 * n : ℤ) : ℚ) := rfl
  have eN : (((N - 1 : ℤ) : Binary F.p)).val = Binary.round F.p ((N - 1 : ℤ) : ℚ) := rfl
  rw [← en] at cn
  rw [← eN] at cN
  have hn0 : (0 : ℚ) ≤ ((2 * n : ℤ) : ℚ) := by exact_mod_cast (by omega : (0 : ℤ) ≤ 2 * n)
  have hn1 : ((2 * n : ℤ) : ℚ) ≤ 2147483648 := by exact_mod_cast (by omega : 2 * n ≤ 2147483648)
  have hN0 : (1 : ℚ) ≤ ((N - 1 : ℤ) : ℚ) := by exact_mod_cast (by omega : (1 : ℤ) ≤ N - 1)
  have hN1 : ((N - 1 : ℤ) : ℚ) ≤ 1073741824 := by exact_mod_cast (by omega : N - 1 ≤ 1073741824)
  have hnz : 2 * n = 0 ∨ (1 : ℚ) ≤ ((2 * n : ℤ) : ℚ) := by
    rcases eq_or_ne n 0 with rfl | c
    · exact Or.inl rfl
    · exact Or.inr (by exact_mod_cast (by omega : (1 : ℤ) ≤ 2 * n))
  rw [abs_of_nonneg hn0] at cn
  rw [abs_of_nonneg (by linarith : (0 : ℚ) ≤ ((N - 1 : ℤ) : ℚ))] at cN
  obtain ⟨cn1, cn2⟩ := abs_le.mp cn
  obtain ⟨cN1, cN2⟩ := abs_le.mp cN
  have hz : 2 * n = 0 → (((2 * n : ℤ) : Binary F.p)).val = 0 := by
    intro c
    rw [en, c, Int.cast_zero]
    simp [Binary.round, Binary.nearest]
  generalize hni : (((2 * n : ℤ) : Ieee F)) = ni at *
  generalize hnb : (((2 * n : ℤ) : Binary F.p)) = nb at *
  generalize hNi : (((N - 1 : ℤ) : Ieee F)) = Ni at *
  generalize hNb : (((N - 1 : ℤ) : Binary F.p)) = Nb at *
  generalize hoi : constant F 1 = oi at *
  generalize hob : Binary.literal 53 F.p 1 = ob at *
  have hNb0 : 0 < Nb.val := by linarith
  have hq0 : 0 ≤ nb.val / Nb.val := div_nonneg (by linarith) hNb0.le
  have hq1 : nb.val / Nb.val ≤ 2 ^ 33 := by
    rw [div_le_iff₀ hNb0]
    norm_num
    linarith
  have sq := UnitCircle.same_div D sn sN hNb0.ne' (by
    rcases hnz with c | c
    · exact Or.inl (by rw [hz c, zero_div])
    · right
      rw [abs_of_nonneg hq0, le_div_iff₀ hNb0]
      norm_num
      linarith) (by
    rw [abs_of_nonneg hq0]
    exact hq1.trans (by norm_num))
  have hρ : (nb / Nb).val = Binary.round F.p (nb.val / Nb.val) := rfl
  have hρ0 : 0 ≤ (nb / Nb).val := by
    rw [hρ]
    exact Binary.le_round F.p hp0 _ _ ⟨0, 0, by positivity, by simp⟩ hq0
  have hρ1 := UnitCircle.round_close D (nb.val / Nb.val)
  rw [← hρ, abs_of_nonneg hq0] at hρ1
  have hρ2 := (abs_le.mp hρ1).2
  have sr := same_sub D sq so (by
    rw [h1v, abs_le]
    constructor <;> norm_num at hq1 ⊢ <;> linarith)
  have hr := one_grid F.p hp0 (nb / Nb).val ((nb / Nb).val - 1) (nb / Nb).representable hρ0 (Or.inl rfl)
  have er : (nb / Nb - ob).val = Binary.round F.p ((nb / Nb).val - 1) := by
    show Binary.round F.p ((nb / Nb).val - ob.val) = _
    rw [h1v]
  rw [← er] at hr
  generalize hrb : nb / Nb - ob = rb at *
  generalize hri : ni / Ni - oi = ri at *
  have es : rb * rb = s' := by injection es'
  have cs := UnitCircle.round_close D (rb.val * rb.val)
  have ev : s'.val = Binary.round F.p (rb.val * rb.val) := by rw [← es]; rfl
  have eh : (ob - s').val = Binary.round F.p (1 - s'.val) := by
    show Binary.round F.p (ob.val - s'.val) = _
    rw [h1v]
  have ch := UnitCircle.round_close D (1 - s'.val)
  rw [← eh] at ch
  have hs'0 : 0 ≤ s'.val := by
    rw [ev]
    exact Binary.le_round F.p hp0 _ _ ⟨0, 0, by positivity, by simp⟩ (mul_self_nonneg _)
  have hs'1 : |1 - s'.val| ≤ 2 := by
    have := abs_sub_abs_le_abs_sub (1 - s'.val) (ob - s').val
    rw [abs_sub_comm (1 - s'.val), abs_of_nonneg hs0] at this
    linarith
  rw [← ev] at cs
  have hrr : rb.val * rb.val ≤ 4 := by
    rw [abs_of_nonneg (mul_self_nonneg rb.val)] at cs
    have h1 := (abs_le.mp cs).1
    have h2 := (abs_le.mp hs'1).1
    linarith
  have ss : Same (ri * ri) (rb * rb) := Elementary.DecibelIeee.same_mul D.wide sr sr (by
    rw [abs_of_nonneg (mul_self_nonneg _)]
    exact hrr.trans (by norm_num)) (by
    rcases hr with c | c
    · exact Or.inl (by rw [c, mul_zero])
    · right
      have hu : (0 : ℚ) ≤ 1 / 2 ^ F.p := by positivity
      have hu1 : (1 : ℚ) / 2 ^ F.p ≤ 1 := by
        rw [div_le_one (by positivity)]
        exact one_le_pow₀ (by norm_num)
      rw [abs_mul]
      calc (1 / 2 ^ F.p : ℚ) ^ 3 / 128 ≤ (1 / 2 ^ F.p / 2) * (1 / 2 ^ F.p / 2) := by
            nlinarith [mul_nonneg hu hu]
        _ ≤ _ := by gcongr)
  rw [es] at ss
  refine ⟨same_sub D so ss (by
    rw [h1v]
    exact hs'1.trans (by norm_num)), ?_⟩
  rw [eh]
  exact one_grid F.p hp0 s'.val (1 - s'.val) s'.representable hs'0 (Or.inr rfl)

include A in
set_option maxHeartbeats 2000000 in
/-- **C143** The Kaiser window, for every length from two to `2^30` and every finite parameter up to three that is zero or at least `2^-40`: the weights are finite and positive, and their relative error is
at most `60 + 85 a²` units, the bound of C83 without limits of the exponent. -/
theorem C143_kaiser (l : ℕ) (hp : F.p ≤ 53) (hl : F.p ≤ l) (a : Ieee F) (fa : a.Finite ∧ a.Valid) (ha : |(a.val : ℝ)| ≤ 3) (ha' : a.val = 0 ∨ 1 / 2 ^ 40 ≤ |a.val|) (n N : ℤ) (hN : 2 ≤ N) (hN2 : N ≤ 2 ^ 30) (hn : 0 ≤ n) (hnN : n < N) :
    ∃ w, kaiserIeee l F a n N = .ok w ∧ w.Finite ∧ w.Valid ∧ 0 < w.val ∧
      |(w.val : ℝ) - besselI0 (Real.pi * a.val * √(1 - (2 * (n : ℝ) / (N - 1) - 1) ^ 2)) / besselI0 (Real.pi * a.val)| ≤
        (60 + 85 * (a.val : ℝ) ^ 2) / 2 ^ F.p * (besselI0 (Real.pi * a.val * √(1 - (2 * (n : ℝ) / (N - 1) - 1) ^ 2)) / besselI0 (Real.pi * a.val)) := by
  have hp20 := D.wide.p
  obtain ⟨s, s', es, es', sh, hgrid⟩ := radicand_same D hp n N hN hN2 hn hnN
  obtain ⟨s'', es'', h1v, hs0, hs1, herr⟩ := Rounded.radicand 53 F.p (by omega) hp n N hN hN2 hn hnN
  have e1 : s'' = s' := by rw [es'] at es''; injection es'' with e; exact e.symm
  subst e1
  have so := (same_constant D 1 hp (by norm_num) (by norm_num)).1
  have so1 : (constant F 1).val = 1 := by rw [so.2.2, h1v]
  obtain ⟨sπ, lo, hi⟩ := pi_same D l hl
  have sa : Same a (lift a fa.2) := ⟨fa.1, fa.2, rfl⟩
  have haq : |a.val| ≤ 3 := by exact_mod_cast ha
  have hR := binary_roundedField F.p
  obtain ⟨u, hu⟩ : ∃ u : ℝ, u = 1 / 2 ^ F.p := ⟨_, rfl⟩
  have hu0 : 0 ≤ u := by rw [hu]; positivity
  have hu6 : u ≤ 1 / 10 ^ 6 := by rw [hu]; exact A.unit
  have hu1 : u ≤ 1 / 65536 := hu6.trans (by norm_num)
  have hpi := Rounded.pi_near l F.p hp hl
  have hsq := NCO.binary_sqrt F.p (Binary.literal 53 F.p 1 - s'') (by show (0 : ℝ) ≤ ((Binary.literal 53 F.p 1 - s'').val : ℝ); exact_mod_cast hs0)
  have sq := root_same D sh hs0
  refine ⟨Rounded.i0 (constant F 1) (piIeee l F * a * Ieee.sqrt (constant F 1 - s)) / Rounded.i0 (constant F 1) (piIeee l F * a), by
    simp only [kaiserIeee, Rounded.kaiser, es, bind, Except.bind, pure, Except.pure], ?_⟩
  generalize Binary.literal 53 F.p 1 - s'' = h' at *
  generalize constant F 1 - s = hi' at *
  generalize Rounded.pi l F.p = P at *
  generalize piIeee l F = Pi at *
  generalize constant F 1 = one at *
  rw [← hu] at hR hsq hpi herr
  -- the arguments
  have sy : Same (Pi * a) (P * lift a fa.2) := UnitCircle.same_mul D sπ sa (by
    show P.val * a.val = 0 ∨ _ ≤ |P.val * a.val|
    rcases ha' with c | c
    · exact Or.inl (by rw [c, mul_zero])
    · right
      rw [abs_mul, abs_of_nonneg (by linarith)]
      calc (1 / 2 ^ 98 : ℚ) ≤ 3 * (1 / 2 ^ 40) := by norm_num
        _ ≤ _ := by gcongr) (by
    show |P.val * a.val| ≤ _
    rw [abs_mul, abs_of_nonneg (by linarith)]
    calc _ ≤ (4 : ℚ) * 3 := by gcongr
      _ ≤ _ := by norm_num)
  have hy : |(P * lift a fa.2).val - P.val * a.val| ≤ 1 / 1000000 * |P.val * a.val| := UnitCircle.round_close D (P.val * a.val)
  have hy1 : |(P * lift a fa.2).val| ≤ 13 := by
    have h1 := abs_sub_abs_le_abs_sub (P * lift a fa.2).val (P.val * a.val)
    have h2 : |P.val * a.val| ≤ 4 * 3 := by
      rw [abs_mul, abs_of_nonneg (by linarith)]
      gcongr
    linarith
  have hy2 : (P * lift a fa.2).val = 0 ∨ 2 / 2 ^ 40 ≤ |(P * lift a fa.2).val| := by
    rcases ha' with c | c
    · left
      rw [c, mul_zero, sub_zero, abs_zero, mul_zero] at hy
      exact abs_eq_zero.mp (le_antisymm hy (abs_nonneg _))
    · right
      have h1 := abs_sub_abs_le_abs_sub (P.val * a.val) (P * lift a fa.2).val
      rw [abs_sub_comm (P.val * a.val)] at h1
      have h2 : 3 * (1 / 2 ^ 40) ≤ |P.val * a.val| := by
        rw [abs_mul, abs_of_nonneg (by linarith)]
        gcongr
      norm_num [-abs_mul] at h2 ⊢
      linarith
  have hh0 : (0 : ℝ) ≤ (h'.val : ℝ) := by exact_mod_cast hs0
  have hh1 : (h'.val : ℝ) ≤ 1 := by exact_mod_cast hs1
  have hsq' : |((Binary.sqrt h').val : ℝ) - √(h'.val : ℝ)| ≤ u * √(h'.val : ℝ) := hsq
  have hsr1 : √(h'.val : ℝ) ≤ 1 := Real.sqrt_le_one.mpr hh1
  have hsr0 := Real.sqrt_nonneg (h'.val : ℝ)
  have hq1 : |(Binary.sqrt h').val| ≤ 2 := by
    have h1 := abs_sub_abs_le_abs_sub ((Binary.sqrt h').val : ℝ) √(h'.val : ℝ)
    rw [abs_of_nonneg hsr0] at h1
    have : |((Binary.sqrt h').val : ℝ)| ≤ 2 := by nlinarith
    exact_mod_cast this
  have hq2 : (Binary.sqrt h').val = 0 ∨ 1 / 2 ^ 55 ≤ |(Binary.sqrt h').val| := by
    rcases hgrid with c | c
    · left
      rw [c, Rat.cast_zero, Real.sqrt_zero, mul_zero, sub_zero] at hsq'
      have : ((Binary.sqrt h').val : ℝ) = 0 := abs_eq_zero.mp (le_antisymm hsq' (abs_nonneg _))
      exact_mod_cast this
    · right
      have hg : (1 / 2 ^ 54 : ℚ) ≤ h'.val := by
        rw [abs_of_nonneg hs0] at c
        refine le_trans ?_ c
        rw [div_div, ← pow_succ]
        exact one_div_le_one_div_of_le (by positivity) (pow_le_pow_right₀ (by norm_num) (by omega))
      have hg' : ((1 / 2 ^ 54 : ℚ) : ℝ) ≤ (h'.val : ℝ) := by exact_mod_cast hg
      have hroot : (h'.val : ℝ) ≤ √(h'.val : ℝ) := Real.le_sqrt_of_sq_le (by nlinarith)
      have h1 := (abs_le.mp hsq').1
      have h2 : ((1 / 2 ^ 55 : ℚ) : ℝ) ≤ ((Binary.sqrt h').val : ℝ) := by
        push_cast at hg' ⊢
        norm_num at hg' ⊢
        nlinarith
      have h3 : (1 / 2 ^ 55 : ℚ) ≤ (Binary.sqrt h').val := by exact_mod_cast h2
      exact h3.trans (le_abs_self _)
  have sx : Same (Pi * a * Ieee.sqrt hi') (P * lift a fa.2 * Binary.sqrt h') := UnitCircle.same_mul D sy sq (by
    rcases hy2 with c | c
    · exact Or.inl (by rw [c, zero_mul])
    · rcases hq2 with d | d
      · exact Or.inl (by rw [d, mul_zero])
      · right
        rw [abs_mul]
        calc (1 / 2 ^ 98 : ℚ) ≤ 2 / 2 ^ 40 * (1 / 2 ^ 55) := by norm_num
          _ ≤ _ := by gcongr) (by
    rw [abs_mul]
    calc _ ≤ (13 : ℚ) * 2 := by gcongr
      _ ≤ _ := by norm_num)
  -- the numbers
  have hNr : (1 : ℝ) ≤ (N : ℝ) - 1 := by
    have : (2 : ℝ) ≤ N := by exact_mod_cast hN
    linarith
  have hn0r : (0 : ℝ) ≤ n := by exact_mod_cast hn
  have hnr : (n : ℝ) ≤ N - 1 := by
    have : (n : ℝ) + 1 ≤ N := by exact_mod_cast hnN
    linarith
  set h : ℝ := 1 - (2 * (n : ℝ) / (N - 1) - 1) ^ 2 with hh
  have hq0 : 0 ≤ 2 * (n : ℝ) / (N - 1) := by positivity
  have hq2' : 2 * (n : ℝ) / (N - 1) ≤ 2 := by rw [div_le_iff₀ (by linarith)]; linarith
  have hhn : 0 ≤ h := by rw [hh]; nlinarith
  obtain ⟨X, hX⟩ : ∃ X : ℝ, X = Real.pi * a.val * √h := ⟨_, rfl⟩
  obtain ⟨Y, hY⟩ : ∃ Y : ℝ, Y = Real.pi * a.val := ⟨_, rfl⟩
  rw [← hX, ← hY]
  obtain ⟨k1, k2, k3, k4⟩ := kaiser_numbers u Y h (h'.val : ℝ) ((Binary.sqrt h').val : ℝ) ((P * lift a fa.2).val : ℝ) ((P * lift a fa.2 * Binary.sqrt h').val : ℝ)
    (P.val : ℝ) (a.val : ℝ) hu0 hu1 ha hY hhn hh0 hh1 herr hsq' hpi (hR.mul P (lift a fa.2)) (hR.mul _ _)
  have oneg : one.Finite ∧ one.Valid := ⟨so.1, so.2.1⟩
  obtain ⟨f1, v1, i1⟩ := C143_i0 A (Pi * a * Ieee.sqrt hi') ⟨sx.1, sx.2.1⟩ (by rw [sx.2.2]; exact k1) one oneg so1
  obtain ⟨f2, v2, i2⟩ := C143_i0 A (Pi * a) ⟨sy.1, sy.2.1⟩ (by rw [sy.2.2]; exact k2) one oneg so1
  rw [sx.2.2] at i1
  rw [sy.2.2] at i2
  generalize Rounded.i0 one (Pi * a * Ieee.sqrt hi') = p1 at *
  generalize Rounded.i0 one (Pi * a) = p2 at *
  have eu : 27 / 2 ^ F.p = 27 * u := by rw [hu]; ring
  rw [eu] at i1 i2
  obtain ⟨hpos, hfin⟩ := kaiser_quotient u a.val X Y _ _ (p1.val : ℝ) (p2.val : ℝ) hu0 hu1 ha hY (by rw [hX, ← hY]; exact k3) k4 i1 i2
  -- the quotient
  have g1 := one_le_bessel ((P * lift a fa.2 * Binary.sqrt h').val : ℝ)
  have g2 := bessel_le _ k1
  have g3 := bessel_le _ k2
  have r1 : (1 / 2 : ℝ) ≤ p1.val := by
    have := (abs_le.mp i1).1
    nlinarith
  have r2 : (p1.val : ℝ) ≤ 2 ^ 21 := by
    have := (abs_le.mp i1).2
    norm_num at g2 ⊢
    nlinarith
  have r3 : (p2.val : ℝ) ≤ 2 ^ 21 := by
    have := (abs_le.mp i2).2
    have := one_le_bessel ((P * lift a fa.2).val : ℝ)
    norm_num at g3 ⊢
    nlinarith
  have r4 : (1 / 2 : ℝ) ≤ p2.val := by
    have := (abs_le.mp i2).1
    have := one_le_bessel ((P * lift a fa.2).val : ℝ)
    nlinarith
  have q1 : (1 / 2 : ℚ) ≤ p1.val := by
    have : ((1 / 2 : ℚ) : ℝ) ≤ (p1.val : ℝ) := by push_cast; exact r1
    exact_mod_cast this
  have q2 : p1.val ≤ 2 ^ 21 := by exact_mod_cast r2
  have q3 : p2.val ≤ 2 ^ 21 := by exact_mod_cast r3
  have q4 : (1 / 2 : ℚ) ≤ p2.val := by
    have : ((1 / 2 : ℚ) : ℝ) ≤ (p2.val : ℝ) := by push_cast; exact r4
    exact_mod_cast this
  have hp2 : 0 < p2.val := by linarith
  have lower : 1 / 2 ^ 22 ≤ p1.val / p2.val := by
    rw [le_div_iff₀ hp2]
    norm_num at q3 ⊢
    linarith
  have sw : Same (p1 / p2) (lift p1 v1 / lift p2 v2) := UnitCircle.same_div D ⟨f1, v1, rfl⟩ ⟨f2, v2, rfl⟩ hp2.ne' (by
    right
    show _ ≤ |p1.val / p2.val|
    exact le_trans (by norm_num) (lower.trans (le_abs_self _))) (by
    show |p1.val / p2.val| ≤ _
    rw [abs_of_nonneg (by positivity), div_le_iff₀ hp2]
    norm_num at q2 ⊢
    linarith)
  have hdiv := hR.div (lift p1 v1) (lift p2 v2) hpos.ne'
  refine ⟨sw.1, sw.2.1, ?_, ?_⟩
  · rw [sw.2.2]
    have hc := UnitCircle.round_close D (p1.val / p2.val)
    have ev : (lift p1 v1 / lift p2 v2).val = Binary.round F.p (p1.val / p2.val) := rfl
    have h0 : 0 < p1.val / p2.val := lt_of_lt_of_le (by positivity) lower
    rw [← ev, abs_of_pos h0] at hc
    linarith [(abs_le.mp hc).1]
  · rw [sw.2.2]
    have := hfin _ hdiv
    rw [hu] at this
    calc _ ≤ _ := this
      _ = _ := by ring

/-! ### Examples -/

omit [NeZero F.p] D in
/-- The middle of a window of five samples with the parameter two, in single precision. -/
example : ∃ w, kaiserIeee 64 Format.single ((2 : ℤ) : Ieee Format.single) 2 5 = .ok w ∧ w.Finite ∧ |(w.val : ℝ) - 1| ≤ 400 / 2 ^ 24 := by
  obtain ⟨f, v, e⟩ := cast_exact (F := Format.single) (by decide) (by decide) (by decide) 2 (by decide)
  obtain ⟨w, h1, h2, -, -, h3⟩ := C143_kaiser UnitCircle.deep_single ample_single 64 (by decide) (by decide) ((2 : ℤ) : Ieee Format.single) ⟨f, v⟩ (by rw [e]; norm_num) (Or.inr (by rw [e]; norm_num)) 2 5 (by norm_num) (by norm_num)
    (by norm_num) (by norm_num)
  refine ⟨w, h1, h2, ?_⟩
  rw [e] at h3
  have er : √(1 - (2 * ((2 : ℤ) : ℝ) / (((5 : ℤ) : ℝ) - 1) - 1) ^ 2) = 1 := by norm_num
  have hb := one_le_bessel (Real.pi * (((2 : ℤ) : ℚ) : ℝ))
  rw [er, mul_one, div_self (by linarith), mul_one] at h3
  refine h3.trans_eq ?_
  show (60 + 85 * (((2 : ℤ) : ℚ) : ℝ) ^ 2) / 2 ^ 24 = _
  norm_num

omit [NeZero F.p] D in
/-- The Bessel function of nine in double precision. -/
example : (Rounded.i0 (1 : Ieee Format.double) ((9 : ℤ) : Ieee Format.double)).Finite := by
  have : NeZero Format.double.p := ⟨by decide⟩
  have o := FMDRounded.good_one Silence.usual_double
  obtain ⟨f, v, e⟩ := cast_exact (F := Format.double) (by decide) (by decide) (by decide) 9 (by decide)
  exact (C143_i0 ample_double _ ⟨f, v⟩ (by rw [e]; norm_num [abs_of_pos]) _ o.1 (by exact_mod_cast o.2)).1

end

end Win
end DSP
