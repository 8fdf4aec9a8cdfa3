import Verif.Props.Cordic
import Verif.Lemmas.CordicTable

/-!
# C41: the CORDIC arcus tangent with 8 bits
-/

namespace DSP.Cordic
open Complex

/-- A step of the loop on natural numbers. -/
def entry (i : ℕ) : ℕ × ℕ × ℕ := (2 ^ i, 2 ^ (20 - i), ((lut 1).getD i 0).toNat)

theorem lut_pos : ∀ i ∈ List.range 8, 0 ≤ (lut 1).getD i 0 ∧ (lut 1).getD i 0 ≤ 64 := by decide +kernel

theorem go_spec (n i : ℕ) (hn : i + n ≤ 8) (s : State) (a R I : ℕ) (ha : (a : ℤ) = s.angle + 1024) (hR : (R : ℤ) = s.real + 2 ^ 20) (hI : (I : ℤ) = s.imag + 2 ^ 20)
    (ba : |s.angle| ≤ 64 * i) (bR : |s.real| ≤ 256 * 2 ^ i) (bI : |s.imag| ≤ 256 * 2 ^ i) :
    (go ((List.range' i n).map entry) a R I : ℤ) = ((List.range' i n).foldl (next (lut 1)) s).angle + 1024 := by
  induction n generalizing i s a R I with
  | zero => simpa [go] using ha
  | succ n ih =>
    obtain ⟨l0, l1⟩ := lut_pos i (List.mem_range.mpr (by omega))
    have lc : ((((lut 1).getD i 0).toNat : ℕ) : ℤ) = (lut 1).getD i 0 := Int.toNat_of_nonneg l0
    rw [List.range'_succ, List.map_cons, List.foldl_cons, entry]
    obtain ⟨p, hp⟩ : ∃ p : ℤ, p = 2 ^ i := ⟨_, rfl⟩
    obtain ⟨b, hb⟩ : ∃ b : ℕ, b = 2 ^ (20 - i) := ⟨_, rfl⟩
    have p1 : 1 ≤ p := by rw [hp]; exact one_le_pow₀ (by norm_num)
    have p8 : p ≤ 128 := by
      rw [hp]
      calc (2 : ℤ) ^ i ≤ 2 ^ 7 := pow_le_pow_right₀ (by norm_num) (by omega)
        _ = 128 := by norm_num
    have pq : (2 : ℤ) ^ 20 = b * p := by rw [hp, hb, Nat.cast_pow, Nat.cast_ofNat, ← pow_add, show 20 - i + i = 20 by omega]
    have sh : ∀ (N : ℕ) (z : ℤ), (N : ℤ) = z + 2 ^ 20 → ((N / 2 ^ i : ℕ) : ℤ) = z / p + b := fun N z h => by
      push_cast
      rw [h, ← hp, pq, Int.add_mul_ediv_right _ _ (by omega)]
    have fl : ∀ z : ℤ, |z| ≤ 256 * p → |z / p| ≤ 256 * p := fun z hz => by
      have := abs_le.mp hz
      rw [abs_le]
      constructor
      · rw [Int.le_ediv_iff_mul_le (by omega)]
        nlinarith
      · exact Int.ediv_le_of_le_mul (by omega) (by nlinarith)
    have sR := sh R s.real hR
    have sI := sh I s.imag hI
    rw [← hp] at bR bI
    have fR := abs_le.mp (fl _ bR)
    have fI := abs_le.mp (fl _ bI)
    have bR' := abs_le.mp bR
    have bI' := abs_le.mp bI
    have ba' := abs_le.mp ba
    have i8 : (i : ℤ) ≤ 7 := by omega
    have pn : 256 * 2 ^ (i + 1) = 256 * p + 256 * p := by rw [pow_succ, hp]; ring
    rw [← hb]
    by_cases c : s.imag < 0
    · have nb : Nat.ble 1048576 I = false := by
        rw [← Bool.not_eq_true, Nat.ble_eq]
        omega
      have nx : next (lut 1) s i = ⟨s.angle - (lut 1).getD i 0, s.real - s.imag / p, s.imag + s.real / p⟩ := by rw [next, if_pos c, hp]
      rw [nx, go, nb]
      simp only
      refine ih (i + 1) (by omega) _ _ _ _ ?_ ?_ ?_ ?_ ?_ ?_
      · show ((a - ((lut 1).getD i 0).toNat : ℕ) : ℤ) = s.angle - (lut 1).getD i 0 + 1024
        omega
      · show ((R + b - I / 2 ^ i : ℕ) : ℤ) = s.real - s.imag / p + 2 ^ 20
        generalize I / 2 ^ i = d at *
        generalize s.imag / p = q at *
        omega
      · show ((I + R / 2 ^ i - b : ℕ) : ℤ) = s.imag + s.real / p + 2 ^ 20
        generalize R / 2 ^ i = d at *
        generalize s.real / p = q at *
        omega
      · show |s.angle - (lut 1).getD i 0| ≤ _
        rw [abs_le]
        push_cast
        constructor <;> omega
      · show |s.real - s.imag / p| ≤ _
        rw [pn, abs_le]
        constructor <;> linarith
      · show |s.imag + s.real / p| ≤ _
        rw [pn, abs_le]
        constructor <;> linarith
    · have nb : Nat.ble 1048576 I = true := by
        rw [Nat.ble_eq]
        omega
      have nx : next (lut 1) s i = ⟨s.angle + (lut 1).getD i 0, s.real + s.imag / p, s.imag - s.real / p⟩ := by rw [next, if_neg c, hp]
      rw [nx, go, nb]
      simp only
      refine ih (i + 1) (by omega) _ _ _ _ ?_ ?_ ?_ ?_ ?_ ?_
      · show ((a + ((lut 1).getD i 0).toNat : ℕ) : ℤ) = s.angle + (lut 1).getD i 0 + 1024
        omega
      · show ((R + I / 2 ^ i - b : ℕ) : ℤ) = s.real + s.imag / p + 2 ^ 20
        generalize I / 2 ^ i = d at *
        generalize s.imag / p = q at *
        omega
      · show ((I + b - R / 2 ^ i : ℕ) : ℤ) = s.imag - s.real / p + 2 ^ 20
        generalize R / 2 ^ i = d at *
        generalize s.real / p = q at *
        omega
      · show |s.angle + (lut 1).getD i 0| ≤ _
        rw [abs_le]
        push_cast
        constructor <;> omega
      · show |s.real + s.imag / p| ≤ _
        rw [pn, abs_le]
        constructor <;> linarith
      · show |s.imag - s.real / p| ≤ _
        rw [pn, abs_le]
        constructor <;> linarith

theorem entries : (List.range' 0 8).map entry = [(1, 1048576, 64), (2, 524288, 38), (4, 262144, 20), (8, 131072, 10), (16, 65536, 5), (32, 32768, 3), (64, 16384, 1), (128, 8192, 1)] := by
  decide +kernel

theorem found_spec (y x : ℤ) (hy : InType 1 y) (hx : InType 1 x) : (found (y + 128).toNat x.natAbs : ℤ) = loopAngle 1 y x + 1024 := by
  unfold InType at hy hx
  norm_num at hy hx
  have := go_spec 8 0 (by norm_num) ⟨0, if x < 0 then -(x * 2) else x * 2, y * 2⟩ 1024 (1048576 + x.natAbs * 2) (1048576 + (y + 128).toNat * 2 - 256) (by simp)
    (by simp only; split <;> omega) (by simp only; omega) (by simp) (by simp only [pow_zero]; rw [abs_le]; split <;> constructor <;> omega)
    (by simp only [pow_zero]; rw [abs_le]; constructor <;> omega)
  rw [entries, ← List.range_eq_range'] at this
  exact this

/-- An entry of the table as a complex number. -/
noncomputable def dot (a : ℕ) : ℂ := ⟨(((point a).1 : ℤ) - 2 ^ 30 : ℤ) / 2 ^ 30, (((point a).2 : ℤ) - 2 ^ 30 : ℤ) / 2 ^ 30⟩

theorem chain : ∀ a ∈ List.range 255,
    |(((point (a + 1)).1 : ℤ) - 2 ^ 30) * 2 ^ 30 - ((((point a).1 : ℤ) - 2 ^ 30) * 1073418433 - (((point a).2 : ℤ) - 2 ^ 30) * 26350943)| ≤ 2 ^ 30 * 2 ∧
    |(((point (a + 1)).2 : ℤ) - 2 ^ 30) * 2 ^ 30 - ((((point a).2 : ℤ) - 2 ^ 30) * 1073418433 + (((point a).1 : ℤ) - 2 ^ 30) * 26350943)| ≤ 2 ^ 30 * 2 := by
  decide +kernel

theorem turn_close : ‖(⟨1073418433 / 2 ^ 30, 26350943 / 2 ^ 30⟩ : ℂ) - exp ((Real.pi / 128 : ℝ) * I)‖ ≤ 1.8 / 10 ^ 8 := by
  have p1 := Real.pi_gt_d20
  have p2 := Real.pi_lt_d20
  have x0 : 0 < Real.pi / 128 := by positivity
  have x1 : |Real.pi / 128| ≤ 1 := by rw [abs_of_pos x0]; linarith
  have c := abs_le.mp (Real.cos_bound x1)
  have s := abs_le.mp (Real.sin_bound x1)
  rw [abs_of_pos x0] at c s
  set x := Real.pi / 128 with hx
  have b1 : 0.0245436926061702596 ≤ x := by rw [hx]; linarith
  have b2 : x ≤ 0.0245436926061702597 := by rw [hx]; linarith
  have q1 : 0.000602392846745 ≤ x ^ 2 := by nlinarith
  have q2 : x ^ 2 ≤ 0.000602392846747 := by nlinarith
  have e3 : x ^ 3 = x * x ^ 2 := by ring
  have e4 : x ^ 4 = x ^ 2 * x ^ 2 := by ring
  have q5 : x ^ 5 ≤ 0.00000001 := by rw [show x ^ 5 = x * (x ^ 2 * x ^ 2) by ring]; nlinarith
  have q3 : 0.000014784944 ≤ x ^ 3 := by rw [e3]; nlinarith
  have q3' : x ^ 3 ≤ 0.000014784945 := by rw [e3]; nlinarith
  have q4 : x ^ 4 ≤ 0.00000036287715 := by rw [e4]; nlinarith
  have n : ‖(⟨1073418433 / 2 ^ 30, 26350943 / 2 ^ 30⟩ : ℂ) - exp ((x : ℝ) * I)‖ ≤ |1073418433 / 2 ^ 30 - Real.cos x| + |26350943 / 2 ^ 30 - Real.sin x| := by
    have := Complex.norm_le_abs_re_add_abs_im ((⟨1073418433 / 2 ^ 30, 26350943 / 2 ^ 30⟩ : ℂ) - exp ((x : ℝ) * I))
    simp only [sub_re, sub_im, exp_ofReal_mul_I_re, exp_ofReal_mul_I_im] at this
    exact this
  refine n.trans ?_
  have r1 : |1073418433 / 2 ^ 30 - Real.cos x| ≤ 1.6 / 10 ^ 8 := by rw [abs_le]; constructor <;> linarith [c.1, c.2, Real.one_sub_sq_div_two_le_cos (x := x)]
  have r2 : |26350943 / 2 ^ 30 - Real.sin x| ≤ 0.2 / 10 ^ 8 := by rw [abs_le]; constructor <;> linarith [s.1, s.2]
  linarith

theorem dot_close (a : ℕ) (ha : a < 256) : ‖dot a - exp ((a * (Real.pi / 128) : ℝ) * I)‖ ≤ a * (2.5 / 10 ^ 8) := by
  induction a with
  | zero =>
    have : point 0 = (2147483648, 1073741824) := by decide +kernel
    rw [dot, this]
    have e : (⟨((2147483648 : ℕ) - 2 ^ 30 : ℤ) / 2 ^ 30, ((1073741824 : ℕ) - 2 ^ 30 : ℤ) / 2 ^ 30⟩ : ℂ) = 1 := Complex.ext (by norm_num) (by norm_num)
    rw [show (((0 : ℕ) : ℝ) * (Real.pi / 128) : ℝ) = 0 by norm_num, ofReal_zero, zero_mul, Complex.exp_zero]
    simp only at e ⊢
    rw [e]
    simp
  | succ a ih =>
    have ih := ih (by omega)
    obtain ⟨c1, c2⟩ := chain a (List.mem_range.mpr (by omega))
    have tc := turn_close
    have ac : (a : ℝ) ≤ 254 := by exact_mod_cast (show a ≤ 254 by omega)
    have ex : exp (((a + 1 : ℕ) * (Real.pi / 128) : ℝ) * I) = exp ((a * (Real.pi / 128) : ℝ) * I) * exp ((Real.pi / 128 : ℝ) * I) := by
      rw [← Complex.exp_add]
      congr 1
      push_cast
      ring
    rw [ex]
    set E := exp ((a * (Real.pi / 128) : ℝ) * I) with hE
    set w := exp ((Real.pi / 128 : ℝ) * I) with hw
    set W : ℂ := ⟨1073418433 / 2 ^ 30, 26350943 / 2 ^ 30⟩ with hW
    have nE : ‖E‖ = 1 := norm_exp_ofReal_mul_I _
    have nw : ‖w‖ = 1 := norm_exp_ofReal_mul_I _
    have nd : ‖dot a‖ ≤ 1.0001 := by
      have := norm_sub_norm_le (dot a) E
      linarith
    have r : ‖dot (a + 1) - dot a * W‖ ≤ 0.4 / 10 ^ 8 := by
      refine (Complex.norm_le_abs_re_add_abs_im _).trans ?_
      have d1 : |((((((point (a + 1)).1 : ℤ) - 2 ^ 30) * 2 ^ 30 - ((((point a).1 : ℤ) - 2 ^ 30) * 1073418433 - (((point a).2 : ℤ) - 2 ^ 30) * 26350943) : ℤ)) : ℝ)| ≤ 2 ^ 30 * 2 := by exact_mod_cast c1
      have d2 : |((((((point (a + 1)).2 : ℤ) - 2 ^ 30) * 2 ^ 30 - ((((point a).2 : ℤ) - 2 ^ 30) * 1073418433 + (((point a).1 : ℤ) - 2 ^ 30) * 26350943) : ℤ)) : ℝ)| ≤ 2 ^ 30 * 2 := by exact_mod_cast c2
      have e1 : (dot (a + 1) - dot a * W).re = (((((point (a + 1)).1 : ℤ) - 2 ^ 30) * 2 ^ 30 - ((((point a).1 : ℤ) - 2 ^ 30) * 1073418433 - (((point a).2 : ℤ) - 2 ^ 30) * 26350943) : ℤ) : ℝ) / 2 ^ 60 := by
        simp only [dot, hW, sub_re, mul_re]
        push_cast
        ring
      have e2 : (dot (a + 1) - dot a * W).im = (((((point (a + 1)).2 : ℤ) - 2 ^ 30) * 2 ^ 30 - ((((point a).2 : ℤ) - 2 ^ 30) * 1073418433 + (((point a).1 : ℤ) - 2 ^ 30) * 26350943) : ℤ) : ℝ) / 2 ^ 60 := by
        simp only [dot, hW, sub_im, mul_im]
        push_cast
        ring
      rw [e1, e2, abs_div, abs_div, abs_of_pos (show (0 : ℝ) < 2 ^ 60 by positivity)]
      have := div_le_div_of_nonneg_right d1 (show (0 : ℝ) ≤ 2 ^ 60 by positivity)
      have := div_le_div_of_nonneg_right d2 (show (0 : ℝ) ≤ 2 ^ 60 by positivity)
      norm_num at *
      linarith
    have e : dot (a + 1) - E * w = (dot (a + 1) - dot a * W) + dot a * (W - w) + (dot a - E) * w := by ring
    rw [e]
    refine (norm_add_le _ _).trans ((add_le_add_left (norm_add_le _ _) _).trans ?_)
    rw [norm_mul, norm_mul, nw, mul_one]
    have := mul_le_mul nd tc (norm_nonneg _) (by norm_num)
    push_cast
    linarith

/-- Cosines compare as angles do. -/
theorem within_of_cos (τ θ φ : ℝ) (h0 : 0 ≤ τ) (h1 : τ ≤ Real.pi) (h : Real.cos τ ≤ Real.cos (φ - θ)) : Spec.AnglesWithin τ θ φ := by
  refine ⟨-round ((φ - θ) / (2 * Real.pi)), ?_⟩
  set k := round ((φ - θ) / (2 * Real.pi)) with hk
  have r := abs_le.mp (abs_sub_round ((φ - θ) / (2 * Real.pi)))
  rw [← hk] at r
  set δ := φ - θ - 2 * Real.pi * k with hδ
  have e : φ - θ + 2 * Real.pi * ((-k : ℤ) : ℝ) = δ := by rw [hδ]; push_cast; ring
  rw [e]
  have c : Real.cos δ = Real.cos (φ - θ) := by
    rw [hδ, show φ - θ - 2 * Real.pi * k = φ - θ - k * (2 * Real.pi) by ring, Real.cos_sub_int_mul_two_pi]
  have dd : δ = ((φ - θ) / (2 * Real.pi) - k) * (2 * Real.pi) := by
    rw [hδ]
    field_simp
  have b : |δ| ≤ Real.pi := by
    rw [abs_le, dd]
    constructor <;> nlinarith [Real.pi_pos, r.1, r.2]
  by_contra n
  push Not at n
  have := Real.cos_lt_cos_of_nonneg_of_le_pi h0 b n
  rw [Real.cos_abs, c] at this
  linarith

/-- The tolerance in steps for a vector of the squared length `r`. -/
noncomputable def tol (r : ℕ) : ℝ := if 4096 ≤ r then 1.25 else if 256 ≤ r then 2.8 else if 16 ≤ r then 7.2 else 14.5

theorem cos_level (t K : ℝ) (h0 : 0 ≤ t) (h1 : t ≤ 14.5) (c : ℝ) (hK : (2 ^ 30 * c) ^ 2 ≤ K)
    (h : 1 - (t * 0.0245436926061702596) ^ 2 / 2 + (t * 0.02454369260617026) ^ 4 * (5 / 96) + 1 / 10 ^ 5 ≤ c) : (2 ^ 30 * (Real.cos (t * (Real.pi / 128)) + 1 / 10 ^ 5)) ^ 2 ≤ K := by
  have p1 := Real.pi_gt_d20
  have p2 := Real.pi_lt_d20
  have l : t * 0.0245436926061702596 ≤ t * (Real.pi / 128) := mul_le_mul_of_nonneg_left (by linarith) h0
  have u : t * (Real.pi / 128) ≤ t * 0.02454369260617026 := mul_le_mul_of_nonneg_left (by linarith) h0
  have x0 : 0 ≤ t * (Real.pi / 128) := by positivity
  have x1 : |t * (Real.pi / 128)| ≤ 1 := by rw [abs_of_nonneg x0]; linarith
  have b := (abs_le.mp (Real.cos_bound x1)).2
  rw [abs_of_nonneg x0] at b
  have l2 := pow_le_pow_left₀ (by positivity) l 2
  have u4 := pow_le_pow_left₀ x0 u 4
  have pos : 0 ≤ Real.cos (t * (Real.pi / 128)) := Real.cos_nonneg_of_mem_Icc ⟨by linarith [Real.pi_pos], by nlinarith [Real.pi_pos]⟩
  refine le_trans (pow_le_pow_left₀ (by positivity) (mul_le_mul_of_nonneg_left ?_ (by positivity)) 2) hK
  linarith

theorem level_spec (r : ℕ) : (2 ^ 30 * (Real.cos (tol r * (Real.pi / 128)) + 1 / 10 ^ 5)) ^ 2 ≤ (level r : ℝ) := by
  have bt : ∀ n : ℕ, n ≤ r → Nat.ble n r = true := fun n h => by rw [Nat.ble_eq]; exact h
  have bf : ∀ n : ℕ, ¬n ≤ r → Nat.ble n r = false := fun n h => by rw [← Bool.not_eq_true, Nat.ble_eq]; exact h
  unfold tol level
  by_cases c1 : 4096 ≤ r
  · rw [if_pos c1, bt _ c1]
    exact cos_level _ _ (by norm_num) (by norm_num) 0.9995424 (by norm_num) (by norm_num)
  · rw [if_neg c1, bf _ c1]
    by_cases c2 : 256 ≤ r
    · rw [if_pos c2, bt _ c2]
      exact cos_level _ _ (by norm_num) (by norm_num) 0.9976527 (by norm_num) (by norm_num)
    · rw [if_neg c2, bf _ c2]
      by_cases c3 : 16 ≤ r
      · rw [if_pos c3, bt _ c3]
        exact cos_level _ _ (by norm_num) (by norm_num) 0.9844498 (by norm_num) (by norm_num)
      · rw [if_neg c3, bf _ c3]
        exact cos_level _ _ (by norm_num) (by norm_num) 0.9375204 (by norm_num) (by norm_num)

theorem tol_range (r : ℕ) : 1 ≤ tol r ∧ tol r ≤ 14.5 := by
  unfold tol
  split_ifs <;> norm_num

theorem point_mod (a : ℕ) : point a = point (a % 256) := by
  unfold point
  congr 1
  · congr 1
    show a % 256 / 16 = a % 256 % 256 / 16
    rw [Nat.mod_mod]
  · show a % 16 = a % 256 % 16
    rw [Nat.mod_mod_of_dvd _ (by norm_num)]

/-- What the check says. -/
theorem sharp_spec (y x : ℤ) (h0 : x ≠ 0 ∨ y ≠ 0) (a P M : ℕ) (hPM : (P : ℤ) - M = x * ((point a).1 - 2 ^ 30) + y * ((point a).2 - 2 ^ 30)) (r : ℕ) (hr : (r : ℤ) = x ^ 2 + y ^ 2)
    (h : sharp P M r = true) : Spec.AnglesWithin (tol r * (Real.pi / 128)) (arg ⟨x, y⟩) (a * (Real.pi / 128)) := by
  unfold sharp at h
  rw [Bool.and_eq_true, Nat.ble_eq, Nat.ble_eq] at h
  obtain ⟨h1, h2⟩ := h
  have h2 : r * level r ≤ (P - M) * (P - M) := h2
  obtain ⟨t1, t2⟩ := tol_range r
  have rr : (r : ℝ) = (x : ℝ) ^ 2 + (y : ℝ) ^ 2 := by exact_mod_cast hr
  have rpos : (0 : ℝ) < (x : ℝ) ^ 2 + (y : ℝ) ^ 2 := by
    rcases h0 with h | h
    · have : (0 : ℝ) < (x : ℝ) ^ 2 := by positivity
      nlinarith [sq_nonneg (y : ℝ)]
    · have : (0 : ℝ) < (y : ℝ) ^ 2 := by positivity
      nlinarith [sq_nonneg (x : ℝ)]
  have lev := level_spec r
  have h2' : (r : ℝ) * level r ≤ ((P : ℝ) - M) * ((P : ℝ) - M) := by
    have : ((r * level r : ℕ) : ℝ) ≤ (((P - M) * (P - M) : ℕ) : ℝ) := by exact_mod_cast h2
    rw [Nat.cast_mul, Nat.cast_mul, Nat.cast_sub h1] at this
    exact this
  have pm : (0 : ℝ) ≤ (P : ℝ) - M := by
    have : (M : ℝ) ≤ P := by exact_mod_cast h1
    linarith
  have pc : (P : ℝ) - M = x * ((point a).1 - 2 ^ 30) + y * ((point a).2 - 2 ^ 30) := by exact_mod_cast hPM
  set ρ := Real.sqrt ((x : ℝ) ^ 2 + (y : ℝ) ^ 2) with hρ
  have ρ0 : 0 < ρ := Real.sqrt_pos.mpr rpos
  have ρ2 : ρ ^ 2 = (x : ℝ) ^ 2 + (y : ℝ) ^ 2 := Real.sq_sqrt rpos.le
  have cpos : 0 ≤ Real.cos (tol r * (Real.pi / 128)) := Real.cos_nonneg_of_mem_Icc ⟨by nlinarith [Real.pi_pos], by nlinarith [Real.pi_pos]⟩
  -- the inner product with the entry of the table
  have inner : ρ * (2 ^ 30 * (Real.cos (tol r * (Real.pi / 128)) + 1 / 10 ^ 5)) ≤ (P : ℝ) - M := by
    refine le_of_sq_le_sq ?_ pm
    rw [mul_pow, ρ2, ← rr]
    calc (r : ℝ) * (2 ^ 30 * (Real.cos (tol r * (Real.pi / 128)) + 1 / 10 ^ 5)) ^ 2 ≤ r * level r := mul_le_mul_of_nonneg_left lev (by positivity)
      _ ≤ _ := by rw [sq]; exact h2'
  have dc := dot_close (a % 256) (Nat.mod_lt _ (by norm_num))
  have ac : ((a % 256 : ℕ) : ℝ) ≤ 255 := by exact_mod_cast (show a % 256 ≤ 255 by omega)
  have dc' : ‖dot (a % 256) - exp (((a % 256 : ℕ) * (Real.pi / 128) : ℝ) * I)‖ ≤ 1 / 10 ^ 5 := dc.trans (by linarith)
  set φ := ((a % 256 : ℕ) : ℝ) * (Real.pi / 128) with hφ
  set D := dot (a % 256) - exp ((φ : ℝ) * I) with hD
  have dre : D.re = ((point a).1 - 2 ^ 30) / 2 ^ 30 - Real.cos φ := by
    rw [hD, sub_re, exp_ofReal_mul_I_re, dot, ← point_mod]
    norm_num
  have dim : D.im = ((point a).2 - 2 ^ 30) / 2 ^ 30 - Real.sin φ := by
    rw [hD, sub_im, exp_ofReal_mul_I_im, dot, ← point_mod]
    norm_num
  have cs : x * D.re + y * D.im ≤ ρ * (1 / 10 ^ 5) := by
    have n2 : D.re ^ 2 + D.im ^ 2 ≤ (1 / 10 ^ 5) ^ 2 := by
      have : ‖D‖ ^ 2 = D.re ^ 2 + D.im ^ 2 := by rw [Complex.sq_norm, normSq_apply]; ring
      rw [← this]
      exact pow_le_pow_left₀ (norm_nonneg _) dc' 2
    refine le_of_sq_le_sq ?_ (by positivity)
    rw [mul_pow, ρ2]
    have := mul_le_mul_of_nonneg_left n2 rpos.le
    nlinarith [sq_nonneg ((x : ℝ) * D.im - y * D.re)]
  have main : ρ * Real.cos (tol r * (Real.pi / 128)) ≤ x * Real.cos φ + y * Real.sin φ := by
    rw [dre, dim] at cs
    rw [pc] at inner
    linarith
  have nz : ‖(⟨x, y⟩ : ℂ)‖ = ρ := by
    rw [Complex.norm_def, normSq_mk, hρ]
    congr 1
    ring
  have ca := norm_mul_cos_arg (⟨x, y⟩ : ℂ)
  have sa := norm_mul_sin_arg (⟨x, y⟩ : ℂ)
  rw [nz] at ca sa
  simp only at ca sa
  refine within_of_cos _ _ _ (by positivity) (by nlinarith [Real.pi_pos]) ?_
  have per : Real.cos ((a : ℝ) * (Real.pi / 128) - arg ⟨x, y⟩) = Real.cos (φ - arg ⟨x, y⟩) := by
    have : (a : ℝ) = ((a % 256 : ℕ) : ℝ) + 256 * ((a / 256 : ℕ) : ℝ) := by exact_mod_cast (Nat.mod_add_div a 256).symm
    rw [hφ, this, show (((a % 256 : ℕ) : ℝ) + 256 * ((a / 256 : ℕ) : ℝ)) * (Real.pi / 128) - arg ⟨x, y⟩ =
      ((a % 256 : ℕ) : ℝ) * (Real.pi / 128) - arg ⟨x, y⟩ + ((a / 256 : ℕ) : ℝ) * (2 * Real.pi) by ring, Real.cos_add_nat_mul_two_pi]
  rw [per, Real.cos_sub]
  refine le_of_mul_le_mul_left ?_ ρ0
  calc ρ * Real.cos (tol r * (Real.pi / 128)) ≤ x * Real.cos φ + y * Real.sin φ := main
    _ = ρ * (Real.cos φ * Real.cos (arg ⟨x, y⟩) + Real.sin φ * Real.sin (arg ⟨x, y⟩)) := by
      rw [mul_add, ← mul_assoc, ← mul_assoc, mul_comm ρ, mul_assoc, ca, mul_comm ρ (Real.sin φ), mul_assoc, sa]
      ring

open Spec in
/-- Whole turns do not matter. -/
theorem within_shift (τ θ : ℝ) (a b : ℤ) (h : (256 : ℤ) ∣ a - b) (w : AnglesWithin τ θ (a * (Real.pi / 128))) : AnglesWithin τ θ (b * (Real.pi / 128)) := by
  obtain ⟨j, hj⟩ := h
  obtain ⟨k, hk⟩ := w
  refine ⟨k + j, ?_⟩
  have : (a : ℝ) = b + 256 * j := by exact_mod_cast (show a = b + 256 * j by omega)
  rw [this] at hk
  rw [show (b : ℝ) * (Real.pi / 128) - θ + 2 * Real.pi * ((k + j : ℤ) : ℝ) = (b + 256 * j) * (Real.pi / 128) - θ + 2 * Real.pi * k by push_cast; ring]
  exact hk

theorem angle_le (s : State) (h : s.angle = 0) (k : ℕ) (hk : k ≤ 8) : |((List.range k).foldl (next (lut 1)) s).angle| ≤ 64 * k := by
  induction k with
  | zero => simp [h]
  | succ k ih =>
    have ih := abs_le.mp (ih (by omega))
    obtain ⟨l0, l1⟩ := lut_pos k (List.mem_range.mpr (by omega))
    rw [List.range_succ, List.foldl_append, List.foldl_cons, List.foldl_nil, abs_le]
    generalize (List.range k).foldl (next (lut 1)) s = q at *
    unfold next
    push_cast
    split <;> constructor <;> simp only <;> omega

theorem char_error (y x : ℤ) (hy : InType 1 y) (hx : InType 1 x) (h0 : x ≠ 0 ∨ y ≠ 0) :
    ∃ v, atan2 1 y x = .ok v ∧ InType 1 v ∧ Spec.AnglesWithin (tol (x ^ 2 + y ^ 2).toNat * (Real.pi / 128)) (arg ⟨x, y⟩) (v * (Real.pi / 128)) := by
  obtain ⟨v, h1, h2⟩ := C41_defined 1 (Or.inl rfl) y x hy hx
  refine ⟨v, h1, h2, ?_⟩
  rw [atan2_eq 1 (Or.inl rfl) y x hy hx] at h1
  have hv := Except.ok.inj h1
  have fs := found_spec y x hy hx
  have ty := hy
  have tx := hx
  unfold InType at ty tx
  norm_num at ty tx
  have ex := exhausted
  rw [List.all_eq_true] at ex
  have ex := ex x.natAbs (List.mem_range.mpr (by omega))
  rw [List.all_eq_true] at ex
  have ex := ex (y + 128).toNat (List.mem_range.mpr (by omega))
  unfold both at ex
  simp only [Bool.and_eq_true] at ex
  obtain ⟨e1, e2⟩ := ex
  have ang : |loopAngle 1 y x| ≤ 64 * (8 : ℕ) := angle_le _ rfl 8 le_rfl
  have ang := abs_le.mp ang
  have dv : (256 : ℤ) ∣ ((if x < 0 then fac 1 - loopAngle 1 y x else loopAngle 1 y x) / 2 ^ 1) - v := by
    have := Int.dvd_self_sub_bmod (x := (if x < 0 then fac 1 - loopAngle 1 y x else loopAngle 1 y x) / 2 ^ 1) (m := 2 ^ bits 1)
    rw [hv] at this
    exact this
  have rc : ∀ n : ℕ, (n : ℤ) = x ^ 2 + y ^ 2 → (x ^ 2 + y ^ 2).toNat = n := fun n h => by omega
  have yc : (((y + 128).toNat : ℕ) : ℤ) = y + 128 := Int.toNat_of_nonneg (by omega)
  have R : (((Nat.sub (Nat.add (Nat.add (Nat.mul x.natAbs x.natAbs) (Nat.mul (y + 128).toNat (y + 128).toNat)) 16384) (Nat.mul 256 (y + 128).toNat)) : ℕ) : ℤ) = x ^ 2 + y ^ 2 := by
    show ((x.natAbs * x.natAbs + (y + 128).toNat * (y + 128).toNat + 16384 - 256 * (y + 128).toNat : ℕ) : ℤ) = _
    rw [Nat.cast_sub]
    · push_cast
      rw [yc, abs_mul_abs_self]
      ring
    · zify
      rw [yc]
      nlinarith [sq_nonneg y, abs_nonneg x, mul_self_nonneg x.natAbs]
  rw [rc _ R]
  by_cases c : x < 0
  · rw [if_pos c] at dv
    have l := sharp_spec y x h0 ((Nat.sub 3328 (found (y + 128).toNat x.natAbs)).div 2) _ _ ?_ _ R e2
    · refine within_shift _ _ ((Nat.div (Nat.sub 3328 (found (y + 128).toNat x.natAbs)) 2 : ℕ) : ℤ) v ?_ (by exact_mod_cast l)
      have f : fac 1 = 256 := rfl
      rw [f] at dv
      have e : ((Nat.div (Nat.sub 3328 (found (y + 128).toNat x.natAbs)) 2 : ℕ) : ℤ) = (256 - loopAngle 1 y x) / 2 ^ 1 + 256 * 4 := by
        show (((3328 - found (y + 128).toNat x.natAbs) / 2 : ℕ) : ℤ) = _
        omega
      rw [e]
      omega
    · generalize point ((Nat.sub 3328 (found (y + 128).toNat x.natAbs)).div 2) = q
      show ((x.natAbs * 1073741824 + (y + 128).toNat * q.2 + 137438953472 : ℕ) : ℤ) - ((x.natAbs * q.1 + (y + 128).toNat * 1073741824 + 128 * q.2 : ℕ) : ℤ) = _
      push_cast
      rw [yc, abs_of_neg c]
      ring
  · rw [if_neg c] at dv
    have l := sharp_spec y x h0 ((found (y + 128).toNat x.natAbs).div 2) _ _ ?_ _ R e1
    · refine within_shift _ _ ((Nat.div (found (y + 128).toNat x.natAbs) 2 : ℕ) : ℤ) v ?_ (by exact_mod_cast l)
      have e : ((Nat.div (found (y + 128).toNat x.natAbs) 2 : ℕ) : ℤ) = loopAngle 1 y x / 2 ^ 1 + 256 * 2 := by
        show ((found (y + 128).toNat x.natAbs / 2 : ℕ) : ℤ) = _
        omega
      rw [e]
      omega
    · generalize point ((found (y + 128).toNat x.natAbs).div 2) = q
      show ((x.natAbs * q.1 + (y + 128).toNat * q.2 + 137438953472 : ℕ) : ℤ) - ((1073741824 * (x.natAbs + (y + 128).toNat) + 128 * q.2 : ℕ) : ℤ) = _
      push_cast
      rw [yc, abs_of_nonneg (not_lt.mp c)]
      ring

open Spec in
/-- With 8 bits the result is within 1.25 steps of the angle from half of full scale on, a step being the 128th of half a turn; shorter vectors lose accuracy. -/
theorem C41_char (y x : ℤ) (hy : InType 1 y) (hx : InType 1 x) (h0 : x ≠ 0 ∨ y ≠ 0) : ∃ v, atan2 1 y x = .ok v ∧ InType 1 v ∧
    AnglesWithin (14.5 * (Real.pi / 128)) (arg ⟨x, y⟩) (v * (Real.pi / 128)) ∧
    (4 ^ 2 ≤ x ^ 2 + y ^ 2 → AnglesWithin (7.2 * (Real.pi / 128)) (arg ⟨x, y⟩) (v * (Real.pi / 128))) ∧
    (16 ^ 2 ≤ x ^ 2 + y ^ 2 → AnglesWithin (2.8 * (Real.pi / 128)) (arg ⟨x, y⟩) (v * (Real.pi / 128))) ∧
    (64 ^ 2 ≤ x ^ 2 + y ^ 2 → AnglesWithin (1.25 * (Real.pi / 128)) (arg ⟨x, y⟩) (v * (Real.pi / 128))) := by
  obtain ⟨v, h1, h2, k, hk⟩ := char_error y x hy hx h0
  have mono : ∀ t : ℝ, tol (x ^ 2 + y ^ 2).toNat ≤ t → AnglesWithin (t * (Real.pi / 128)) (arg ⟨x, y⟩) (v * (Real.pi / 128)) := fun t ht =>
    ⟨k, hk.trans (mul_le_mul_of_nonneg_right ht (by positivity))⟩
  refine ⟨v, h1, h2, mono _ (tol_range _).2, fun h => mono _ ?_, fun h => mono _ ?_, fun h => mono _ ?_⟩
  · have : 16 ≤ (x ^ 2 + y ^ 2).toNat := by omega
    unfold tol
    split_ifs <;> norm_num
  · have : 256 ≤ (x ^ 2 + y ^ 2).toNat := by omega
    unfold tol
    split_ifs <;> norm_num
  · have : 4096 ≤ (x ^ 2 + y ^ 2).toNat := by omega
    rw [tol, if_pos this]

/-- Near the origin the result is far off: the direction of the positive real axis is reported some ten degrees below it, that of the shortest vector to the left of it twenty
degrees off, and the origin itself, which has no direction, some hundred degrees. -/
theorem C41_short_vectors : atan2 1 0 1 = .ok (-7) ∧ atan2 2 0 1 = .ok (-1799) ∧ atan2 1 1 (-2) = .ok 95 ∧ atan2 1 0 0 = .ok 71 ∧ atan2 2 0 0 = .ok 18182 := by
  decide +kernel

/-- A long vector and what comes out. -/
example : InType 1 100 ∧ InType 1 (-77) ∧ (64 : ℤ) ^ 2 ≤ (-77) ^ 2 + 100 ^ 2 ∧ atan2 1 100 (-77) = .ok 91 := by
  unfold InType
  decide +kernel

example : InType 2 20000 ∧ InType 2 (-25000) ∧ (64 : ℤ) ^ 2 ≤ (-25000) ^ 2 + 20000 ^ 2 ∧ atan2 2 20000 (-25000) = .ok 25730 := by
  unfold InType
  decide +kernel

end DSP.Cordic
