import Verif.Props.ResamplerKernel

/-!
# C106: what the resamplers make of the oldest sample
-/

namespace DSP
namespace Resampling

open Spec intervalIntegral

noncomputable def s3 (z : ℝ) : ℝ := ∫ t in (0 : ℝ)..1, t ^ 3 * Real.sin (z * t)
noncomputable def s4 (z : ℝ) : ℝ := ∫ t in (0 : ℝ)..1, t ^ 4 * Real.cos (z * t)

theorem power_le (n : ℕ) (t : ℝ) (ht : t ∈ Set.uIoc (0 : ℝ) 1) (c : ℝ) (hc : |c| ≤ 1) : ‖t ^ n * c‖ ≤ t ^ n := by
  rw [Set.uIoc_of_le zero_le_one] at ht
  have := pow_nonneg ht.1.le n
  rw [norm_mul, Real.norm_eq_abs, Real.norm_eq_abs, abs_of_nonneg this]
  exact mul_le_of_le_one_right this hc

theorem power_le_one (n : ℕ) (t : ℝ) (ht : t ∈ Set.uIoc (0 : ℝ) 1) (c : ℝ) (hc : |c| ≤ 1) : ‖t ^ n * c‖ ≤ 1 := by
  refine (power_le n t ht c hc).trans ?_
  rw [Set.uIoc_of_le zero_le_one] at ht
  exact pow_le_one₀ ht.1.le ht.2

theorem s2_deriv (z : ℝ) : HasDerivAt s2 (s3 z) z :=
  (hasDerivAt_integral_of_dominated_loc_of_deriv_le (F := fun z t => -(t * (t * Real.cos (z * t)))) (F' := fun z t => t ^ 3 * Real.sin (z * t)) (bound := fun _ => 1) Filter.univ_mem
    (Filter.Eventually.of_forall fun z => (by fun_prop : Continuous fun t => -(t * (t * Real.cos (z * t)))).aestronglyMeasurable)
    ((by fun_prop : Continuous fun t => -(t * (t * Real.cos (z * t)))).intervalIntegrable _ _) (by fun_prop : Continuous fun t => t ^ 3 * Real.sin (z * t)).aestronglyMeasurable
    (MeasureTheory.ae_of_all _ fun t ht z _ => power_le_one 3 t ht _ (Real.abs_sin_le_one _))
    (by simp) (MeasureTheory.ae_of_all _ fun t _ z _ => by
      have := ((((Real.hasDerivAt_cos (z * t)).comp z ((hasDerivAt_id z).mul_const t)).const_mul t).const_mul t).neg
      refine this.congr_deriv ?_
      ring)).2

theorem s3_deriv (z : ℝ) : HasDerivAt s3 (s4 z) z :=
  (hasDerivAt_integral_of_dominated_loc_of_deriv_le (F := fun z t => t ^ 3 * Real.sin (z * t)) (F' := fun z t => t ^ 4 * Real.cos (z * t)) (bound := fun _ => 1) Filter.univ_mem
    (Filter.Eventually.of_forall fun z => (by fun_prop : Continuous fun t => t ^ 3 * Real.sin (z * t)).aestronglyMeasurable)
    ((by fun_prop : Continuous fun t => t ^ 3 * Real.sin (z * t)).intervalIntegrable _ _) (by fun_prop : Continuous fun t => t ^ 4 * Real.cos (z * t)).aestronglyMeasurable
    (MeasureTheory.ae_of_all _ fun t ht z _ => power_le_one 4 t ht _ (Real.abs_cos_le_one _))
    (by simp) (MeasureTheory.ae_of_all _ fun t _ z _ => by
      have := ((Real.hasDerivAt_sin (z * t)).comp z ((hasDerivAt_id z).mul_const t)).const_mul (t ^ 3)
      refine this.congr_deriv ?_
      ring)).2

theorem s3_le (z : ℝ) : |s3 z| ≤ 1 / 4 := by
  have := norm_integral_le_of_norm_le (a := (0 : ℝ)) (b := 1) (μ := MeasureTheory.volume) (g := fun t => t ^ 3) (f := fun t => t ^ 3 * Real.sin (z * t)) zero_le_one
    (MeasureTheory.ae_of_all _ fun t ht => power_le 3 t (by rwa [Set.uIoc_of_le zero_le_one]) _ (Real.abs_sin_le_one _)) ((continuous_pow 3).intervalIntegrable _ _)
  rw [integral_pow] at this
  refine this.trans (by norm_num)

theorem s4_le (z : ℝ) : |s4 z| ≤ 1 / 5 := by
  have := norm_integral_le_of_norm_le (a := (0 : ℝ)) (b := 1) (μ := MeasureTheory.volume) (g := fun t => t ^ 4) (f := fun t => t ^ 4 * Real.cos (z * t)) zero_le_one
    (MeasureTheory.ae_of_all _ fun t ht => power_le 4 t (by rwa [Set.uIoc_of_le zero_le_one]) _ (Real.abs_cos_le_one _)) ((continuous_pow 4).intervalIntegrable _ _)
  rw [integral_pow] at this
  refine this.trans (by norm_num)

/-- What they are in terms of the sine. -/
theorem s0_sin (z : ℝ) : z * s0 z = Real.sin z := by
  have := smul_integral_comp_mul_left (a := (0 : ℝ)) (b := 1) (fun t => Real.cos t) z
  rw [mul_zero, mul_one, smul_eq_mul, integral_cos, Real.sin_zero, sub_zero] at this
  exact this

theorem s1_cos (z : ℝ) : s0 z + z * s1 z = Real.cos z := by
  have h := (hasDerivAt_id z).mul (s0_deriv z)
  have e : (id * s0) = Real.sin := funext fun z => by simp [s0_sin]
  rw [e] at h
  have := h.unique (Real.hasDerivAt_sin z)
  simpa using this

theorem s2_sin (z : ℝ) : 2 * s1 z + z * s2 z = -Real.sin z := by
  have h := (s0_deriv z).add ((hasDerivAt_id z).mul (s1_deriv z))
  have e : (s0 + id * s1) = Real.cos := funext fun z => by simp [← s1_cos]
  rw [e] at h
  have := h.unique (Real.hasDerivAt_cos z)
  simp only [id, one_mul] at this
  linarith

theorem s0_pi : s0 (-Real.pi) = 0 := by
  have := s0_sin (-Real.pi)
  rw [Real.sin_neg, Real.sin_pi, neg_zero] at this
  exact (mul_eq_zero.mp this).resolve_left (neg_ne_zero.mpr Real.pi_ne_zero)

theorem s2_pi : s2 (-Real.pi) = 2 / Real.pi ^ 2 := by
  have h1 := s1_cos (-Real.pi)
  have h2 := s2_sin (-Real.pi)
  rw [s0_pi, Real.cos_neg, Real.cos_pi] at h1
  rw [Real.sin_neg, Real.sin_pi] at h2
  have hp := Real.pi_ne_zero
  have e1 : s1 (-Real.pi) = 1 / Real.pi := by field_simp; linarith
  rw [e1] at h2
  field_simp at h2 ⊢
  linarith

section
variable (O : ℝ) (hO : 256 ≤ O)

/-- The plain filter with five taps and the cutoff frequency at a quarter of the rate, in units of the distance of the points, and its derivatives. -/
noncomputable def quarter (s : ℝ → ℝ) (n : ℕ) (t : ℝ) : ℝ := s (Real.pi / (2 * O) * t - Real.pi) * (1 / 2 * (Real.pi / (2 * O)) ^ n)

theorem quarter_deriv (s s' : ℝ → ℝ) (n : ℕ) (t : ℝ) (h : ∀ z, HasDerivAt s (s' z) z) : HasDerivAt (quarter O s n) (quarter O s' (n + 1) t) t := by
  have h0 : HasDerivAt (fun t : ℝ => Real.pi / (2 * O) * t - Real.pi) (Real.pi / (2 * O)) t := by
    simpa using ((hasDerivAt_id t).const_mul (Real.pi / (2 * O))).sub_const Real.pi
  refine ((HasDerivAt.comp (h := fun t : ℝ => Real.pi / (2 * O) * t - Real.pi) t (h _) h0).mul_const _).congr_deriv ?_
  rw [quarter, pow_succ]
  ring

include hO in
theorem quarter_le (s : ℝ → ℝ) (n : ℕ) (B : ℝ) (t : ℝ) (h : ∀ z, |s z| ≤ B) : |quarter O s n t| ≤ B / 2 * (Real.pi / (2 * O)) ^ n := by
  have hp := Real.pi_pos
  have : 0 ≤ 1 / 2 * (Real.pi / (2 * O)) ^ n := by positivity
  rw [quarter, abs_mul, abs_of_nonneg this]
  refine (mul_le_mul_of_nonneg_right (h _) this).trans (le_of_eq (by ring))

include hO in
theorem quarter_step (s s' : ℝ → ℝ) (n : ℕ) (B : ℝ) (h : ∀ z, HasDerivAt s (s' z) z) (hB : ∀ z, |s' z| ≤ B) : |quarter O s n 1 - quarter O s n 0| ≤ B / 2 * (Real.pi / (2 * O)) ^ (n + 1) := by
  have := grow 0 (B / 2 * (Real.pi / (2 * O)) ^ (n + 1)) (fun t => quarter O s n t - quarter O s n 0) (quarter O s' (n + 1)) (sub_self _)
    (fun t _ _ => (quarter_deriv O s s' n t h).sub_const _) (fun t _ _ => by rw [pow_zero, mul_one]; exact quarter_le O hO s' (n + 1) B t hB) 1 zero_le_one le_rfl
  simpa using this

end

/-- The value of the first piece. -/
theorem oldest_value (OVER : ℝ) (hO' : 256 ≤ OVER) (e : ℝ) (he0 : 0 ≤ e) (heO : e * OVER = Real.pi / 2) (P : ℝ) (hP : 0 ≤ P) (hPO : P * OVER ^ 2 = 1 / 4) (d : ℝ) (d0 : 0 ≤ d) (d1 : d ≤ 1 / 2) (c y1 : ℝ)
    (lo : 0.36 * P ≤ c) (hi : c ≤ P) (q0 : -(1 / 2 / 2 * e ^ 1) ≤ y1) :
    (1 - -d * OVER) * 0 + -d * OVER * y1 - -d * OVER * (1 - -d * OVER) / 3 * ((2 - -d * OVER) * 0 + (1 + -d * OVER) * c) ≤ 1 / 4 - 3 / 100 * OVER * d ^ 3 := by
  have hp1 := Real.pi_lt_d2
  have k1 : -(d * OVER * y1) ≤ 0.2 := by
    have : d * OVER * -y1 ≤ d * OVER * (1 / 2 / 2 * e ^ 1) := by
      gcongr
      linarith [q0]
    have e' : d * OVER * (1 / 2 / 2 * e ^ 1) = d * (e * OVER) / 4 := by ring
    rw [e', heO] at this
    nlinarith
  have k2 : d * OVER * c ≤ 0.1 := by
    have hc0 : 0 ≤ c := (by positivity : 0 ≤ 0.36 * P).trans lo
    have : d * OVER * c ≤ 1 / 2 * OVER * P := mul_le_mul (mul_le_mul_of_nonneg_right d1 (by linarith)) hi hc0 (by positivity)
    have e' : P * OVER * 256 ≤ P * OVER * OVER := mul_le_mul_of_nonneg_left hO' (by positivity)
    rw [show P * OVER * OVER = P * OVER ^ 2 by ring, hPO] at e'
    linarith
  have k3 : 0.09 * OVER * d ^ 3 ≤ (d * OVER) ^ 3 * c := by
    have : (d * OVER) ^ 3 * (0.36 * P) ≤ (d * OVER) ^ 3 * c := by gcongr
    have e' : (d * OVER) ^ 3 * (0.36 * P) = 0.36 * (P * OVER ^ 2) * OVER * d ^ 3 := by ring
    rw [e', hPO] at this
    linarith
  have e' : (1 - -d * OVER) * 0 + -d * OVER * y1 - -d * OVER * (1 - -d * OVER) / 3 * ((2 - -d * OVER) * 0 + (1 + -d * OVER) * c) = -(d * OVER * y1) + (d * OVER * c) / 3 - (d * OVER) ^ 3 * c / 3 := by ring
  rw [e']
  linarith

/-- The weight of a sample at the offset `-d` that the spline gives. -/
theorem oldest (OVER : ℕ) (hO : 256 ≤ OVER) (y : ℕ → ℝ) (hy : ∀ i < 5 * OVER, y i = quarter OVER s0 0 i) (d : ℝ) (d0 : 0 ≤ d) (d1 : d ≤ 1 / 2) :
    NaturalSpline.S y (5 * OVER) (-d * OVER) ≤ 1 / 4 - 3 / 100 * OVER * d ^ 3 := by
  have hO' : (256 : ℝ) ≤ OVER := by exact_mod_cast hO
  have hp := Real.pi_pos
  have hp1 := Real.pi_lt_d2
  have hp2 := Real.pi_gt_d2
  have hK : 2 ≤ 5 * OVER := by omega
  obtain ⟨e, he⟩ : ∃ e : ℝ, e = Real.pi / (2 * OVER) := ⟨_, rfl⟩
  have he0 : 0 < e := by rw [he]; positivity
  have heO : e * OVER = Real.pi / 2 := by rw [he]; field_simp
  have he1 : e ≤ 0.0062 := by
    rw [he, div_le_iff₀ (by linarith)]
    linarith
  have hc := NaturalSpline.cs_fourth y (5 * OVER) (quarter OVER s0 0) (quarter OVER s1 1) (quarter OVER s2 2) (quarter OVER s3 3) (quarter OVER s4 4) hy
    (fun x _ _ => quarter_deriv OVER s0 s1 0 x s0_deriv) (fun x _ _ => quarter_deriv OVER s1 s2 1 x s1_deriv) hK (fun x _ _ => quarter_deriv OVER s2 s3 2 x s2_deriv)
    (fun x _ _ => quarter_deriv OVER s3 s4 3 x s3_deriv) (1 / 5 / 2 * e ^ 4) (fun x _ _ => by rw [he]; exact quarter_le OVER hO' s4 4 _ x s4_le) 1 (by omega)
  have q20 : quarter OVER s2 2 0 = e ^ 2 / Real.pi ^ 2 := by
    rw [quarter, mul_zero, zero_sub, s2_pi, ← he]; ring
  have q2 := abs_le.mp (quarter_step OVER hO' s2 s3 2 _ s2_deriv s3_le)
  have q0 := abs_le.mp (quarter_step OVER hO' s0 s1 0 _ s0_deriv s1_le)
  have q00 : quarter OVER s0 0 0 = 0 := by rw [quarter, mul_zero, zero_sub, s0_pi, zero_mul]
  have qK := quarter_le OVER hO' s2 2 _ (((5 * OVER : ℕ) : ℝ) - 1) s2_le
  rw [← he] at q2 q0 qK
  have hpow : (0.27 : ℝ) ^ (5 * OVER - 1 - 1) ≤ 0.0001 := by
    refine (pow_le_pow_of_le_one (by norm_num) (by norm_num) (by omega : 8 ≤ 5 * OVER - 1 - 1)).trans (by norm_num)
  have hpow0 : (0 : ℝ) ≤ (0.27 : ℝ) ^ (5 * OVER - 1 - 1) := by positivity
  have t3 : |quarter OVER s2 2 (((5 * OVER : ℕ) : ℝ) - 1)| / 2 * 0.27 ^ (5 * OVER - 1 - 1) ≤ (1 / 3 / 2 * e ^ 2) / 2 * 0.0001 := by gcongr
  have hP : 0 ≤ e ^ 2 / Real.pi ^ 2 := by positivity
  obtain ⟨P, hPd⟩ : ∃ P : ℝ, P = e ^ 2 / Real.pi ^ 2 := ⟨_, rfl⟩
  have heP : e ^ 2 ≤ 9.93 * P := by
    rw [hPd, mul_div_assoc', le_div_iff₀ (by positivity)]
    have : Real.pi ^ 2 ≤ 9.93 := by nlinarith
    nlinarith [sq_nonneg e]
  have e3 : e ^ 3 ≤ 0.0062 * e ^ 2 := by nlinarith [sq_nonneg e]
  have e4 : e ^ 4 ≤ 0.0001 * e ^ 2 := by nlinarith [sq_nonneg e, mul_nonneg he0.le (sq_nonneg e)]
  rw [q20, ← hPd] at q2 hc
  rw [← hPd] at hP
  rw [abs_of_nonneg hP, pow_one] at hc
  push_cast at hc q2 q0 t3
  obtain ⟨c0, c1⟩ := abs_le.mp hc
  have lo : 0.36 * P ≤ NaturalSpline.cs y (5 * OVER) 1 := by linarith [q2.1]
  have hi : NaturalSpline.cs y (5 * OVER) 1 ≤ P := by linarith [q2.2]
  have hPO : P * OVER ^ 2 = 1 / 4 := by
    have : e ^ 2 * OVER ^ 2 = Real.pi ^ 2 / 4 := by rw [← mul_pow, heO]; ring
    rw [hPd, div_mul_eq_mul_div, this]
    field_simp
  rw [NaturalSpline.S, pieces_eq _ _ _ (NaturalSpline.mono _) 0 (by omega) _ (Or.inl rfl) (Or.inr (by push_cast; nlinarith)), NaturalSpline.p0_form, NaturalSpline.cs_zero y (5 * OVER) hK,
    hy 0 (by omega), hy (0 + 1) (by omega)]
  simp only [zero_add, Nat.cast_zero, Nat.cast_one, q00, sub_zero] at q0 ⊢
  generalize NaturalSpline.cs y (5 * OVER) 1 = c at *
  generalize quarter OVER s0 0 1 = y1 at *
  exact oldest_value OVER hO' e he0.le heO P hP hPO d d0 d1 c y1 lo hi q0.1

/-- The points with the parameter zero: the window does nothing. -/
theorem quarter_points (OVER : ℕ) (hO : 256 ≤ OVER) (hK2 : 5 * OVER ≤ 1073741824) (w : ℤ → ℝ) (hw : ∀ n : ℤ, 0 ≤ n → n < (5 * OVER : ℕ) → Win.kaiser 0 n (5 * OVER : ℕ) = .ok (w n)) (n : ℕ) (hn : n < 5 * OVER) :
    passBand 0 (1 / 4) ((n : ℝ) / OVER - (((5 : ℕ) : ℝ) - 1) / 2) * w n = quarter OVER s0 0 n := by
  have hO' : (0 : ℝ) < OVER := by exact_mod_cast (by omega : 0 < OVER)
  have e := hw n (by omega) (by exact_mod_cast hn)
  rw [Win.kaiser_ok 0 n (5 * OVER : ℕ) (by omega) (by omega) (by omega) (by exact_mod_cast hn)] at e
  have e' := Except.ok.inj e
  have one : Win.partI0 0 ≠ 0 := by
    have := partI0_G 0 1 zero_le_one
    rw [mul_zero, zero_mul] at this
    rw [this]
    exact (lt_of_lt_of_le one_pos (G_pos _ (by positivity))).ne'
  rw [Win.kaiserArg, mul_zero, zero_mul, div_self one] at e'
  rw [← e', mul_one, passBand_scale, quarter, pow_zero, show 2 * Real.pi * (1 / 4) * ((n : ℝ) / OVER - (((5 : ℕ) : ℝ) - 1) / 2) = Real.pi / (2 * OVER) * n - Real.pi by push_cast; field_simp; ring]
  ring

theorem oldest_spline (OVER : ℕ) (hO : 256 ≤ OVER) (hK2 : 5 * OVER ≤ 1073741824) (w : ℤ → ℝ) (hw : ∀ n : ℤ, 0 ≤ n → n < (5 * OVER : ℕ) → Win.kaiser 0 n (5 * OVER : ℕ) = .ok (w n)) (S : ℝ → ℝ)
    (hS : IsNaturalSpline (5 * OVER) (fun n => passBand 0 (1 / 4) ((n : ℝ) / OVER - (((5 : ℕ) : ℝ) - 1) / 2) * w n) S) (d : ℝ) (d0 : 0 ≤ d) (d1 : d ≤ 1 / 2) :
    S (-d * OVER) ≤ 1 / 4 - 3 / 100 * OVER * d ^ 3 := by
  have hS' : S = NaturalSpline.S (fun n : ℕ => quarter OVER s0 0 n) (5 * OVER) :=
    NaturalSpline.C91_unique (5 * OVER) (by omega) _ _ _ ⟨fun i hi => by rw [hS.knots i hi]; exact quarter_points OVER hO hK2 w hw i hi, hS.smooth, hS.cubic⟩ (NaturalSpline.S_natural _ _ (by omega))
  rw [hS']
  exact oldest OVER hO _ (fun _ _ => rfl) d d0 d1

/-- **C106** Why negative offsets are left out: there the oldest sample is weighted by what continues the first piece of the spline, and that grows with the number of points. With five taps, the cutoff frequency at
a quarter of the rate and no window the ideal filter is nowhere above one half, but the weight of the oldest sample at the offset `-1/2` is below `1 / 4 - 3 / 800 * OVER`. -/
theorem C106_oldest (OVER : ℕ) (hO : 256 ≤ OVER) (hK2 : 5 * OVER ≤ 1073741824) (rate : ℝ) (hr : rate ≠ 0) (tmp junk : List ℝ) (ht : tmp.length = 5 * OVER) (hj : junk.length = 5 * OVER - 1) :
    ∃ s, lpf 5 OVER rate (rate / 4) 0 tmp junk = .ok s ∧ ∀ d : ℝ, 0 ≤ d → d ≤ 1 / 2 → ∃ v, s.call (5 * OVER) (-d) = .ok v ∧ v ≤ 1 / 4 - 3 / 100 * OVER * d ^ 3 := by
  obtain ⟨s, w, S, e, -, hk, hS, hc⟩ := lpf_ok 5 OVER (by omega) (by omega) hK2 rate (rate / 4) 0 hr tmp junk ht hj
  rw [show rate / 4 / rate = 1 / 4 by field_simp] at hS
  refine ⟨s, e, fun d d0 d1 => ⟨_, hc (-d) ?_, oldest_spline OVER hO hK2 w hk S hS d d0 d1⟩⟩
  have hK' : (5 : ℝ) * OVER ≤ 1073741824 := by exact_mod_cast hK2
  have : d * OVER ≤ 1 / 2 * OVER := by gcongr
  rw [neg_mul, abs_neg, abs_of_nonneg (by positivity)]
  linarith

end Resampling

namespace Resampler2

open Spec Resampling

/-- **C106** What can be heard of it: a single sample of one, with 1024 points per tap, and the offset going to `-2/5` when this sample is the oldest one. All outputs should be between `-1/2` and `1/2`, but there is one below `-3/2`. -/
theorem C106_click (rate : ℝ) (hr : rate ≠ 0) (tmp junk buf : List ℝ) (ht : tmp.length = 5120) (hj : junk.length = 5119) (hbuf : buf.length = 5) :
    ∃ r, make 5 1024 rate (rate / 4) 0 tmp junk buf = .ok r ∧ ∃ r' ys v, run (step 5 1024 1) r ([(1, 0), (0, 0), (0, 0), (0, -(2 / 5) * rate), (0, 0)].map fun (i : ℝ × ℝ) => ([0], i.1, i.2)) = .ok (r', ys) ∧
      v ∈ produced ys ∧ v < -(3 / 2) := by
  obtain ⟨x, hx⟩ : ∃ x : ℕ → ℝ, x = fun t => if t = 0 then 1 else 0 := ⟨_, rfl⟩
  obtain ⟨diff, hd⟩ : ∃ diff : ℕ → ℝ, diff = fun t => if t = 3 then -(2 / 5) * rate else 0 := ⟨_, rfl⟩
  have hdr : ∀ t, diff t / rate = if t = 3 then -(2 / 5) else 0 := fun t => by
    rw [hd]; dsimp only; split_ifs
    · field_simp
    · simp
  obtain ⟨r, w, S, e, -, hk, hS, H⟩ := C60_positions 5 1024 (by norm_num) (by norm_num) (by norm_num) (by norm_num) rate (rate / 4) 0 hr tmp junk buf ht hj hbuf 1 1 le_rfl x (fun _ => [0]) (fun _ => le_rfl) diff
    (fun t => by rw [hdr]; split_ifs <;> norm_num) (fun t => by rw [hdr]; split_ifs <;> norm_num) (2 / 5) (fun t => by rw [hdr]; split_ifs <;> norm_num) (by norm_num)
  rw [show rate / 4 / rate = 1 / 4 by field_simp] at hS
  obtain ⟨r', ys, N, P, e', R, h1, -⟩ := H 5
  have hn : ∀ o, o < (produced ys).length → ∀ k : ℕ, |(k : ℝ) - P o| < 1 / 2 → N o = k := fun o ho k hk => by
    have a := (R.near o ho).2
    have : |(N o : ℝ) - k| < 1 := by
      have := abs_sub_le (N o : ℝ) (P o) k
      rw [abs_sub_comm (P o)] at this
      linarith
    have b := abs_lt.mp this
    have b1 : (N o : ℝ) < k + 1 := by linarith
    have b2 : (k : ℝ) < N o + 1 := by linarith
    have b1 : N o < k + 1 := by exact_mod_cast b1
    have b2 : k < N o + 1 := by exact_mod_cast b2
    omega
  have hp : ∀ k ≤ 3, k < (produced ys).length ∧ P k = k := by
    intro k
    induction k with
    | zero =>
      intro _
      refine ⟨Nat.pos_of_ne_zero fun c => ?_, by rw [R.start, Nat.cast_zero]⟩
      rw [c, R.start] at h1
      norm_num at h1
    | succ k ih =>
      intro hk3
      obtain ⟨a, b⟩ := ih (by omega)
      have hNk := hn k a k (by rw [b, sub_self]; norm_num)
      have hP := R.next k a
      rw [hNk, hdr, if_neg (by omega), b] at hP
      refine ⟨Nat.lt_of_le_of_ne a fun c => ?_, by rw [hP]; push_cast; ring⟩
      rw [← c, hP] at h1
      have : (k : ℝ) ≤ 2 := by exact_mod_cast (by omega : k ≤ 2)
      norm_num at h1
      linarith
  obtain ⟨a, b⟩ := hp 3 le_rfl
  have hN3 := hn 3 a 3 (by rw [b, sub_self]; norm_num)
  have hP := R.next 3 a
  rw [hN3, hdr, if_pos rfl, b] at hP
  have a4 : 4 < (produced ys).length := by
    refine Nat.lt_of_le_of_ne a fun c => ?_
    rw [← c, hP] at h1
    norm_num at h1
  have hN4 := hn 4 a4 4 (by rw [hP]; norm_num [abs_lt])
  have ho := R.out 4 a4
  have hs := oldest_spline 1024 (by norm_num) (by norm_num) w hk S hS (2 / 5) (by norm_num) (by norm_num)
  rw [hN4, hP] at ho
  refine ⟨r, e, r', ys, _, by simpa [List.range, List.range.loop, hx, hd] using e', List.mem_of_getElem? ho, ?_⟩
  rw [Finset.sum_eq_single_of_mem 0 (by simp) fun s _ hs => ?_]
  · norm_num [past, hx] at hs ⊢
    linarith
  · rw [smul_eq_mul]
    have : past x (((4 : ℕ) : ℤ) - (((5 : ℕ) : ℤ) - 1) + s) = 0 := by
      simp [past, hx, hs]
    rw [this, mul_zero]

end Resampler2
end DSP
