import Verif.Props.UnitCircleError

/-!
# C84: the relative errors of unit_circle.hh
-/

namespace DSP
namespace UnitCircle

open Spec PolyBound

/-- The series of the sine, with an error that vanishes at zero. -/
theorem taylor_relative (x : ℝ) (hx : |x| ≤ 0.7854) : |Real.sin x - x * eval sinTaylor (x * x)| ≤ 1 / 10 ^ 20 * |x| := by
  have hn : ‖(x : ℂ) * Complex.I‖ = |x| := by simp
  have h := Complex.exp_bound (x := (x : ℂ) * Complex.I) (by rw [hn]; linarith) (n := 20) (by norm_num)
  rw [series, hn] at h
  have hb : |x| ^ 20 * (((20 : ℕ).succ : ℝ) * ((((20 : ℕ).factorial : ℕ) : ℝ) * ((20 : ℕ) : ℝ))⁻¹) ≤ 1 / 10 ^ 20 * |x| := by
    have : |x| ^ 19 ≤ 0.7854 ^ 19 := pow_le_pow_left₀ (abs_nonneg x) hx 19
    calc _ = |x| ^ 19 * (((20 : ℕ).succ : ℝ) * ((((20 : ℕ).factorial : ℕ) : ℝ) * ((20 : ℕ) : ℝ))⁻¹) * |x| := by rw [pow_succ |x| 19]; ring
      _ ≤ (0.7854 : ℝ) ^ 19 * (((20 : ℕ).succ : ℝ) * ((((20 : ℕ).factorial : ℕ) : ℝ) * ((20 : ℕ) : ℝ))⁻¹) * |x| := by gcongr
      _ ≤ _ := by
        apply mul_le_mul_of_nonneg_right _ (abs_nonneg x)
        simp only [Nat.factorial]; norm_num
  have h := h.trans hb
  rw [Complex.exp_mul_I, ← Complex.ofReal_cos, ← Complex.ofReal_sin] at h
  have := (Complex.abs_im_le_norm _).trans h
  simp only [Complex.sub_im, Complex.add_im, Complex.mul_im, Complex.ofReal_re, Complex.ofReal_im, Complex.I_re, Complex.I_im] at this
  refine le_trans (le_of_eq ?_) this
  congr 1; ring

theorem sine_relative (x : ℝ) (hx : |x| ≤ 0.7854) : |sineApprox Coeffs.real x - Real.sin x| ≤ 7 / 10 ^ 18 * |x| := by
  have h1 := taylor_relative x hx
  have h2 := abs_le_of_check (add sinTaylor (neg sinPoly)) (6 / 10 ^ 18) 0 0.61687 32 sinCheck.1 sinCheck.2 (x * x) (by push_cast; nlinarith)
    (by push_cast; exact square_bound x hx) (by norm_num) (by norm_num)
  rw [eval_add, eval_neg] at h2
  push_cast at h2
  have h3 : |x * (eval sinTaylor (x * x) + -eval sinPoly (x * x))| ≤ 6 / 10 ^ 18 * |x| := by
    rw [abs_mul, mul_comm]
    exact mul_le_mul_of_nonneg_right h2 (abs_nonneg _)
  rw [sineApprox_eq]
  have e : x * eval sinPoly (x * x) - Real.sin x = -(Real.sin x - x * eval sinTaylor (x * x)) - x * (eval sinTaylor (x * x) + -eval sinPoly (x * x)) := by ring
  rw [e]
  refine (abs_sub _ _).trans ?_
  rw [abs_neg]
  have := abs_nonneg x
  nlinarith

theorem sine_lower (x : ℝ) (hx : |x| ≤ 0.7854) : 0.8457 * |x| ≤ |Real.sin x| := by
  have key : ∀ y : ℝ, 0 ≤ y → y ≤ 0.7854 → 0.8457 * y ≤ Real.sin y := by
    intro y h0 h1
    rcases h0.eq_or_lt with rfl | h
    · simp
    · have := Real.sin_gt_sub_cube h
      nlinarith [mul_nonneg h0 h0]
  rcases le_total 0 x with h | h
  · rw [abs_of_nonneg h] at hx ⊢
    exact (key x h hx).trans (le_abs_self _)
  · rw [abs_of_nonpos h] at hx ⊢
    have := key (-x) (by linarith) hx
    rw [Real.sin_neg] at this
    exact this.trans (neg_le_abs _)

section

variable {V : Type} [Zero V] [Add V] [Sub V] [Mul V] [IntCast V] [Neg V] [Div V] {val : V → ℝ} {u : ℝ} (hR : RoundedField V val u) (hu0 : 0 ≤ u) (hu : u ≤ 1 / 1000)

include hR hu0 hu

/-- The inner part of the sine of a value that is off by a few units. -/
theorem sine_inner_off {c : Coeffs V} (hc : c.Rounded val u) {x : ℝ} {a : V} (hx : Off val u x a 0.7854 4.74) :
    Off val u (x * x * (x * x * (x * x * (x * x * (x * x * (x * x * Coeffs.real.a13 + Coeffs.real.a11) + Coeffs.real.a9) + Coeffs.real.a7) + Coeffs.real.a5) + Coeffs.real.a3) + Coeffs.real.a1)
      (a * a * (a * a * (a * a * (a * a * (a * a * (a * a * c.a13 + c.a11) + c.a9) + c.a7) + c.a5) + c.a3) + c.a1) 1.11 3.01 := by
  have hxx : Off val u (x * x) (a * a) 0.61687 8.1 := by
    have := hx.mul hR hu0 hu hx (E := 8.1) (by norm_num) (by norm_num) (by norm_num)
    exact ⟨this.1.trans (by norm_num), this.2⟩
  have h0 := Off.const hu0 1.59e-10 hc.a13 (by simp only [Coeffs.real, Coeffs.map, Coeffs.decimal]; rw [abs_of_nonneg] <;> norm_num)
  have h1 := hxx.step hR hu0 hu h0 (Off.const hu0 2.51e-8 hc.a11 (by simp only [Coeffs.real, Coeffs.map, Coeffs.decimal]; rw [abs_of_nonpos] <;> norm_num)) (P := 1.59e-9) (Z := 2.52e-8) (E := 7.71e-8)
    (by norm_num) (by norm_num) (by norm_num) (by norm_num) (by norm_num)
  have h2 := hxx.step hR hu0 hu h1 (Off.const hu0 2.76e-6 hc.a9 (by simp only [Coeffs.real, Coeffs.map, Coeffs.decimal]; rw [abs_of_nonneg] <;> norm_num)) (P := 2.69e-7) (Z := 2.78e-6) (E := 8.58e-6)
    (by norm_num) (by norm_num) (by norm_num) (by norm_num) (by norm_num)
  have h3 := hxx.step hR hu0 hu h2 (Off.const hu0 1.99e-4 hc.a7 (by simp only [Coeffs.real, Coeffs.map, Coeffs.decimal]; rw [abs_of_nonpos] <;> norm_num)) (P := 2.97e-5) (Z := 2.01e-4) (E := 6.3e-4)
    (by norm_num) (by norm_num) (by norm_num) (by norm_num) (by norm_num)
  have h4 := hxx.step hR hu0 hu h3 (Off.const hu0 8.34e-3 hc.a5 (by simp only [Coeffs.real, Coeffs.map, Coeffs.decimal]; rw [abs_of_nonneg] <;> norm_num)) (P := 2.15e-3) (Z := 8.47e-3) (E := 2.74e-2)
    (by norm_num) (by norm_num) (by norm_num) (by norm_num) (by norm_num)
  have h5 := hxx.step hR hu0 hu h4 (Off.const hu0 0.167 hc.a3 (by simp only [Coeffs.real, Coeffs.map, Coeffs.decimal]; rw [abs_of_nonpos] <;> norm_num)) (P := 9.11e-2) (Z := 0.173) (E := 0.599)
    (by norm_num) (by norm_num) (by norm_num) (by norm_num) (by norm_num)
  exact hxx.step hR hu0 hu h5 (c := Coeffs.real.a1) (d := c.a1) (C := 1) (g := 0) ⟨by norm_num [Coeffs.real, Coeffs.map, Coeffs.decimal], by rw [hc.a1]; norm_num [Coeffs.real, Coeffs.map, Coeffs.decimal]⟩
    (P := 1.89) (Z := 1.11) (E := 3.01) (by norm_num) (by norm_num) (by norm_num) (by norm_num) (by norm_num)

/-- The sine of a value with a small relative error. -/
theorem sineApprox_relative {c : Coeffs V} (hc : c.Rounded val u) {x : ℝ} {a : V} (hx : Off val u x a 0.7854 4.74) (hr : |val a - x| ≤ 6.017012 * u * |x|) :
    |val (sineApprox c a) - sineApprox Coeffs.real x| ≤ 10.827 * u * |x| := by
  obtain ⟨y1, y2⟩ := sine_inner_off hR hu0 hu hc hx
  have h := hR.mul a (a * a * (a * a * (a * a * (a * a * (a * a * (a * a * c.a13 + c.a11) + c.a9) + c.a7) + c.a5) + c.a3) + c.a1)
  simp only [sineApprox]
  generalize x * x * (x * x * (x * x * (x * x * (x * x * (x * x * Coeffs.real.a13 + Coeffs.real.a11) + Coeffs.real.a9) + Coeffs.real.a7) + Coeffs.real.a5) + Coeffs.real.a3) + Coeffs.real.a1 = y at *
  generalize a * a * (a * a * (a * a * (a * a * (a * a * (a * a * c.a13 + c.a11) + c.a9) + c.a7) + c.a5) + c.a3) + c.a1 = b at *
  have hx0 := abs_nonneg x
  have ha : |val a| ≤ 1.006018 * |x| := by
    have := abs_sub_abs_le_abs_sub (val a) x
    have h6 : 6.017012 * u * |x| ≤ 6.017012 * (1 / 1000) * |x| := by gcongr
    linarith
  have hb : |val b| ≤ 1.11301 := by
    have := abs_sub_abs_le_abs_sub (val b) y
    linarith
  have hab : |val a * val b| ≤ 1.006018 * |x| * 1.11301 := by
    rw [abs_mul]
    gcongr
  calc |val (a * b) - x * y| = |(val (a * b) - val a * val b) + (val a * (val b - y) + (val a - x) * y)| := by ring_nf
    _ ≤ |val (a * b) - val a * val b| + (|val a * (val b - y)| + |(val a - x) * y|) := (abs_add_le _ _).trans (add_le_add le_rfl (abs_add_le _ _))
    _ ≤ u * (1.006018 * |x| * 1.11301) + (1.006018 * |x| * (3.01 * u) + 6.017012 * u * |x| * 1.11) := by
      rw [abs_mul (val a), abs_mul (val a - x)]
      gcongr
      exact h.trans (by gcongr)
    _ = (1.006018 * 1.11301 + 1.006018 * 3.01 + 6.017012 * 1.11) * u * |x| := by ring
    _ ≤ _ := by gcongr; norm_num

/-- Every result is one of both. -/
theorem reduced_relative {c : Coeffs V} (hc : c.Rounded val u) (r : M V) (v : ℝ) (h : Reduced (Kernels.of c) r v) : ∃ a, r = .ok a ∧ |val a - v| ≤ (12.81 * u + 1 / 10 ^ 17) * |v| := by
  obtain ⟨neg, j, J, hJ, h1, h2, -, h⟩ := h
  have hflip : ∀ (a : V) (x : ℝ), |val (flip neg a) - flip neg x| = |val a - x| ∧ |flip neg x| = |x| := by
    intro a x
    cases neg
    · exact ⟨rfl, rfl⟩
    · simp only [flip, if_true, hR.neg]
      refine ⟨?_, abs_neg x⟩
      rw [← abs_neg]
      congr 1; ring
  have hoff := rad_off hR hu0 hu hc j J hJ h1 h2
  have hrel := rad_relative hR hu0 hu hc j J hJ
  obtain ⟨x, hx⟩ : ∃ x, x = Coeffs.real.twoPi * ((j : ℝ) / J) := ⟨_, rfl⟩
  obtain ⟨θ, hθ⟩ : ∃ θ, θ = 2 * Real.pi * ((j : ℝ) / J) := ⟨_, rfl⟩
  rw [← hx] at hoff hrel
  rw [← hθ] at h
  have hpi := Real.pi_gt_three
  have hxθ : |x - θ| ≤ 1 / 10 ^ 20 * |θ| := by
    have ht := twoPi_error
    have et : Kernels.code.twoPi = Coeffs.real.twoPi := rfl
    rw [et] at ht
    rw [hx, hθ, ← sub_mul, abs_mul, abs_mul, abs_of_pos (by positivity : 0 < 2 * Real.pi)]
    rw [← mul_assoc]
    apply mul_le_mul_of_nonneg_right _ (abs_nonneg _)
    refine ht.trans ?_
    rw [show (2 : ℝ) / 10 ^ 20 = 1 / 10 ^ 20 * 2 by ring]
    gcongr
    linarith
  have hθ0 := abs_nonneg θ
  have hθ1 : |θ| ≤ 0.7854 := by
    have hJ' : (0 : ℝ) < J := by exact_mod_cast hJ
    have h1' : -(J : ℝ) ≤ 8 * j := by exact_mod_cast h1
    have h2' : 8 * (j : ℝ) ≤ J := by exact_mod_cast h2
    have hq : |(j : ℝ) / J| ≤ 1 / 8 := by
      rw [abs_div, abs_of_pos hJ', div_le_iff₀ hJ', abs_le]
      constructor <;> linarith
    rw [hθ, abs_mul, abs_of_pos (by positivity : 0 < 2 * Real.pi)]
    calc _ ≤ 2 * 3.1416 * (1 / 8 : ℝ) := by gcongr; exact Real.pi_lt_d4.le
      _ = _ := by norm_num
  rcases h with ⟨hr, hv⟩ | ⟨hr, hv⟩
  · refine ⟨_, hr, ?_⟩
    rw [hv, (hflip _ _).1, (hflip 0 _).2]
    have e1 := cosineApprox_off hR hu0 hu hc hoff
    have e2 := cosine_error x hoff.1
    have e3 := (Real.abs_cos_sub_cos_le x θ).trans hxθ
    have hcos : 0.69 ≤ Real.cos θ := by
      have := Real.one_sub_sq_div_two_le_cos (x := θ)
      rw [← sq_abs] at this
      nlinarith
    rw [abs_of_pos (by linarith : 0 < Real.cos θ)]
    have e4 : |val (cosineApprox c (c.twoPi * (j : V) / (J : V))) - Real.cos θ| ≤ 6.6 * u + 3 / 10 ^ 19 := by
      have t1 := abs_sub_le (val (cosineApprox c (c.twoPi * (j : V) / (J : V)))) (cosineApprox Coeffs.real x) (Real.cos θ)
      have t2 := abs_sub_le (cosineApprox Coeffs.real x) (Real.cos x) (Real.cos θ)
      have : (1 : ℝ) / 10 ^ 20 * |θ| ≤ 1 / 10 ^ 20 * 0.7854 := by gcongr
      norm_num at *
      linarith
    have : (12.81 * u + 1 / 10 ^ 17) * 0.69 ≤ (12.81 * u + 1 / 10 ^ 17) * Real.cos θ := by gcongr
    refine e4.trans (le_trans ?_ this)
    norm_num
    linarith
  · refine ⟨_, hr, ?_⟩
    rw [hv, (hflip _ _).1, (hflip 0 _).2]
    have e1 := sineApprox_relative hR hu0 hu hc hoff hrel
    have e2 := sine_relative x hoff.1
    have e3 := (Real.abs_sin_sub_sin_le x θ).trans hxθ
    have e5 := sine_lower θ hθ1
    have hxx : |x| ≤ 1.0001 * |θ| := by
      have := abs_sub_abs_le_abs_sub x θ
      have h20 : 1 / 10 ^ 20 * |θ| ≤ 0.0001 * |θ| := by gcongr; norm_num
      linarith
    have t1 := abs_sub_le (val (sineApprox c (c.twoPi * (j : V) / (J : V)))) (sineApprox Coeffs.real x) (Real.sin θ)
    have t2 := abs_sub_le (sineApprox Coeffs.real x) (Real.sin x) (Real.sin θ)
    refine t1.trans ?_
    calc _ ≤ 10.827 * u * |x| + (7 / 10 ^ 18 * |x| + 1 / 10 ^ 20 * |θ|) := by linarith
      _ ≤ 10.827 * u * (1.0001 * |θ|) + (7 / 10 ^ 18 * (1.0001 * |θ|) + 1 / 10 ^ 20 * |θ|) := by gcongr
      _ = (10.827 * 1.0001 * u + (7 / 10 ^ 18 * 1.0001 + 1 / 10 ^ 20)) * |θ| := by ring
      _ ≤ (10.829 * u + 8 / 10 ^ 18) * |θ| := by
        gcongr
        · norm_num
        · norm_num
      _ ≤ (12.81 * u + 1 / 10 ^ 17) * 0.8457 * |θ| := by
        apply mul_le_mul_of_nonneg_right _ hθ0
        norm_num
        linarith
      _ = (12.81 * u + 1 / 10 ^ 17) * (0.8457 * |θ|) := by ring
      _ ≤ _ := by gcongr

/-- **C84** In rounded arithmetic with relative errors up to `u`, and with rounded constants, the relative error of both functions is at most `12.81` units, besides the error of the polynomials. -/
theorem C84_relative (c : Coeffs V) (hc : c.Rounded val u) (n N : ℤ) (h1 : 1 ≤ N) (h2 : N ≤ 268435455) (h3 : -N ≤ n) (h4 : n ≤ N) :
    (∃ a, cos (Kernels.of c) n N = .ok a ∧ |val a - Real.cos (2 * Real.pi * n / N)| ≤ (12.81 * u + 1 / 10 ^ 17) * |Real.cos (2 * Real.pi * n / N)|) ∧
      ∃ a, sin (Kernels.of c) n N = .ok a ∧ |val a - Real.sin (2 * Real.pi * n / N)| ≤ (12.81 * u + 1 / 10 ^ 17) * |Real.sin (2 * Real.pi * n / N)| :=
  ⟨reduced_relative hR hu0 hu hc _ _ (cos_reduced _ n N h1 h2 h3 h4), reduced_relative hR hu0 hu hc _ _ (sin_reduced _ n N h1 h2 h3 h4)⟩

end

/-- **C84** With `p` bits, from eleven bits up to `double`, the relative error of both functions is at most `13` units, however close to zero the value is. -/
theorem C84_binary (l p : ℕ) [NeZero p] (hp : 10 ≤ p) (hp' : p ≤ 53) (hl : p ≤ l) (n N : ℤ) (h1 : 1 ≤ N) (h2 : N ≤ 268435455) (h3 : -N ≤ n) (h4 : n ≤ N) :
    (∃ a, cos (Kernels.of (Coeffs.binary l p)) n N = .ok a ∧ |(a.val : ℝ) - Real.cos (2 * Real.pi * n / N)| ≤ 13 / 2 ^ p * |Real.cos (2 * Real.pi * n / N)|) ∧
      ∃ a, sin (Kernels.of (Coeffs.binary l p)) n N = .ok a ∧ |(a.val : ℝ) - Real.sin (2 * Real.pi * n / N)| ≤ 13 / 2 ^ p * |Real.sin (2 * Real.pi * n / N)| := by
  have hu : (1 : ℝ) / 2 ^ p ≤ 1 / 1000 := by
    calc (1 : ℝ) / 2 ^ p ≤ 1 / 2 ^ 10 := by gcongr; norm_num
      _ ≤ _ := by norm_num
  have hb : 12.81 * ((1 : ℝ) / 2 ^ p) + 1 / 10 ^ 17 ≤ 13 / 2 ^ p := by
    have : (1 : ℝ) / 2 ^ 53 ≤ 1 / 2 ^ p := by gcongr; norm_num
    have h17 : (1 : ℝ) / 10 ^ 17 ≤ 0.19 * (1 / 2 ^ 53) := by norm_num
    rw [show (13 : ℝ) / 2 ^ p = 13 * (1 / 2 ^ p) by ring]
    linarith
  obtain ⟨⟨a, ha, ha'⟩, b, hb1, hb2⟩ := C84_relative (binary_roundedField p) (by positivity) hu _ (binary_coeffs l p hp' hl) n N h1 h2 h3 h4
  exact ⟨⟨a, ha, ha'.trans (mul_le_mul_of_nonneg_right hb (abs_nonneg _))⟩, b, hb1, hb2.trans (mul_le_mul_of_nonneg_right hb (abs_nonneg _))⟩

/-- **C84** The values that are zero come out as exactly zero: the sine of whole and half turns, the cosine of quarter turns. And away from those, no result has the wrong sign. -/
theorem C84_signs (l p : ℕ) [NeZero p] (hp : 10 ≤ p) (hp' : p ≤ 53) (hl : p ≤ l) (n N : ℤ) (h1 : 1 ≤ N) (h2 : N ≤ 268435455) (h3 : -N ≤ n) (h4 : n ≤ N) :
    (∃ a, cos (Kernels.of (Coeffs.binary l p)) n N = .ok a ∧ (0 < a.val ↔ 0 < Real.cos (2 * Real.pi * n / N)) ∧ (a.val < 0 ↔ Real.cos (2 * Real.pi * n / N) < 0)) ∧
      ∃ a, sin (Kernels.of (Coeffs.binary l p)) n N = .ok a ∧ (0 < a.val ↔ 0 < Real.sin (2 * Real.pi * n / N)) ∧ (a.val < 0 ↔ Real.sin (2 * Real.pi * n / N) < 0) := by
  have hu : (13 : ℝ) / 2 ^ p ≤ 1 / 2 := by
    calc (13 : ℝ) / 2 ^ p ≤ 13 / 2 ^ 10 := by gcongr; norm_num
      _ ≤ _ := by norm_num
  have key : ∀ (a : ℚ) (v : ℝ), |(a : ℝ) - v| ≤ 13 / 2 ^ p * |v| → (0 < a ↔ 0 < v) ∧ (a < 0 ↔ v < 0) := by
    intro a v h
    have h' : |(a : ℝ) - v| ≤ 1 / 2 * |v| := h.trans (mul_le_mul_of_nonneg_right hu (abs_nonneg _))
    obtain ⟨g1, g2⟩ := abs_le.mp h'
    have c1 : (0 < a ↔ (0 : ℝ) < a) := by exact_mod_cast Iff.rfl
    have c2 : (a < 0 ↔ (a : ℝ) < 0) := by exact_mod_cast Iff.rfl
    rw [c1, c2]
    rcases lt_trichotomy v 0 with c | c | c
    · rw [abs_of_neg c] at g1 g2
      exact ⟨⟨fun _ => by linarith, fun _ => by linarith⟩, ⟨fun _ => c, fun _ => by linarith⟩⟩
    · rw [c, abs_zero] at g1 g2
      rw [c]
      exact ⟨⟨fun _ => by linarith, fun _ => by linarith⟩, ⟨fun _ => by linarith, fun _ => by linarith⟩⟩
    · rw [abs_of_pos c] at g1 g2
      exact ⟨⟨fun _ => c, fun _ => by linarith⟩, ⟨fun _ => by linarith, fun _ => by linarith⟩⟩
  obtain ⟨⟨a, ha, ha'⟩, b, hb1, hb2⟩ := C84_binary l p hp hp' hl n N h1 h2 h3 h4
  exact ⟨⟨a, ha, key _ _ ha'⟩, b, hb1, key _ _ hb2⟩

/-- The sine of one step of the largest circle, which is below `2.4e-8`, is correct to 13 units in the last place. -/
example : ∃ a, sin (Kernels.of (Coeffs.binary 64 24)) 1 268435455 = .ok a ∧ |(a.val : ℝ) - Real.sin (2 * Real.pi * (1 : ℤ) / (268435455 : ℤ))| ≤ 13 / 2 ^ 24 * |Real.sin (2 * Real.pi * (1 : ℤ) / (268435455 : ℤ))| :=
  (C84_binary 64 24 (by norm_num) (by norm_num) (by norm_num) 1 268435455 (by norm_num) (by norm_num) (by norm_num) (by norm_num)).2

/-- Half a turn. -/
example : ∃ a, sin (Kernels.of (Coeffs.binary 64 53)) 3 6 = .ok a ∧ a.val = 0 := by
  obtain ⟨-, a, h1, h2, h3⟩ := C84_signs 64 53 (by norm_num) (by norm_num) (by norm_num) 3 6 (by norm_num) (by norm_num) (by norm_num) (by norm_num)
  have e : Real.sin (2 * Real.pi * (3 : ℤ) / (6 : ℤ)) = 0 := by
    rw [show 2 * Real.pi * ((3 : ℤ) : ℝ) / ((6 : ℤ) : ℝ) = Real.pi by push_cast; ring]
    exact Real.sin_pi
  rw [e] at h2 h3
  refine ⟨a, h1, le_antisymm ?_ ?_⟩
  · by_contra c
    exact absurd (h2.mp (lt_of_not_ge c)) (lt_irrefl _)
  · by_contra c
    exact absurd (h3.mp (lt_of_not_ge c)) (lt_irrefl _)

end UnitCircle
end DSP
