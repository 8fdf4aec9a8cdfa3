import Verif.Props.Resampler
import Verif.Props.Resampler2
import Verif.Spec.Kernel
import Verif.Props.Kaiser
import Verif.Props.NaturalSplineApprox
import Verif.Props.NaturalSplineSmooth
import Mathlib.Analysis.Calculus.ParametricIntervalIntegral
import Mathlib.Analysis.SpecialFunctions.Integrals.Basic
import Mathlib.Analysis.Real.Pi.Bounds

/-!
# C106: the filter of the resamplers is near to the windowed ideal low-pass filter
-/

namespace DSP
namespace Resampling

open Spec intervalIntegral

/-! ### The ideal low-pass filter -/

/-- `sin z / z` and its derivatives. -/
noncomputable def s0 (z : ℝ) : ℝ := ∫ t in (0 : ℝ)..1, Real.cos (z * t)
noncomputable def s1 (z : ℝ) : ℝ := ∫ t in (0 : ℝ)..1, -(t * Real.sin (z * t))
noncomputable def s2 (z : ℝ) : ℝ := ∫ t in (0 : ℝ)..1, -(t * (t * Real.cos (z * t)))

theorem s0_deriv (z : ℝ) : HasDerivAt s0 (s1 z) z :=
  (hasDerivAt_integral_of_dominated_loc_of_deriv_le (F := fun z t => Real.cos (z * t)) (F' := fun z t => -(t * Real.sin (z * t))) (bound := fun _ => 1) Filter.univ_mem
    (Filter.Eventually.of_forall fun z => (by fun_prop : Continuous fun t => Real.cos (z * t)).aestronglyMeasurable) ((by fun_prop : Continuous fun t => Real.cos (z * t)).intervalIntegrable _ _)
    (by fun_prop : Continuous fun t => -(t * Real.sin (z * t))).aestronglyMeasurable
    (MeasureTheory.ae_of_all _ fun t ht z _ => by
      rw [Set.uIoc_of_le zero_le_one] at ht
      rw [norm_neg, norm_mul, Real.norm_eq_abs, Real.norm_eq_abs, abs_of_pos ht.1]
      exact mul_le_one₀ ht.2 (abs_nonneg _) (Real.abs_sin_le_one _))
    (by simp) (MeasureTheory.ae_of_all _ fun t _ z _ => by
      have := (Real.hasDerivAt_cos (z * t)).comp z ((hasDerivAt_id z).mul_const t)
      refine this.congr_deriv ?_
      ring)).2

theorem s1_deriv (z : ℝ) : HasDerivAt s1 (s2 z) z :=
  (hasDerivAt_integral_of_dominated_loc_of_deriv_le (F := fun z t => -(t * Real.sin (z * t))) (F' := fun z t => -(t * (t * Real.cos (z * t)))) (bound := fun _ => 1) Filter.univ_mem
    (Filter.Eventually.of_forall fun z => (by fun_prop : Continuous fun t => -(t * Real.sin (z * t))).aestronglyMeasurable)
    ((by fun_prop : Continuous fun t => -(t * Real.sin (z * t))).intervalIntegrable _ _) (by fun_prop : Continuous fun t => -(t * (t * Real.cos (z * t)))).aestronglyMeasurable
    (MeasureTheory.ae_of_all _ fun t ht z _ => by
      rw [Set.uIoc_of_le zero_le_one] at ht
      rw [norm_neg, norm_mul, norm_mul, Real.norm_eq_abs, Real.norm_eq_abs, abs_of_pos ht.1]
      exact mul_le_one₀ ht.2 (mul_nonneg ht.1.le (abs_nonneg _)) (mul_le_one₀ ht.2 (abs_nonneg _) (Real.abs_cos_le_one _)))
    (by simp) (MeasureTheory.ae_of_all _ fun t _ z _ => by
      have := (((Real.hasDerivAt_sin (z * t)).comp z ((hasDerivAt_id z).mul_const t)).const_mul t).neg
      refine this.congr_deriv ?_
      ring)).2

theorem s0_le (z : ℝ) : |s0 z| ≤ 1 := by
  have := norm_integral_le_of_norm_le_const (a := (0 : ℝ)) (b := 1) (C := 1) (f := fun t => Real.cos (z * t)) (fun t _ => Real.abs_cos_le_one _)
  simpa [s0] using this

theorem s1_le (z : ℝ) : |s1 z| ≤ 1 / 2 := by
  have := norm_integral_le_of_norm_le (a := (0 : ℝ)) (b := 1) (μ := MeasureTheory.volume) (g := fun t => t) (f := fun t => -(t * Real.sin (z * t))) zero_le_one
    (MeasureTheory.ae_of_all _ fun t ht => by
      rw [norm_neg, norm_mul, Real.norm_eq_abs, Real.norm_eq_abs, abs_of_pos ht.1]
      exact mul_le_of_le_one_right ht.1.le (Real.abs_sin_le_one _)) (continuous_id.intervalIntegrable _ _)
  rw [integral_id] at this
  refine this.trans (by norm_num)

theorem s2_le (z : ℝ) : |s2 z| ≤ 1 / 3 := by
  have := norm_integral_le_of_norm_le (a := (0 : ℝ)) (b := 1) (μ := MeasureTheory.volume) (g := fun t => t ^ 2) (f := fun t => -(t * (t * Real.cos (z * t)))) zero_le_one
    (MeasureTheory.ae_of_all _ fun t ht => by
      rw [norm_neg, norm_mul, norm_mul, Real.norm_eq_abs, Real.norm_eq_abs, abs_of_pos ht.1, sq]
      exact mul_le_mul_of_nonneg_left (mul_le_of_le_one_right ht.1.le (Real.abs_cos_le_one _)) ht.1.le) ((continuous_pow 2).intervalIntegrable _ _)
  rw [integral_pow] at this
  refine this.trans (by norm_num)

theorem passBand_scale (c x : ℝ) : passBand 0 c x = 2 * c * s0 (2 * Real.pi * c * x) := by
  have := smul_integral_comp_mul_left (a := (0 : ℝ)) (b := 1) (fun t => Real.cos (2 * Real.pi * x * t)) c
  rw [mul_zero, mul_one, smul_eq_mul] at this
  have e : (fun t => Real.cos (2 * Real.pi * x * (c * t))) = fun t => Real.cos (2 * Real.pi * c * x * t) := by
    ext t
    congr 1
    ring
  beta_reduce at this
  rw [passBand, ← this, s0, e]
  ring

/-! ### The Kaiser window -/

/-- The series as a polynomial in the square of its argument, and its derivatives. -/
noncomputable def G (c s : ℝ) : ℝ := ∑ m ∈ Finset.range 35, c ^ m / (m.factorial : ℝ) ^ 2 * s ^ m
noncomputable def G1 (c s : ℝ) : ℝ := ∑ m ∈ Finset.range 35, c ^ m / (m.factorial : ℝ) ^ 2 * (m * s ^ (m - 1))
noncomputable def G2 (c s : ℝ) : ℝ := ∑ m ∈ Finset.range 35, c ^ m / (m.factorial : ℝ) ^ 2 * (m * ((m - 1 : ℕ) * s ^ (m - 1 - 1)))

theorem G_deriv (c s : ℝ) : HasDerivAt (G c) (G1 c s) s := HasDerivAt.fun_sum fun m _ => (hasDerivAt_pow m s).const_mul _

theorem G1_deriv (c s : ℝ) : HasDerivAt (G1 c) (G2 c s) s := HasDerivAt.fun_sum fun m _ => ((hasDerivAt_pow (m - 1) s).const_mul (m : ℝ)).const_mul _

theorem G_pos (c : ℝ) (hc : 0 ≤ c) : 1 ≤ G c 1 := by
  rw [G, Finset.sum_range_succ']
  have : 0 ≤ ∑ k ∈ Finset.range 34, c ^ (k + 1) / ((k + 1).factorial : ℝ) ^ 2 * (1 : ℝ) ^ (k + 1) := Finset.sum_nonneg fun k _ => by positivity
  simp at this ⊢
  linarith

theorem G_mono (c s : ℝ) (hc : 0 ≤ c) (h0 : 0 ≤ s) (h1 : s ≤ 1) : 0 ≤ G c s ∧ G c s ≤ G c 1 := by
  refine ⟨Finset.sum_nonneg fun m _ => by positivity, Finset.sum_le_sum fun m _ => ?_⟩
  gcongr

theorem G1_le (c s : ℝ) (hc : 0 ≤ c) (h0 : 0 ≤ s) (h1 : s ≤ 1) : 0 ≤ G1 c s ∧ G1 c s ≤ c * G c 1 := by
  refine ⟨Finset.sum_nonneg fun m _ => by positivity, ?_⟩
  rw [G1, Finset.sum_range_succ', G, Finset.sum_range_succ _ 34, mul_add, Finset.mul_sum]
  have h : ∀ k : ℕ, c ^ (k + 1) / ((k + 1).factorial : ℝ) ^ 2 * (((k + 1 : ℕ) : ℝ) * s ^ (k + 1 - 1)) ≤ c * (c ^ k / (k.factorial : ℝ) ^ 2 * 1 ^ k) := fun k => by
    have hf : (0 : ℝ) < k.factorial := by exact_mod_cast k.factorial_pos
    rw [Nat.factorial_succ, Nat.add_sub_cancel, one_pow, mul_one]
    have e : c ^ (k + 1) / (((k + 1) * k.factorial : ℕ) : ℝ) ^ 2 * (((k + 1 : ℕ) : ℝ) * s ^ k) = c * (c ^ k / (k.factorial : ℝ) ^ 2) * (s ^ k / (k + 1)) := by
      push_cast
      field_simp
      ring
    rw [e]
    refine mul_le_of_le_one_right (by positivity) ?_
    rw [div_le_one (by positivity)]
    have := pow_le_one₀ (n := k) h0 h1
    have : (0 : ℝ) ≤ k := by positivity
    linarith
  have h' := Finset.sum_le_sum fun k (_ : k ∈ Finset.range 34) => h k
  have h34 : 0 ≤ c * (c ^ 34 / ((34 : ℕ).factorial : ℝ) ^ 2 * 1 ^ 34) := by positivity
  simp only [Nat.cast_zero, zero_mul, mul_zero, add_zero]
  linarith

theorem G2_le (c s : ℝ) (hc : 0 ≤ c) (h0 : 0 ≤ s) (h1 : s ≤ 1) : 0 ≤ G2 c s ∧ G2 c s ≤ c ^ 2 / 2 * G c 1 := by
  refine ⟨Finset.sum_nonneg fun m _ => by positivity, ?_⟩
  rw [G2, Finset.sum_range_succ', Finset.sum_range_succ', G, Finset.sum_range_succ _ 34, Finset.sum_range_succ _ 33, mul_add, mul_add, Finset.mul_sum]
  have h : ∀ k : ℕ, c ^ (k + 1 + 1) / ((k + 1 + 1).factorial : ℝ) ^ 2 * (((k + 1 + 1 : ℕ) : ℝ) * (((k + 1 + 1 - 1 : ℕ) : ℝ) * s ^ (k + 1 + 1 - 1 - 1))) ≤ c ^ 2 / 2 * (c ^ k / (k.factorial : ℝ) ^ 2 * 1 ^ k) := fun k => by
    have hf : (0 : ℝ) < k.factorial := by exact_mod_cast k.factorial_pos
    rw [Nat.factorial_succ, Nat.factorial_succ, Nat.add_sub_cancel, Nat.add_sub_cancel, one_pow, mul_one]
    have e : c ^ (k + 1 + 1) / (((k + 1 + 1) * ((k + 1) * k.factorial) : ℕ) : ℝ) ^ 2 * (((k + 1 + 1 : ℕ) : ℝ) * (((k + 1 : ℕ) : ℝ) * s ^ k)) = c ^ 2 / 2 * (c ^ k / (k.factorial : ℝ) ^ 2) * (2 * s ^ k / ((k + 1) * (k + 2))) := by
      push_cast
      field_simp
      ring
    rw [e]
    refine mul_le_of_le_one_right (by positivity) ?_
    rw [div_le_one (by positivity)]
    have := pow_le_one₀ (n := k) h0 h1
    have : (0 : ℝ) ≤ k := by positivity
    nlinarith
  have h' := Finset.sum_le_sum fun k (_ : k ∈ Finset.range 33) => h k
  have h33 : 0 ≤ c ^ 2 / 2 * (c ^ 33 / ((33 : ℕ).factorial : ℝ) ^ 2 * 1 ^ 33) := by positivity
  have h34 : 0 ≤ c ^ 2 / 2 * (c ^ 34 / ((34 : ℕ).factorial : ℝ) ^ 2 * 1 ^ 34) := by positivity
  simp only [zero_add, Nat.cast_zero, Nat.cast_one, Nat.sub_self, zero_mul, mul_zero, add_zero]
  linarith

theorem partI0_G (a s : ℝ) (hs : 0 ≤ s) : Win.partI0 (Real.pi * a * Real.sqrt s) = G ((Real.pi * a / 2) ^ 2) s := by
  refine Finset.sum_congr rfl fun m _ => ?_
  rw [Win.term_eq, show (Real.pi * a * Real.sqrt s / 2) ^ 2 = (Real.pi * a / 2) ^ 2 * s by rw [mul_div_right_comm, mul_pow, Real.sq_sqrt hs], mul_pow]
  ring

/-- The window as a function of the offset from its middle, a polynomial, and its derivatives. -/
noncomputable def w0 (c v : ℝ) : ℝ := G c (1 - v ^ 2) / G c 1
noncomputable def w1 (c v : ℝ) : ℝ := G1 c (1 - v ^ 2) * -(2 * v) / G c 1
noncomputable def w2 (c v : ℝ) : ℝ := (G2 c (1 - v ^ 2) * -(2 * v) * -(2 * v) + G1 c (1 - v ^ 2) * -2) / G c 1

theorem inner_deriv (v : ℝ) : HasDerivAt (fun v : ℝ => 1 - v ^ 2) (-(2 * v)) v := by
  have := (hasDerivAt_pow 2 v).const_sub 1
  refine this.congr_deriv ?_
  simp

theorem w0_deriv (c v : ℝ) : HasDerivAt (w0 c) (w1 c v) v := ((G_deriv c _).comp v (inner_deriv v)).div_const _

theorem w1_deriv (c v : ℝ) : HasDerivAt (w1 c) (w2 c v) v := by
  have h : HasDerivAt (fun v : ℝ => -(2 * v)) (-2) v := by
    have := ((hasDerivAt_id v).const_mul 2).neg
    refine this.congr_deriv ?_
    simp
  exact ((((G1_deriv c _).comp v (inner_deriv v)).mul h)).div_const _

theorem w_bounds (c v : ℝ) (hc : 0 ≤ c) (hv : |v| ≤ 1) : |w0 c v| ≤ 1 ∧ |w1 c v| ≤ 2 * c ∧ |w2 c v| ≤ 2 * c + 2 * c ^ 2 := by
  have hv2 : v ^ 2 ≤ 1 := by rw [← sq_abs]; exact pow_le_one₀ (abs_nonneg _) hv
  have hv0 := sq_nonneg v
  have hG := G_pos c hc
  obtain ⟨a0, a1⟩ := G_mono c (1 - v ^ 2) hc (by linarith) (by linarith)
  obtain ⟨b0, b1⟩ := G1_le c (1 - v ^ 2) hc (by linarith) (by linarith)
  obtain ⟨d0, d1⟩ := G2_le c (1 - v ^ 2) hc (by linarith) (by linarith)
  simp only [w0, w1, w2]
  generalize G c (1 - v ^ 2) = g at *
  generalize G1 c (1 - v ^ 2) = g1 at *
  generalize G2 c (1 - v ^ 2) = g2 at *
  generalize G c 1 = g3 at *
  have hg : 0 < g3 := by linarith
  refine ⟨?_, ?_, ?_⟩
  · rw [abs_div, abs_of_pos hg, abs_of_nonneg a0, div_le_one hg]; exact a1
  · rw [abs_div, abs_of_pos hg, div_le_iff₀ hg, abs_mul, abs_neg, abs_mul, abs_of_nonneg b0, abs_of_pos (by norm_num : (0 : ℝ) < 2)]
    have : 2 * |v| ≤ 2 := by linarith
    calc g1 * (2 * |v|) ≤ (c * g3) * 2 := by gcongr
      _ = 2 * c * g3 := by ring
  · rw [abs_div, abs_of_pos hg, div_le_iff₀ hg, show g2 * -(2 * v) * -(2 * v) + g1 * -2 = 4 * (g2 * v ^ 2) - 2 * g1 by ring, abs_le]
    have e : g2 * v ^ 2 ≤ c ^ 2 / 2 * g3 * 1 := mul_le_mul d1 hv2 hv0 (by positivity)
    have e0 : 0 ≤ g2 * v ^ 2 := by positivity
    have e1 : 0 ≤ c ^ 2 * g3 := by positivity
    have e2 : 0 ≤ c * g3 := by positivity
    constructor <;> nlinarith

/-- The window of the code against the one with Bessel functions. -/
theorem w0_bessel (a v : ℝ) (ha : |a| ≤ 3) (hv : |v| ≤ 1) : |w0 ((Real.pi * a / 2) ^ 2) v - besselI0 (Real.pi * a * Real.sqrt (1 - v ^ 2)) / besselI0 (Real.pi * a)| ≤ 1 / 10 ^ 32 := by
  have hv2 : v ^ 2 ≤ 1 := by rw [← sq_abs]; exact pow_le_one₀ (abs_nonneg _) hv
  have hv0 := sq_nonneg v
  have e1 := partI0_G a 1 zero_le_one
  rw [Real.sqrt_one, mul_one] at e1
  rw [w0, ← e1, ← partI0_G a _ (by linarith)]
  refine Win.ratio_accuracy _ _ ?_ ?_
  · rw [abs_mul, abs_of_nonneg (Real.sqrt_nonneg _)]
    have : Real.sqrt (1 - v ^ 2) ≤ 1 := by rw [Real.sqrt_le_one]; linarith
    exact mul_le_of_le_one_right (abs_nonneg _) this
  · rw [abs_mul, abs_of_pos Real.pi_pos]; nlinarith [Real.pi_pos]

/-! ### Their product -/

/-- Three factors that bound the second derivative. -/
theorem product_bound {C α β q A0 A1 A2 B0 B1 B2 : ℝ} (hq : 0 ≤ q) (h0 : |A0| ≤ 1) (h1 : |A1| ≤ 1 / 2) (h2 : |A2| ≤ 1 / 3) (k0 : |B0| ≤ 1) (k1 : |B1| ≤ α) (k2 : |B2| ≤ β) (z : ℝ) :
    |C * (A2 * z * z * B0 + A1 * z * (B1 * q) + (A1 * z * (B1 * q) + A0 * (B2 * q * q)))| ≤ |C| * (z ^ 2 / 3 + |z| * α * q + β * q ^ 2) := by
  have hz := abs_nonneg z
  rw [abs_mul]
  refine mul_le_mul_of_nonneg_left ?_ (abs_nonneg _)
  have e1 : |A2 * z * z * B0| ≤ 1 / 3 * |z| * |z| * 1 := by
    rw [abs_mul, abs_mul, abs_mul]; gcongr
  have e2 : |A1 * z * (B1 * q)| ≤ 1 / 2 * |z| * (α * q) := by
    rw [abs_mul, abs_mul, abs_mul, abs_of_nonneg hq]
    have : 0 ≤ α := (abs_nonneg _).trans k1
    gcongr
  have e3 : |A0 * (B2 * q * q)| ≤ 1 * (β * q * q) := by
    rw [abs_mul, abs_mul, abs_mul, abs_of_nonneg hq]
    have : 0 ≤ β := (abs_nonneg _).trans k2
    gcongr
  have t1 := abs_add_le (A2 * z * z * B0 + A1 * z * (B1 * q)) (A1 * z * (B1 * q) + A0 * (B2 * q * q))
  have t2 := abs_add_le (A2 * z * z * B0) (A1 * z * (B1 * q))
  have t3 := abs_add_le (A1 * z * (B1 * q)) (A0 * (B2 * q * q))
  rw [← sq_abs z]
  nlinarith

section
variable (TAPS OVER : ℕ) (hT : 1 ≤ TAPS) (hO : 1 ≤ OVER) (hK : 2 ≤ TAPS * OVER) (hK2 : TAPS * OVER ≤ 1073741824)

include hO hK in
theorem length_pos : (0 : ℝ) < TAPS - 1 / OVER := by
  have hO' : (0 : ℝ) < OVER := by exact_mod_cast hO
  have hK' : (2 : ℝ) ≤ TAPS * OVER := by exact_mod_cast hK
  rw [sub_pos, div_lt_iff₀ hO']
  linarith

include hO hK hK2 in
/-- A natural spline through the points of the windowed filter is near to it. -/
theorem kernel_near (γ α : ℝ) (hα : |α| ≤ 3) (w : ℤ → ℝ) (hw : ∀ n : ℤ, 0 ≤ n → n < (TAPS * OVER : ℕ) → Win.kaiser α n (TAPS * OVER : ℕ) = .ok (w n)) (S : ℝ → ℝ)
    (hS : IsNaturalSpline (TAPS * OVER) (fun n => passBand 0 γ ((n : ℝ) / OVER - ((TAPS : ℝ) - 1) / 2) * w n) S) (x : ℝ) (x0 : 0 ≤ x) (x1 : x ≤ TAPS - 1 / OVER) :
    |S (x * OVER) - kernel TAPS OVER γ α x| ≤ kernelError TAPS OVER γ α := by
  have hO' : (0 : ℝ) < OVER := by exact_mod_cast hO
  have hL := length_pos TAPS OVER hO hK
  obtain ⟨L, hLd⟩ : ∃ L : ℝ, L = TAPS - 1 / OVER := ⟨_, rfl⟩
  rw [← hLd] at hL
  have hKL : ((TAPS * OVER : ℕ) : ℝ) - 1 = L * OVER := by
    rw [hLd, sub_mul, div_mul_cancel₀ _ hO'.ne']; push_cast; ring
  obtain ⟨c, hc⟩ : ∃ c : ℝ, c = (Real.pi * α / 2) ^ 2 := ⟨_, rfl⟩
  have hc0 : 0 ≤ c := by rw [hc]; positivity
  -- the function the points are from, and its derivatives
  obtain ⟨z, hz⟩ : ∃ z : ℝ, z = 2 * Real.pi * γ := ⟨_, rfl⟩
  obtain ⟨m, hm⟩ : ∃ m : ℝ, m = ((TAPS : ℝ) - 1) / 2 := ⟨_, rfl⟩
  obtain ⟨q, hq⟩ : ∃ q : ℝ, q = 2 / L := ⟨_, rfl⟩
  have hq0 : 0 ≤ q := by rw [hq]; positivity
  have dA : ∀ x : ℝ, HasDerivAt (fun x => s0 (z * (x - m))) (s1 (z * (x - m)) * z) x := fun x => by
    refine ((s0_deriv _).comp x (((hasDerivAt_id x).sub_const m).const_mul z)).congr_deriv ?_
    simp
  have dA1 : ∀ x : ℝ, HasDerivAt (fun x => s1 (z * (x - m)) * z) (s2 (z * (x - m)) * z * z) x := fun x => by
    refine (((s1_deriv _).comp x (((hasDerivAt_id x).sub_const m).const_mul z)).mul_const z).congr_deriv ?_
    simp
  have dB : ∀ x : ℝ, HasDerivAt (fun x => w0 c (q * x - 1)) (w1 c (q * x - 1) * q) x := fun x => by
    refine ((w0_deriv c _).comp x (((hasDerivAt_id x).const_mul q).sub_const 1)).congr_deriv ?_
    simp
  have dB1 : ∀ x : ℝ, HasDerivAt (fun x => w1 c (q * x - 1) * q) (w2 c (q * x - 1) * q * q) x := fun x => by
    refine (((w1_deriv c _).comp x (((hasDerivAt_id x).const_mul q).sub_const 1)).mul_const q).congr_deriv ?_
    simp
  have dF : ∀ x : ℝ, HasDerivAt (fun x => 2 * γ * (s0 (z * (x - m)) * w0 c (q * x - 1))) (2 * γ * (s1 (z * (x - m)) * z * w0 c (q * x - 1) + s0 (z * (x - m)) * (w1 c (q * x - 1) * q))) x :=
    fun x => ((dA x).mul (dB x)).const_mul _
  have dF1 : ∀ x : ℝ, HasDerivAt (fun x => 2 * γ * (s1 (z * (x - m)) * z * w0 c (q * x - 1) + s0 (z * (x - m)) * (w1 c (q * x - 1) * q)))
      (2 * γ * (s2 (z * (x - m)) * z * z * w0 c (q * x - 1) + s1 (z * (x - m)) * z * (w1 c (q * x - 1) * q) + (s1 (z * (x - m)) * z * (w1 c (q * x - 1) * q) + s0 (z * (x - m)) * (w2 c (q * x - 1) * q * q)))) x :=
    fun x => (((dA1 x).mul (dB x)).add ((dA x).mul (dB1 x))).const_mul _
  -- the offset of the window
  have hv : ∀ x : ℝ, 0 ≤ x → x ≤ L → |q * x - 1| ≤ 1 := fun x a b => by
    have e : q * x = 2 * (x / L) := by rw [hq]; ring
    have g0 : 0 ≤ x / L := by positivity
    have g1 : x / L ≤ 1 := (div_le_one hL).mpr b
    rw [e, abs_le]
    constructor <;> linarith
  -- the points
  have hy : ∀ n : ℕ, n < TAPS * OVER → passBand 0 γ ((n : ℝ) / OVER - ((TAPS : ℝ) - 1) / 2) * w n = 2 * γ * (s0 (z * ((n : ℝ) / OVER - m)) * w0 c (q * ((n : ℝ) / OVER) - 1)) := fun n hn => by
    have e := hw n (by omega) (by exact_mod_cast hn)
    rw [Win.kaiser_ok α n (TAPS * OVER : ℕ) (by omega) (by omega) (by omega) (by exact_mod_cast hn)] at e
    have e' := Except.ok.inj e
    have ho : Win.offset n (TAPS * OVER : ℕ) = q * ((n : ℝ) / OVER) - 1 := by
      have : (((TAPS * OVER : ℕ) : ℤ) - 1 : ℤ) = (((TAPS * OVER : ℕ) : ℝ) - 1) := by push_cast; ring
      rw [Win.offset, this, hKL, hq]
      push_cast
      field_simp
    have hn' : (n : ℝ) ≤ L * OVER := by
      rw [← hKL]
      have : (n : ℝ) + 1 ≤ (TAPS * OVER : ℕ) := by exact_mod_cast hn
      linarith
    have hv' := hv ((n : ℝ) / OVER) (by positivity) (by rw [div_le_iff₀ hO']; exact hn')
    have hv2 : (q * ((n : ℝ) / OVER) - 1) ^ 2 ≤ 1 := by rw [← sq_abs]; exact pow_le_one₀ (abs_nonneg _) hv'
    have e1 := partI0_G α 1 zero_le_one
    rw [Real.sqrt_one, mul_one, ← hc] at e1
    rw [← e', Win.kaiserArg, ho, partI0_G α _ (by linarith), ← hc, e1, passBand_scale, ← hz, ← hm, w0]
    ring
  have hS' : S = NaturalSpline.S (fun n : ℕ => 2 * γ * (s0 (z * ((n : ℝ) / OVER - m)) * w0 c (q * ((n : ℝ) / OVER) - 1))) (TAPS * OVER) :=
    NaturalSpline.C91_unique (TAPS * OVER) hK _ _ _ ⟨fun i hi => by rw [hS.knots i hi]; exact hy i hi, hS.smooth, hS.cubic⟩ (NaturalSpline.S_natural _ _ hK)
  obtain ⟨B, hB⟩ : ∃ B : ℝ, B = 2 * |γ| * (z ^ 2 / 3 + |z| * (2 * c) * q + (2 * c + 2 * c ^ 2) * q ^ 2) := ⟨_, rfl⟩
  have dx : ∀ t : ℝ, HasDerivAt (fun t : ℝ => t / OVER) (1 / OVER) t := fun t => (hasDerivAt_id t).div_const _
  have main := NaturalSpline.S_second (fun n : ℕ => 2 * γ * (s0 (z * ((n : ℝ) / OVER - m)) * w0 c (q * ((n : ℝ) / OVER) - 1))) (TAPS * OVER)
    (fun t => 2 * γ * (s0 (z * (t / OVER - m)) * w0 c (q * (t / OVER) - 1)))
    (fun t => 2 * γ * (s1 (z * (t / OVER - m)) * z * w0 c (q * (t / OVER) - 1) + s0 (z * (t / OVER - m)) * (w1 c (q * (t / OVER) - 1) * q)) * (1 / OVER))
    (fun t => 2 * γ * (s2 (z * (t / OVER - m)) * z * z * w0 c (q * (t / OVER) - 1) + s1 (z * (t / OVER - m)) * z * (w1 c (q * (t / OVER) - 1) * q) +
      (s1 (z * (t / OVER - m)) * z * (w1 c (q * (t / OVER) - 1) * q) + s0 (z * (t / OVER - m)) * (w2 c (q * (t / OVER) - 1) * q * q))) * (1 / OVER) * (1 / OVER))
    (fun _ _ => rfl) (fun t _ _ => HasDerivAt.comp (h := fun t : ℝ => t / OVER) t (dF (t / OVER)) (dx t)) (fun t _ _ => (HasDerivAt.comp (h := fun t : ℝ => t / OVER) t (dF1 (t / OVER)) (dx t)).mul_const _) hK (B / OVER ^ 2) (fun t a b => by
      rw [hKL] at b
      obtain ⟨b0, b1, b2⟩ := w_bounds c (q * (t / OVER) - 1) hc0 (hv _ (by positivity) (by rw [div_le_iff₀ hO']; exact b))
      have := product_bound (C := 2 * γ) hq0 (s0_le (z * (t / OVER - m))) (s1_le (z * (t / OVER - m))) (s2_le (z * (t / OVER - m))) b0 b1 b2 z
      rw [abs_mul 2 γ, abs_of_pos (by norm_num : (0 : ℝ) < 2), ← hB] at this
      rw [abs_mul, abs_mul, abs_of_pos (by positivity : (0 : ℝ) < 1 / OVER), mul_assoc, show (1 : ℝ) / OVER * (1 / OVER) = 1 / OVER ^ 2 by field_simp, mul_one_div]
      gcongr) (x * OVER) (by positivity) (by rw [hKL, hLd]; gcongr)
  rw [← hS', mul_div_assoc, div_self hO'.ne', mul_one] at main
  have hb := w0_bessel α (q * x - 1) hα (hv x x0 (by rw [hLd]; exact x1))
  have hk : kernel TAPS OVER γ α x = 2 * γ * (s0 (z * (x - m)) * (besselI0 (Real.pi * α * Real.sqrt (1 - (q * x - 1) ^ 2)) / besselI0 (Real.pi * α))) := by
    rw [kernel, passBand_scale, ← hLd, ← hz, ← hm, hq, show 2 * x / L = 2 / L * x by ring]
    ring
  rw [← hc] at hb
  rw [hk]
  generalize besselI0 (Real.pi * α * Real.sqrt (1 - (q * x - 1) ^ 2)) / besselI0 (Real.pi * α) = b at *
  have e1 : |2 * γ * (s0 (z * (x - m)) * w0 c (q * x - 1)) - 2 * γ * (s0 (z * (x - m)) * b)| ≤ 2 * |γ| * (1 / 10 ^ 32) := by
    rw [← mul_sub, ← mul_sub, abs_mul, abs_mul 2, abs_of_pos (by norm_num : (0 : ℝ) < 2), abs_mul]
    refine mul_le_mul_of_nonneg_left ?_ (by positivity)
    calc _ ≤ 1 * (1 / 10 ^ 32 : ℝ) := mul_le_mul (s0_le _) hb (abs_nonneg _) zero_le_one
      _ = _ := one_mul _
  have e2 : kernelError TAPS OVER γ α = B / OVER ^ 2 / 2 + 2 * |γ| * (1 / 10 ^ 32) := by
    have hza : |z| = 2 * Real.pi * |γ| := by rw [hz, abs_mul, abs_of_pos (by positivity)]
    rw [kernelError, hB, hza, hz, hc, hq, ← hLd]
    field_simp
  rw [e2]
  have := abs_sub_le (S (x * OVER)) (2 * γ * (s0 (z * (x - m)) * w0 c (q * x - 1))) (2 * γ * (s0 (z * (x - m)) * b))
  linarith

include hO hK hK2 in
/-- **C106** The filter of both resamplers: between its first and its last point it is near to the ideal low-pass filter, weighted by the Kaiser window. -/
theorem C106_kernel (rate cutoff alpha : ℝ) (hr : rate ≠ 0) (ha : |alpha| ≤ 3) (tmp junk : List ℝ) (ht : tmp.length = TAPS * OVER) (hj : junk.length = TAPS * OVER - 1) :
    ∃ s, lpf TAPS OVER rate cutoff alpha tmp junk = .ok s ∧ ∀ x : ℝ, 0 ≤ x → x ≤ TAPS - 1 / OVER →
      ∃ v, s.call (TAPS * OVER) x = .ok v ∧ |v - kernel TAPS OVER (cutoff / rate) alpha x| ≤ kernelError TAPS OVER (cutoff / rate) alpha := by
  obtain ⟨s, w, S, e, -, hk, hS, hc⟩ := lpf_ok TAPS OVER hO hK hK2 rate cutoff alpha hr tmp junk ht hj
  refine ⟨s, e, fun x x0 x1 => ⟨_, hc x ?_, kernel_near TAPS OVER hO hK hK2 _ alpha ha w hk S hS x x0 x1⟩⟩
  have hO' : (0 : ℝ) < OVER := by exact_mod_cast hO
  have hK' : (TAPS : ℝ) * OVER ≤ 1073741824 := by exact_mod_cast hK2
  have : x * OVER ≤ (TAPS - 1 / OVER) * OVER := by gcongr
  rw [sub_mul, div_mul_cancel₀ _ hO'.ne'] at this
  rw [abs_of_nonneg (by positivity)]
  linarith

/-- Sums with weights that are near to each other; the first weight does not matter if the first number is zero. -/
theorem weights_near (n : ℕ) (L k u : ℕ → ℝ) (E : ℝ) (h : ∀ s < n, |L s - k s| ≤ E ∨ u s = 0) : |∑ s ∈ Finset.range n, L s • u s - ∑ s ∈ Finset.range n, k s * u s| ≤ E * ∑ s ∈ Finset.range n, |u s| := by
  rw [← Finset.sum_sub_distrib, Finset.mul_sum]
  refine (Finset.abs_sum_le_sum_abs _ _).trans (Finset.sum_le_sum fun s hs => ?_)
  rw [smul_eq_mul, ← sub_mul, abs_mul]
  rcases h s (Finset.mem_range.mp hs) with c | c
  · gcongr
  · simp [c]

include hO in
/-- Offsets of up to half a sample stay between the first and the last point, except for the first sample. -/
theorem offset_inside (hO2 : 2 ≤ OVER) (s : ℕ) (hs : s < TAPS) (d : ℝ) (h0 : 0 ≤ d ∨ 1 ≤ s) (hd : |d| ≤ 1 / 2) : 0 ≤ s + d ∧ s + d ≤ TAPS - 1 / OVER := by
  obtain ⟨a, b⟩ := abs_le.mp hd
  have hs' : (s : ℝ) + 1 ≤ TAPS := by exact_mod_cast hs
  have hO' : (2 : ℝ) ≤ OVER := by exact_mod_cast hO2
  have e : (1 : ℝ) / OVER ≤ 1 / 2 := by gcongr
  have s0 : (0 : ℝ) ≤ s := by positivity
  constructor
  · rcases h0 with c | c
    · positivity
    · have : (1 : ℝ) ≤ s := by exact_mod_cast c
      linarith
  · linarith

end

end Resampling

open Spec Resampling

variable (TAPS OVER : ℕ) (hT : 1 ≤ TAPS) (hO : 2 ≤ OVER) (hK2 : TAPS * OVER ≤ 1073741824) (rate cutoff alpha : ℝ) (hr : rate ≠ 0) (ha : |alpha| ≤ 3)
  (tmp junk buf : List ℝ) (ht : tmp.length = TAPS * OVER) (hj : junk.length = TAPS * OVER - 1) (hbuf : buf.length = TAPS)

namespace Resampler2

include hT hO hK2 hr ha ht hj hbuf in
/-- **C106** The streaming resampler: each output is near to what the windowed ideal low-pass filter makes of the last `TAPS` inputs around its position `P o`, unless the position is behind the nearest input
and the oldest of them is not zero. -/
theorem C106_stream (fuel B : ℕ) (hf : B ≤ fuel) (x : ℕ → ℝ) (bufs : ℕ → List ℝ) (hlen : ∀ t, B ≤ (bufs t).length) (diff : ℕ → ℝ) (hd : ∀ t, diff t / rate < 1)
    (hB : ∀ t, 1 ≤ B * (1 - diff t / rate)) (D : ℝ) (hD : ∀ t, -D ≤ diff t / rate) (hD0 : 0 ≤ D) :
    ∃ r, make TAPS OVER rate cutoff alpha tmp junk buf = .ok r ∧
      ∀ T, ∃ (r' : Resampler2 ℝ) (ys : List (List ℝ × ℕ)) (N : ℕ → ℕ) (P : ℕ → ℝ), run (step TAPS OVER fuel) r ((List.range T).map fun (t : ℕ) => (bufs t, x t, diff t)) = .ok (r', ys) ∧ P 0 = 0 ∧
        ∀ o < (produced ys).length, P (o + 1) = P o + (1 - diff (N o) / rate) ∧ |(N o : ℝ) - P o| ≤ 1 / 2 ∧ ∃ v, (produced ys)[o]? = some v ∧
          (P o ≤ N o ∨ past x ((N o : ℤ) - (TAPS - 1)) = 0 →
            |v - ∑ s ∈ Finset.range TAPS, kernel TAPS OVER (cutoff / rate) alpha (s + (N o - P o)) * past x ((N o : ℤ) - (TAPS - 1) + s)| ≤
              kernelError TAPS OVER (cutoff / rate) alpha * ∑ s ∈ Finset.range TAPS, |past x ((N o : ℤ) - (TAPS - 1) + s)|) := by
  have hK : 2 ≤ TAPS * OVER := by nlinarith
  obtain ⟨r, w, S, e, -, hk, hS, H⟩ := C60_positions TAPS OVER hT (by omega) hK hK2 rate cutoff alpha hr tmp junk buf ht hj hbuf fuel B hf x bufs hlen diff hd hB D hD hD0
  refine ⟨r, e, fun T => ?_⟩
  obtain ⟨r', ys, N, P, e', R, -⟩ := H T
  refine ⟨r', ys, N, P, e', R.start, fun o ho => ⟨R.next o ho, (R.near o ho).2, _, R.out o ho, fun h => ?_⟩⟩
  refine weights_near TAPS (fun s => S ((s + (N o - P o)) * OVER)) (fun s => kernel TAPS OVER (cutoff / rate) alpha (s + (N o - P o))) (fun s => past x ((N o : ℤ) - (TAPS - 1) + s)) _ fun s hs => ?_
  by_cases c : P o ≤ N o ∨ 1 ≤ s
  · obtain ⟨i0, i1⟩ := offset_inside TAPS OVER (by omega) hO s hs (N o - P o) (c.imp (fun c => by linarith) id) (R.near o ho).2
    exact Or.inl (kernel_near TAPS OVER (by omega) hK hK2 _ alpha ha w hk S hS _ i0 i1)
  · have hs0 : s = 0 := by by_contra g; exact c (Or.inr (by omega))
    rcases h with h | h
    · exact absurd (Or.inl h) c
    · exact Or.inr (by rw [hs0]; simpa using h)

end Resampler2

namespace Resampler

include hT hO hK2 hr ha ht hj in
/-- **C106** The block resampler: an element of the output that is set is near to what the windowed ideal low-pass filter makes of the `TAPS` inputs from the one nearest to its position, unless the position is
behind this one and this one is not zero. -/
theorem C106_block : ∃ r, make TAPS OVER rate cutoff alpha tmp junk = .ok r ∧
      ∀ (diff : ℝ) (_ : rate + diff ≠ 0) (samples stride : ℤ) (_ : 0 ≤ samples) (_ : 1 ≤ stride) (_ : samples * stride ≤ 2147483647)
        (_ : |samples * (rate / (rate + diff))| ≤ 1073741823) (input output : List ℝ) (u : ℤ → ℝ)
        (_ : ∀ s, 0 ≤ s → s < samples → input[(s * stride).toNat]? = some (u s)) (_ : output.length = samples * stride),
        ∃ output', r.call TAPS OVER output input diff samples stride = .ok output' ∧
          ∀ i : ℕ, (i : ℤ) < samples - TAPS → ∃ s0 : ℤ, |i * (rate / (rate + diff)) - s0| ≤ 1 / 2 ∧ (0 ≤ s0 ∧ s0 + TAPS ≤ samples → ∃ v,
            output'[((i + ((TAPS - 1) / 2 : ℕ)) * stride).toNat]? = some v ∧ (i * (rate / (rate + diff)) ≤ s0 ∨ u s0 = 0 →
              |v - ∑ s ∈ Finset.range TAPS, kernel TAPS OVER (cutoff / rate) alpha (s0 + s - i * (rate / (rate + diff))) * u (s0 + s)| ≤
                kernelError TAPS OVER (cutoff / rate) alpha * ∑ s ∈ Finset.range TAPS, |u (s0 + s)|)) := by
  have hK : 2 ≤ TAPS * OVER := by nlinarith
  obtain ⟨r, w, S, e, -, hk, hS, H⟩ := C61_block (A := ℝ) TAPS OVER hT (by omega) hK hK2 rate cutoff alpha hr tmp junk ht hj
  refine ⟨r, e, fun diff h1 samples stride h2 h3 h4 h5 input output u h6 h7 => ?_⟩
  obtain ⟨output', e', -, -, R⟩ := H diff h1 samples stride h2 h3 h4 h5 input output u h6 h7
  refine ⟨output', e', fun i hi => ?_⟩
  obtain ⟨s0, near, hv⟩ := R i hi
  refine ⟨s0, near, fun hs => ⟨_, by rw [hv, if_pos hs], fun h => ?_⟩⟩
  refine weights_near TAPS (fun s => S ((s0 + s - i * (rate / (rate + diff))) * OVER)) (fun s => kernel TAPS OVER (cutoff / rate) alpha (s0 + s - i * (rate / (rate + diff)))) (fun s => u (s0 + s)) _ fun s hs => ?_
  by_cases c : i * (rate / (rate + diff)) ≤ s0 ∨ 1 ≤ s
  · obtain ⟨i0, i1⟩ := offset_inside TAPS OVER (by omega) hO s hs (s0 - i * (rate / (rate + diff))) (c.imp (fun c => by linarith) id) (by rw [abs_sub_comm]; exact near)
    have e : (s0 : ℝ) + s - i * (rate / (rate + diff)) = s + (s0 - i * (rate / (rate + diff))) := by ring
    simp only [e]
    exact Or.inl (kernel_near TAPS OVER (by omega) hK hK2 _ alpha ha w hk S hS _ i0 i1)
  · have hs0 : s = 0 := by by_contra g; exact c (Or.inr (by omega))
    rcases h with h | h
    · exact absurd (Or.inl h) c
    · exact Or.inr (by rw [hs0]; simpa using h)

end Resampler

/-- With 33 taps, 128 points per tap, the cutoff frequency at 45% of the rate and the parameter 2 the filter is within `2·10^-4` of the windowed ideal one. -/
example : kernelError 33 128 0.45 2 ≤ 0.0002 := by
  have hp : 0 < Real.pi := Real.pi_pos
  have h1 := Real.pi_lt_d2
  have h2 : Real.pi ^ 2 ≤ 9.9225 := by nlinarith
  have h3 : Real.pi ^ 3 ≤ 31.3 := by nlinarith
  have h4 : Real.pi ^ 4 ≤ 98.5 := by nlinarith
  rw [kernelError, abs_of_pos (by norm_num)]
  norm_num
  nlinarith

/-- Such a resampler, with the rate 48000 and a difference of one, and the sine as its input. -/
example : ∃ r : Resampler2 ℝ, Resampler2.make 33 128 48000 21600 2 (List.replicate 4224 7) (List.replicate 4223 8) (List.replicate 33 9) = .ok r ∧
    ∀ T : ℕ, ∃ r' ys, run (Resampler2.step 33 128 2) r ((List.range T).map fun (t : ℕ) => ([5, 6], Real.sin t, 1)) = .ok (r', ys) := by
  obtain ⟨r, e, H⟩ := Resampler2.C106_stream 33 128 (by norm_num) (by norm_num) (by norm_num) 48000 21600 2 (by norm_num) (by norm_num) (List.replicate 4224 7) (List.replicate 4223 8) (List.replicate 33 9)
    (List.length_replicate ..) (List.length_replicate ..) (List.length_replicate ..) 2 2 (by norm_num) (fun t => Real.sin t) (fun _ => [5, 6]) (fun _ => le_rfl) (fun _ => 1) (fun _ => by norm_num) (fun _ => by norm_num) 1 (fun _ => by norm_num) (by norm_num)
  refine ⟨r, e, fun T => ?_⟩
  obtain ⟨r', ys, N, P, e', -⟩ := H T
  exact ⟨r', ys, e'⟩

end DSP
