import Verif.Props.Biquad
import Mathlib.RingTheory.RootsOfUnity.Complex
import Mathlib.FieldTheory.KummerExtension

/-!
# Cascaded biquad filters are Butterworth filters (C49)
-/

namespace DSP
namespace BiquadCascade

open Filter Topology

/-- The response of a cascade: the product of the responses of its filters. -/
noncomputable def response {E : Type} (c : BiquadCascade ℝ E) (w : ℝ) : ℂ := (c.map fun f => f.response w).prod

/-- The roots of `v^n + 1`. -/
theorem roots_prod (n : ℕ) (hn : 0 < n) (v : ℂ) :
    v ^ n + 1 = ∏ k ∈ Finset.range n, (v - Complex.exp (((Real.pi * (2 * k + 1) / n : ℝ) : ℂ) * Complex.I)) := by
  have hz := Complex.isPrimitiveRoot_exp n hn.ne'
  have hn' : (n : ℂ) ≠ 0 := by exact_mod_cast hn.ne'
  have ha : Complex.exp (Real.pi * Complex.I / n) ^ n = -1 := by
    rw [← Complex.exp_nat_mul, mul_div_cancel₀ _ hn', Complex.exp_pi_mul_I]
  have h := congrArg (Polynomial.eval v) (X_pow_sub_C_eq_prod hz hn ha)
  rw [Polynomial.eval_prod] at h
  simp only [Polynomial.eval_sub, Polynomial.eval_pow, Polynomial.eval_X, Polynomial.eval_C, sub_neg_eq_add] at h
  rw [h]
  refine Finset.prod_congr rfl fun k _ => ?_
  rw [← Complex.exp_nat_mul, ← Complex.exp_add]
  congr 2
  push_cast
  field_simp

/-- The denominators of a Butterworth filter multiply to `1 + v^(2 N)`. -/
theorem butterworth_prod (N : ℕ) (hN : 0 < N) (v : ℝ) :
    ∏ i ∈ Finset.range N, (1 + 2 * v * Real.cos (Real.pi * (2 * i + 1) / (2 * N)) + v ^ 2) = 1 + v ^ (2 * N) := by
  have hN' : (N : ℝ) ≠ 0 := by exact_mod_cast hN.ne'
  have h := roots_prod (2 * N) (by omega) (-v)
  rw [two_mul, Finset.prod_range_add, ← Finset.prod_range_reflect (fun x => _ - Complex.exp (((Real.pi * (2 * (N + x : ℕ) + 1) / _ : ℝ) : ℂ) * _)),
    ← Finset.prod_mul_distrib, ← two_mul] at h
  have h2 : ((∏ i ∈ Finset.range N, (1 + 2 * v * Real.cos (Real.pi * (2 * i + 1) / (2 * N)) + v ^ 2) : ℝ) : ℂ) = ((1 + v ^ (2 * N) : ℝ) : ℂ) := by
    push_cast
    rw [show (1 + (v : ℂ) ^ (2 * N)) = (-(v : ℂ)) ^ (2 * N) + 1 from by rw [pow_mul (-(v : ℂ)), neg_sq, ← pow_mul]; ring, h]
    refine Finset.prod_congr rfl fun k hk => ?_
    have hk' := Finset.mem_range.mp hk
    set t := Real.pi * (2 * k + 1) / (2 * N) with ht
    have e1 : (Real.pi * (2 * (k : ℝ) + 1) / ((2 * N : ℕ) : ℝ)) = t := by push_cast; rw [ht]
    have e2 : Complex.exp (((Real.pi * (2 * ((N + (N - 1 - k) : ℕ) : ℝ) + 1) / ((2 * N : ℕ) : ℝ) : ℝ) : ℂ) * Complex.I) =
        Complex.exp (((-t : ℝ) : ℂ) * Complex.I) := by
      have : Real.pi * (2 * ((N + (N - 1 - k) : ℕ) : ℝ) + 1) / ((2 * N : ℕ) : ℝ) = -t + 2 * Real.pi := by
        rw [show ((N + (N - 1 - k) : ℕ) : ℝ) = 2 * N - 1 - k from by
          rw [show N + (N - 1 - k) = 2 * N - (1 + k) from by omega, Nat.cast_sub (by omega)]; push_cast; ring, ht]
        push_cast; field_simp; ring
      rw [this]
      push_cast
      rw [add_mul, Complex.exp_add, Complex.exp_two_pi_mul_I, mul_one]
    rw [e1, e2]
    have e3 : (Real.pi * (2 * (k : ℂ) + 1) / (2 * N) : ℂ) = (t : ℂ) := by rw [ht]; push_cast; ring
    rw [e3, Complex.exp_mul_I, Complex.exp_mul_I]
    push_cast
    rw [Complex.cos_neg, Complex.sin_neg]
    have hs := Complex.sin_sq_add_cos_sq (t : ℂ)
    linear_combination -hs + Complex.sin t ^ 2 * Complex.I_sq
  exact_mod_cast h2

section Stage

variable {E : Type} (f : Biquad ℝ E) (n N : ℤ) (hn : 0 < n) (hN : 2 * n < N) (Q : ℝ) (hQ : 0 < Q) (w : ℝ)

theorem norm_den : ‖(2 * (Complex.cos w - exactCos n N) + 2 * (exactSin n N / (2 * Q)) * Complex.sin w * Complex.I : ℂ)‖ ^ 2 =
    4 * (Real.cos w - exactCos n N) ^ 2 + (exactSin n N / Q * Real.sin w) ^ 2 := by
  rw [← Complex.normSq_eq_norm_sq, ← Complex.ofReal_cos, ← Complex.ofReal_sin,
    show (2 * ((Real.cos w : ℂ) - exactCos n N) + 2 * (exactSin n N / (2 * Q)) * (Real.sin w : ℂ) * Complex.I : ℂ) =
      ((2 * (Real.cos w - exactCos n N) : ℝ) : ℂ) + ((exactSin n N / Q * Real.sin w : ℝ) : ℂ) * Complex.I from by
        push_cast; ring, Complex.normSq_add_mul_I]
  ring

include hn hN

theorem half_pos : 0 < Real.sin (2 * Real.pi * n / N / 2) ∧ 0 < Real.cos (2 * Real.pi * n / N / 2) := by
  have hN' : (0 : ℝ) < N := by exact_mod_cast (by omega : 0 < N)
  have hn' : (0 : ℝ) < n := by exact_mod_cast hn
  have h2 : 2 * (n : ℝ) < N := by exact_mod_cast hN
  have hpi := Real.pi_pos
  have h3 : 2 * Real.pi * n / N / 2 < Real.pi / 2 := by
    rw [div_div, div_lt_div_iff₀ (by positivity) (by norm_num)]; nlinarith
  have h4 : 0 < 2 * Real.pi * n / N / 2 := by positivity
  exact ⟨Real.sin_pos_of_pos_of_lt_pi h4 (by linarith), Real.cos_pos_of_mem_Ioo ⟨by linarith, h3⟩⟩

omit hn hN in
/-- The denominator in half angles. -/
theorem den_half (C S C0 S0 : ℝ) (h1 : C ^ 2 + S ^ 2 = 1) (h2 : C0 ^ 2 + S0 ^ 2 = 1) :
    4 * ((C ^ 2 - S ^ 2) - (C0 ^ 2 - S0 ^ 2)) ^ 2 + ((2 * S0 * C0) / Q * (2 * S * C)) ^ 2 =
    16 * ((S0 ^ 2 * C ^ 2 - S ^ 2 * C0 ^ 2) ^ 2 + (S0 * C0 * S * C / Q) ^ 2) := by
  have e : (C ^ 2 - S ^ 2) - (C0 ^ 2 - S0 ^ 2) = 2 * (S0 ^ 2 * C ^ 2 - S ^ 2 * C0 ^ 2) := by
    linear_combination (1 - 2 * S0 ^ 2) * h1 - (1 - 2 * S ^ 2) * h2
  rw [e]; ring

include hQ

theorem lowpass_norm (hw : Real.cos (w / 2) ≠ 0) :
    ‖(f.lowpass exactSin exactCos n N Q).response w‖ ^ 2 =
    1 / ((1 - (Real.tan (w / 2) / Real.tan (2 * Real.pi * n / N / 2)) ^ 2) ^ 2 +
      (Real.tan (w / 2) / Real.tan (2 * Real.pi * n / N / 2)) ^ 2 / Q ^ 2) := by
  obtain ⟨hs, hc⟩ := half_pos n N hn hN
  rw [Biquad.lowpass_response f n N hn hN Q hQ, norm_div, div_pow, norm_den n N Q]
  rw [show ((1 - exactCos n N) * (1 + Complex.cos w) : ℂ) = (((1 - exactCos n N) * (1 + Real.cos w) : ℝ) : ℂ) from by push_cast; rfl,
    Complex.norm_real, Real.norm_eq_abs, sq_abs]
  have w1 : Real.cos w = Real.cos (w / 2) ^ 2 - Real.sin (w / 2) ^ 2 := by
    rw [← Real.cos_two_mul', mul_div_cancel₀ _ (two_ne_zero)]
  have w2 : Real.sin w = 2 * Real.sin (w / 2) * Real.cos (w / 2) := by
    rw [← Real.sin_two_mul, mul_div_cancel₀ _ (two_ne_zero)]
  have w3 : exactCos n N = Real.cos (2 * Real.pi * n / N / 2) ^ 2 - Real.sin (2 * Real.pi * n / N / 2) ^ 2 := by
    rw [← Real.cos_two_mul', mul_div_cancel₀ _ (two_ne_zero), exactCos]
  have w4 : exactSin n N = 2 * Real.sin (2 * Real.pi * n / N / 2) * Real.cos (2 * Real.pi * n / N / 2) := by
    rw [← Real.sin_two_mul, mul_div_cancel₀ _ (two_ne_zero), exactSin]
  have h1 := Real.cos_sq_add_sin_sq (w / 2)
  have h2 := Real.cos_sq_add_sin_sq (2 * Real.pi * n / N / 2)
  rw [Real.tan_eq_sin_div_cos, Real.tan_eq_sin_div_cos, w1, w2, w3, w4]
  set C := Real.cos (w / 2)
  set S := Real.sin (w / 2)
  set C0 := Real.cos (2 * Real.pi * n / N / 2)
  set S0 := Real.sin (2 * Real.pi * n / N / 2)
  rw [den_half Q C S C0 S0 h1 h2]
  have e : (1 - (C0 ^ 2 - S0 ^ 2)) * (1 + (C ^ 2 - S ^ 2)) = 4 * (S0 ^ 2 * C ^ 2) := by
    rw [show 1 - (C0 ^ 2 - S0 ^ 2) = 2 * S0 ^ 2 from by linarith, show 1 + (C ^ 2 - S ^ 2) = 2 * C ^ 2 from by linarith]; ring
  rw [e]
  have hs' := hs.ne'
  have hc' := hc.ne'
  have hQ' := hQ.ne'
  have key : (S0 ^ 2 * C ^ 2 - S ^ 2 * C0 ^ 2) ^ 2 + (S0 * C0 * S * C / Q) ^ 2 =
      (S0 ^ 2 * C ^ 2) ^ 2 * ((1 - (S / C / (S0 / C0)) ^ 2) ^ 2 + (S / C / (S0 / C0)) ^ 2 / Q ^ 2) := by
    field_simp
  rw [key, show (4 * (S0 ^ 2 * C ^ 2)) ^ 2 = (16 * (S0 ^ 2 * C ^ 2) ^ 2) * 1 from by ring, ← mul_assoc,
    mul_div_mul_left]
  positivity

theorem highpass_norm (hw : Real.cos (w / 2) ≠ 0) :
    ‖(f.highpass exactSin exactCos n N Q).response w‖ ^ 2 =
    ((Real.tan (w / 2) / Real.tan (2 * Real.pi * n / N / 2)) ^ 2) ^ 2 /
    ((1 - (Real.tan (w / 2) / Real.tan (2 * Real.pi * n / N / 2)) ^ 2) ^ 2 +
      (Real.tan (w / 2) / Real.tan (2 * Real.pi * n / N / 2)) ^ 2 / Q ^ 2) := by
  obtain ⟨hs, hc⟩ := half_pos n N hn hN
  rw [Biquad.highpass_response f n N hn hN Q hQ, norm_div, div_pow, norm_den n N Q]
  rw [show ((1 + exactCos n N) * (Complex.cos w - 1) : ℂ) = (((1 + exactCos n N) * (Real.cos w - 1) : ℝ) : ℂ) from by push_cast; rfl,
    Complex.norm_real, Real.norm_eq_abs, sq_abs]
  have w1 : Real.cos w = Real.cos (w / 2) ^ 2 - Real.sin (w / 2) ^ 2 := by
    rw [← Real.cos_two_mul', mul_div_cancel₀ _ (two_ne_zero)]
  have w2 : Real.sin w = 2 * Real.sin (w / 2) * Real.cos (w / 2) := by
    rw [← Real.sin_two_mul, mul_div_cancel₀ _ (two_ne_zero)]
  have w3 : exactCos n N = Real.cos (2 * Real.pi * n / N / 2) ^ 2 - Real.sin (2 * Real.pi * n / N / 2) ^ 2 := by
    rw [← Real.cos_two_mul', mul_div_cancel₀ _ (two_ne_zero), exactCos]
  have w4 : exactSin n N = 2 * Real.sin (2 * Real.pi * n / N / 2) * Real.cos (2 * Real.pi * n / N / 2) := by
    rw [← Real.sin_two_mul, mul_div_cancel₀ _ (two_ne_zero), exactSin]
  have h1 := Real.cos_sq_add_sin_sq (w / 2)
  have h2 := Real.cos_sq_add_sin_sq (2 * Real.pi * n / N / 2)
  rw [Real.tan_eq_sin_div_cos, Real.tan_eq_sin_div_cos, w1, w2, w3, w4]
  set C := Real.cos (w / 2)
  set S := Real.sin (w / 2)
  set C0 := Real.cos (2 * Real.pi * n / N / 2)
  set S0 := Real.sin (2 * Real.pi * n / N / 2)
  rw [den_half Q C S C0 S0 h1 h2]
  have hs' := hs.ne'
  have hc' := hc.ne'
  have hQ' := hQ.ne'
  have e : (1 + (C0 ^ 2 - S0 ^ 2)) * ((C ^ 2 - S ^ 2) - 1) = -4 * (S0 ^ 2 * C ^ 2) * (S / C / (S0 / C0)) ^ 2 := by
    rw [show 1 + (C0 ^ 2 - S0 ^ 2) = 2 * C0 ^ 2 from by linarith, show (C ^ 2 - S ^ 2) - 1 = -2 * S ^ 2 from by linarith]
    field_simp; ring
  rw [e]
  have key : (S0 ^ 2 * C ^ 2 - S ^ 2 * C0 ^ 2) ^ 2 + (S0 * C0 * S * C / Q) ^ 2 =
      (S0 ^ 2 * C ^ 2) ^ 2 * ((1 - (S / C / (S0 / C0)) ^ 2) ^ 2 + (S / C / (S0 / C0)) ^ 2 / Q ^ 2) := by
    field_simp
  rw [key, show (-4 * (S0 ^ 2 * C ^ 2) * (S / C / (S0 / C0)) ^ 2) ^ 2 =
    (16 * (S0 ^ 2 * C ^ 2) ^ 2) * ((S / C / (S0 / C0)) ^ 2) ^ 2 from by ring, ← mul_assoc, mul_div_mul_left]
  positivity

end Stage

/-- The quality factors of the cascade are positive. -/
theorem quality_pos (i NUM : ℕ) (hi : i < NUM) : 0 < exactCos (2 * i + 1) (4 * (2 * NUM)) := by
  have h1 : ((i : ℝ) + 1) ≤ NUM := by exact_mod_cast hi
  have h0 : (0 : ℝ) ≤ i := Nat.cast_nonneg i
  have hpi := Real.pi_pos
  refine Real.cos_pos_of_mem_Ioo ⟨?_, ?_⟩
  · have : 0 ≤ 2 * Real.pi * ((2 * i + 1 : ℤ) : ℝ) / ((4 * (2 * NUM) : ℤ) : ℝ) := by
      push_cast; have : (0 : ℝ) ≤ NUM := by linarith
      positivity
    linarith
  · push_cast
    rw [div_lt_div_iff₀ (by linarith) (by norm_num)]
    nlinarith

theorem stage_den (i NUM : ℕ) (hi : i < NUM) (v : ℝ) :
    (1 - v) ^ 2 + v / (1 / (2 * exactCos (2 * i + 1) (4 * (2 * NUM)))) ^ 2 =
    1 + 2 * v * Real.cos (Real.pi * (2 * i + 1) / (2 * NUM)) + v ^ 2 := by
  have h := (quality_pos i NUM hi).ne'
  have hN : (NUM : ℝ) ≠ 0 := by exact_mod_cast (by omega : NUM ≠ 0)
  have e : Real.cos (Real.pi * (2 * i + 1) / (2 * NUM)) = 2 * exactCos (2 * i + 1) (4 * (2 * NUM)) ^ 2 - 1 := by
    rw [exactCos, ← Real.cos_two_mul]; congr 1; push_cast; field_simp; ring
  rw [e]; field_simp; ring

theorem norm_prod_list {E : Type} (c : BiquadCascade ℝ E) (g : ℕ → Biquad ℝ E → Biquad ℝ E) (r : ℕ → ℝ) (w : ℝ)
    (h : ∀ i < c.length, ∀ f, ‖(g i f).response w‖ ^ 2 = r i) :
    ‖response (c.mapIdx g) w‖ ^ 2 = ∏ i ∈ Finset.range c.length, r i := by
  unfold response
  induction c using List.reverseRecOn with
  | nil => simp
  | append_singleton c f ih =>
    rw [List.mapIdx_append, List.map_append, List.prod_append, norm_mul, mul_pow, List.length_append,
      ih (fun i hi => h i (by simp; omega)), List.length_singleton, Finset.prod_range_succ]
    congr 1
    simp only [List.mapIdx_cons, List.mapIdx_nil, List.map_cons, List.map_nil, List.prod_cons, List.prod_nil, mul_one, zero_add]
    exact h c.length (by simp) f

/-- The lowpass cascade: squared magnitude `1 / (1 + (tan(w/2) / tan(w0/2))^(4 NUM))`. -/
theorem C49_lowpass {E : Type} (c : BiquadCascade ℝ E) (hc : 0 < c.length) (n N : ℤ) (hn : 0 < n) (hN : 2 * n < N) (w : ℝ)
    (hw : |w| < Real.pi) :
    ‖response (c.lowpass exactSin exactCos n N) w‖ ^ 2 =
    1 / (1 + (Real.tan (w / 2) / Real.tan (2 * Real.pi * n / N / 2)) ^ (4 * c.length)) := by
  have hw' : Real.cos (w / 2) ≠ 0 := by
    obtain ⟨h1, h2⟩ := abs_lt.mp hw
    exact (Real.cos_pos_of_mem_Ioo ⟨by linarith, by linarith⟩).ne'
  rw [lowpass, norm_prod_list c _ (fun i => 1 / (1 + 2 * (Real.tan (w / 2) / Real.tan (2 * Real.pi * n / N / 2)) ^ 2 *
    Real.cos (Real.pi * (2 * i + 1) / (2 * c.length)) + ((Real.tan (w / 2) / Real.tan (2 * Real.pi * n / N / 2)) ^ 2) ^ 2)) w]
  · rw [Finset.prod_div_distrib, butterworth_prod _ hc, Finset.prod_const_one, ← pow_mul]
    congr 3; ring
  · intro i hi f
    have hq := quality_pos i c.length hi
    rw [lowpass_norm f n N hn hN _ (by positivity) w hw', stage_den i c.length hi]

/-- The highpass cascade is its mirror: `u^(4 NUM) / (1 + u^(4 NUM))` with `u = tan(w/2) / tan(w0/2)`. -/
theorem C49_highpass {E : Type} (c : BiquadCascade ℝ E) (hc : 0 < c.length) (n N : ℤ) (hn : 0 < n) (hN : 2 * n < N) (w : ℝ)
    (hw : |w| < Real.pi) :
    ‖response (c.highpass exactSin exactCos n N) w‖ ^ 2 =
    (Real.tan (w / 2) / Real.tan (2 * Real.pi * n / N / 2)) ^ (4 * c.length) /
      (1 + (Real.tan (w / 2) / Real.tan (2 * Real.pi * n / N / 2)) ^ (4 * c.length)) := by
  have hw' : Real.cos (w / 2) ≠ 0 := by
    obtain ⟨h1, h2⟩ := abs_lt.mp hw
    exact (Real.cos_pos_of_mem_Ioo ⟨by linarith, by linarith⟩).ne'
  rw [highpass, norm_prod_list c _ (fun i => ((Real.tan (w / 2) / Real.tan (2 * Real.pi * n / N / 2)) ^ 2) ^ 2 /
    (1 + 2 * (Real.tan (w / 2) / Real.tan (2 * Real.pi * n / N / 2)) ^ 2 *
    Real.cos (Real.pi * (2 * i + 1) / (2 * c.length)) + ((Real.tan (w / 2) / Real.tan (2 * Real.pi * n / N / 2)) ^ 2) ^ 2)) w]
  · rw [Finset.prod_div_distrib, butterworth_prod _ hc, Finset.prod_const, Finset.card_range, ← pow_mul, ← pow_mul,
      show 2 * (2 * c.length) = 4 * c.length from by ring]
  · intro i hi f
    have hq := quality_pos i c.length hi
    rw [highpass_norm f n N hn hN _ (by positivity) w hw', stage_den i c.length hi]

/-- Stable filters one behind the other settle to the product of their responses. -/
theorem settle (c : BiquadCascade ℝ ℂ) (h : ∀ f ∈ c, f.a2a0 < 1 ∧ |f.a1a0| < 1 + f.a2a0) (w : ℝ) (a : ℂ) (x : ℕ → ℂ)
    (hx : Tendsto (fun k : ℕ => x k - a * Complex.exp (w * k * Complex.I)) atTop (𝓝 0)) :
    Tendsto (fun k : ℕ => stream call c x k - response c w * a * Complex.exp (w * k * Complex.I)) atTop (𝓝 0) := by
  induction c generalizing x a with
  | nil => simpa [stream_nil, response] using hx
  | cons f c ih =>
    have h1 := h f (by simp)
    have h2 := Biquad.settle f h1.1 h1.2 w a x hx
    have h3 := ih (fun g hg => h g (by simp [hg])) (f.response w * a) (stream Biquad.call f x) h2
    refine h3.congr fun k => ?_
    rw [stream_cons]
    simp only [response, List.map_cons, List.prod_cons]
    ring

/-- `response` is what can be observed: fed with `exp(i w k)`, the output of the cascade settles to `response * exp(i w k)`. -/
theorem C49_settles (c : BiquadCascade ℝ ℂ) (n N : ℤ) (hn : 0 < n) (hN : 2 * n < N) (w : ℝ) :
    Tendsto (fun k : ℕ => stream call (c.lowpass exactSin exactCos n N) (fun k : ℕ => Complex.exp (w * k * Complex.I)) k -
      response (c.lowpass exactSin exactCos n N) w * Complex.exp (w * k * Complex.I)) atTop (𝓝 0) ∧
    Tendsto (fun k : ℕ => stream call (c.highpass exactSin exactCos n N) (fun k : ℕ => Complex.exp (w * k * Complex.I)) k -
      response (c.highpass exactSin exactCos n N) w * Complex.exp (w * k * Complex.I)) atTop (𝓝 0) := by
  constructor
  · have h := settle (c.lowpass exactSin exactCos n N) ?_ w 1 (fun k : ℕ => Complex.exp (w * k * Complex.I)) (by simp)
    · simpa using h
    · intro f hf
      obtain ⟨i, hi, rfl⟩ := List.mem_mapIdx.mp hf
      have hq := quality_pos i c.length hi
      exact Biquad.design_jury Real.exp Real.exp_pos c[i] (.lowpass (1 / (2 * exactCos (2 * i + 1) (4 * (2 * c.length)))))
        (by change 0 < _; positivity) n N hn hN
  · have h := settle (c.highpass exactSin exactCos n N) ?_ w 1 (fun k : ℕ => Complex.exp (w * k * Complex.I)) (by simp)
    · simpa using h
    · intro f hf
      obtain ⟨i, hi, rfl⟩ := List.mem_mapIdx.mp hf
      have hq := quality_pos i c.length hi
      exact Biquad.design_jury Real.exp Real.exp_pos c[i] (.highpass (1 / (2 * exactCos (2 * i + 1) (4 * (2 * c.length)))))
        (by change 0 < _; positivity) n N hn hN

/-- At the corner the squared magnitude is one half, for every number of filters. -/
theorem C49_corner {E : Type} (c : BiquadCascade ℝ E) (hc : 0 < c.length) (n N : ℤ) (hn : 0 < n) (hN : 2 * n < N) :
    ‖response (c.lowpass exactSin exactCos n N) (2 * Real.pi * n / N)‖ ^ 2 = 1 / 2 ∧
    ‖response (c.highpass exactSin exactCos n N) (2 * Real.pi * n / N)‖ ^ 2 = 1 / 2 := by
  obtain ⟨hs, hcs⟩ := half_pos n N hn hN
  have hN' : (0 : ℝ) < N := by exact_mod_cast (by omega : 0 < N)
  have hn' : (0 : ℝ) < n := by exact_mod_cast hn
  have h2 : 2 * (n : ℝ) < N := by exact_mod_cast hN
  have hpi := Real.pi_pos
  have hw : |2 * Real.pi * n / N| < Real.pi := by
    rw [abs_of_pos (by positivity), div_lt_iff₀ hN']; nlinarith
  have ht : Real.tan (2 * Real.pi * n / N / 2) ≠ 0 := by rw [Real.tan_eq_sin_div_cos]; positivity
  rw [C49_lowpass c hc n N hn hN _ hw, C49_highpass c hc n N hn hN _ hw, div_self ht]
  norm_num

/-- A fourth order filter at an eighth of the sampling rate meets the hypotheses. -/
example : 0 < (init 2 : BiquadCascade ℝ ℂ).length ∧ (0 : ℤ) < 1 ∧ 2 * (1 : ℤ) < 8 ∧ |(1 : ℝ)| < Real.pi := by
  refine ⟨by simp [init], by decide, by decide, ?_⟩
  rw [abs_one]; linarith [Real.two_le_pi]

end BiquadCascade
end DSP
