import Verif.Spec.Sinusoid
import Verif.Props.SMA
import Verif.Props.BlockDC
import Verif.Model.Calculus
import Mathlib.Analysis.SpecialFunctions.Complex.Circle
import Mathlib.Analysis.SpecialFunctions.Trigonometric.Arctan
import Mathlib.Tactic.LinearCombination

/-!
# C110: what the moving averages, the DC blocker, the differentiator and the integrator make of a sinusoid
-/

namespace DSP

open Spec Filter Topology

namespace Responses

theorem sum_cos (N : ℕ) (α w : ℝ) : 2 * Real.sin (w / 2) * ∑ k ∈ Finset.range N, Real.cos (α + k * w) = Real.sin (α + N * w - w / 2) - Real.sin (α - w / 2) := by
  induction N with
  | zero => simp
  | succ N ih =>
    rw [Finset.sum_range_succ, mul_add, ih]
    have e1 : Real.sin (α + ((N + 1 : ℕ) : ℝ) * w - w / 2) = Real.sin ((α + N * w) + w / 2) := by congr 1; push_cast; ring
    rw [e1, Real.sin_add, Real.sin_sub]
    ring

theorem sum_sin_zero (N : ℕ) (w : ℝ) : ∑ k ∈ Finset.range N, Real.sin (((k : ℝ) - ((N : ℝ) - 1) / 2) * w) = 0 := by
  have h := Finset.sum_range_reflect (fun k : ℕ => Real.sin (((k : ℝ) - ((N : ℝ) - 1) / 2) * w)) N
  have h2 : ∑ k ∈ Finset.range N, Real.sin ((((N - 1 - k : ℕ) : ℝ) - ((N : ℝ) - 1) / 2) * w) = -∑ k ∈ Finset.range N, Real.sin (((k : ℝ) - ((N : ℝ) - 1) / 2) * w) := by
    rw [← Finset.sum_neg_distrib]
    refine Finset.sum_congr rfl fun k hk => ?_
    rw [Finset.mem_range] at hk
    rw [← Real.sin_neg]
    congr 1
    rw [Nat.cast_sub (by omega), Nat.cast_sub (by omega)]
    push_cast
    ring
  linarith

/-- The mean of a window of a sinusoid. -/
theorem sum_window (N : ℕ) (hN : 0 < N) (A w φ : ℝ) (n : ℕ) (hn : N ≤ n + 1) :
    (∑ k ∈ Finset.range N, sinusoid A w φ ((n + 1 - N + k : ℕ) : ℝ)) / N = meanCosine N w * sinusoid A w φ (n - ((N : ℝ) - 1) / 2) := by
  have e : ∀ k, sinusoid A w φ ((n + 1 - N + k : ℕ) : ℝ) = A * Real.cos (w * (n - ((N : ℝ) - 1) / 2) + φ) * Real.cos (((k : ℝ) - ((N : ℝ) - 1) / 2) * w) -
      A * Real.sin (w * (n - ((N : ℝ) - 1) / 2) + φ) * Real.sin (((k : ℝ) - ((N : ℝ) - 1) / 2) * w) := by
    intro k
    rw [mul_assoc, mul_assoc, ← mul_sub, ← Real.cos_add, sinusoid]
    congr 2
    rw [Nat.cast_add, Nat.cast_sub hn]
    push_cast
    ring
  rw [Finset.sum_congr rfl fun k _ => e k, Finset.sum_sub_distrib, ← Finset.mul_sum, ← Finset.mul_sum, sum_sin_zero, meanCosine, sinusoid]
  ring

theorem lastN_map (N L n : ℕ) (x : ℕ → ℝ) (hn : N ≤ n + 1) (hL : n < L) : (lastN N (((List.range L).map x).take (n + 1))).sum = ∑ k ∈ Finset.range N, x (n + 1 - N + k) := by
  have : lastN N (((List.range L).map x).take (n + 1)) = (List.range N).map fun k => x (n + 1 - N + k) := by
    apply List.ext_getElem
    · simp [lastN]; omega
    · intro i h1 h2
      simp [lastN, List.getElem_drop, List.getElem_take]
      congr 1
      omega
  rw [this]
  generalize (fun k => x (n + 1 - N + k)) = f
  clear * -
  induction N with
  | zero => rfl
  | succ N ih => rw [List.range_succ, List.map_append, List.sum_append, ih, Finset.sum_range_succ]; simp

end Responses

namespace SMA

/-- **C110** What all four moving averages make of a sinusoid once their window is full: the same one, late by half of the window less half a sample, times the mean of `NUM` cosines. -/
theorem C110_sma (NUM : ℕ) (hN : 0 < NUM) (A w φ : ℝ) (L : ℕ) :
    let xs := (List.range L).map fun n : ℕ => sinusoid A w φ n
    ∃ ys, trace (SMA1.call (· / (NUM : ℝ))) (SMA1.init NUM) xs = (ys, none) ∧ trace (SMA2.call (fun a b => .ok (a + b)) (fun a b => .ok (a - b)) true (· / (NUM : ℝ))) (SMA2.init NUM) xs = (ys, none) ∧
      trace (SMA3.call true (· / (NUM : ℝ))) (SMA3.init NUM) xs = (ys, none) ∧ trace (SMA4.call true (· / (NUM : ℝ))) (SMA4.init NUM) xs = (ys, none) ∧ ys.length = L ∧
      ∀ n, NUM ≤ n + 1 → n < L → ys.getD n 0 = meanCosine NUM w * sinusoid A w φ (n - ((NUM : ℝ) - 1) / 2) := by
  intro xs
  refine ⟨_, C09_sma1 NUM hN _ (zero_div _) xs, C09_sma2 NUM hN true _ xs, C09_sma3 NUM hN true _ xs, C09_sma4 NUM hN true _ xs, by simp [Spec.average, xs], fun n h1 h2 => ?_⟩
  have e : (Spec.average NUM true (· / (NUM : ℝ)) xs).getD n 0 = (lastN NUM (xs.take (n + 1))).sum / NUM := by
    simp [Spec.average, List.getD_eq_getElem?_getD, xs, h2]
  rw [e]
  rw [Responses.lastN_map NUM L n _ h1 h2]
  exact Responses.sum_window NUM hN A w φ n h1

/-- **C110** The gain: it is the quotient of two sines, one for a constant, never above, and zero for all other multiples of the reciprocal of the window. -/
theorem C110_gain (NUM : ℕ) (hN : 0 < NUM) (w : ℝ) :
    meanCosine NUM w * (NUM * Real.sin (w / 2)) = Real.sin (NUM * w / 2) ∧ |meanCosine NUM w| ≤ 1 ∧ meanCosine NUM 0 = 1 ∧
    ∀ k : ℤ, ¬(NUM : ℤ) ∣ k → meanCosine NUM (2 * Real.pi * k / NUM) = 0 := by
  have hN' : (NUM : ℝ) ≠ 0 := by exact_mod_cast hN.ne'
  have key : ∀ w, meanCosine NUM w * (NUM * Real.sin (w / 2)) = Real.sin (NUM * w / 2) := by
    intro w
    have h := Responses.sum_cos NUM (-(((NUM : ℝ) - 1) / 2) * w) w
    have e : ∑ k ∈ Finset.range NUM, Real.cos (-(((NUM : ℝ) - 1) / 2) * w + k * w) = ∑ k ∈ Finset.range NUM, Real.cos (((k : ℝ) - ((NUM : ℝ) - 1) / 2) * w) :=
      Finset.sum_congr rfl fun k _ => by congr 1; ring
    have e1 : -(((NUM : ℝ) - 1) / 2) * w + NUM * w - w / 2 = NUM * w / 2 := by ring
    have e2 : -(((NUM : ℝ) - 1) / 2) * w - w / 2 = -(NUM * w / 2) := by ring
    rw [e, e1, e2, Real.sin_neg] at h
    rw [meanCosine, div_mul_eq_mul_div, mul_comm (NUM : ℝ), ← mul_assoc, mul_div_assoc, div_self hN', mul_one]
    linarith
  refine ⟨key w, ?_, ?_, fun k hk => ?_⟩
  · rw [meanCosine, abs_div, Nat.abs_cast, div_le_one (by positivity)]
    refine (Finset.abs_sum_le_sum_abs _ _).trans (le_trans (Finset.sum_le_card_nsmul _ _ 1 fun k _ => Real.abs_cos_le_one _) (by rw [Finset.card_range]; simp))
  · simp [meanCosine, hN']
  · have h := key (2 * Real.pi * k / NUM)
    have e1 : (NUM : ℝ) * (2 * Real.pi * k / NUM) / 2 = k * Real.pi := by field_simp
    rw [e1, Real.sin_int_mul_pi] at h
    refine (mul_eq_zero.mp h).resolve_right (mul_ne_zero hN' fun h0 => hk ?_)
    rw [Real.sin_eq_zero_iff] at h0
    obtain ⟨m, hm⟩ := h0
    have hpi := Real.pi_ne_zero
    have : (k : ℝ) = NUM * m := by
      have : (m : ℝ) * Real.pi * NUM = k * Real.pi := by rw [hm]; field_simp
      have := mul_right_cancel₀ hpi (by linear_combination this : (m : ℝ) * NUM * Real.pi = k * Real.pi)
      linarith
    exact ⟨m, by exact_mod_cast this⟩

/-- An average over a whole number of periods is zero: mains hum of 50 Hz, 8000 samples per second, 160 samples. -/
example (A φ : ℝ) : ∃ ys, trace (SMA2.call (fun a b => .ok (a + b)) (fun a b => .ok (a - b)) true (· / ((160 : ℕ) : ℝ))) (SMA2.init 160) ((List.range 1000).map fun n : ℕ => sinusoid A (2 * Real.pi * 50 / 8000) φ n) = (ys, none) ∧
    ys.getD 500 0 = 0 := by
  obtain ⟨ys, -, h, -, -, -, hy⟩ := C110_sma 160 (by norm_num) A (2 * Real.pi * 50 / 8000) φ 1000
  refine ⟨ys, h, ?_⟩
  rw [hy 500 (by norm_num) (by norm_num)]
  have := (C110_gain 160 (by norm_num) 0).2.2.2 1 (by norm_num)
  have e : 2 * Real.pi * 50 / 8000 = 2 * Real.pi * ((1 : ℤ) : ℝ) / ((160 : ℕ) : ℝ) := by push_cast; ring
  rw [e, this, zero_mul]

end SMA

/-! ### The DC blocker -/

namespace BlockDC

/-- Frequency response of `y[n] = a y[n-1] + b (x[n] - x[n-1])`. -/
noncomputable def response (a b w : ℝ) : ℂ := b * (Complex.exp (w * Complex.I) - 1) / (Complex.exp (w * Complex.I) - a)

theorem exp_parts (w : ℝ) : Complex.exp (w * Complex.I) = ⟨Real.cos w, Real.sin w⟩ := by
  rw [Complex.exp_mul_I, ← Complex.ofReal_cos, ← Complex.ofReal_sin]
  apply Complex.ext <;> simp [-Complex.ofReal_cos, -Complex.ofReal_sin]

theorem normSq_sub (a w : ℝ) : Complex.normSq (Complex.exp (w * Complex.I) - a) = 1 + a ^ 2 - 2 * a * Real.cos w := by
  rw [exp_parts, Complex.normSq_apply]
  simp
  linear_combination Real.sin_sq_add_cos_sq w

/-- **C110** The DC blocker answers a sinusoid with its response, but for a transient that decays geometrically. -/
theorem C110_blockdc (s : ℤ) (hs : 1 ≤ s) (w : ℝ) (n : ℕ) :
    let f : BlockDC ℝ ℂ := init.samples s
    stream call f (fun n : ℕ => Complex.exp (w * n * Complex.I)) n = response f.a f.b w * Complex.exp (w * n * Complex.I) + f.a ^ n * (f.b - response f.a f.b w) := by
  intro f
  obtain ⟨h0, h1⟩ := pole s hs
  have ha : f.a = ((s - 1 : ℤ) : ℝ) / s := rfl
  rw [← ha] at h0 h1
  have hden : Complex.exp (w * Complex.I) - f.a ≠ 0 := by
    intro h
    have := normSq_sub f.a w
    rw [h, map_zero] at this
    have := Real.cos_le_one w
    nlinarith
  have hH : response f.a f.b w * (Complex.exp (w * Complex.I) - f.a) = f.b * (Complex.exp (w * Complex.I) - 1) := by
    rw [response, div_mul_cancel₀ _ hden]
  induction n with
  | zero =>
    rw [stream_zero]
    simp [f, init, samples]
  | succ n ih =>
    rw [stream_succ, ih]
    have e : Complex.exp (w * ((n + 1 : ℕ) : ℂ) * Complex.I) = Complex.exp (w * n * Complex.I) * Complex.exp (w * Complex.I) := by
      rw [← Complex.exp_add]; congr 1; push_cast; ring
    rw [e, Complex.real_smul, Complex.real_smul, pow_succ]
    linear_combination -Complex.exp (w * n * Complex.I) * hH

/-- **C110** With `samples(s)` the power that passes is a function of `(2 s - 1) tan (w/2)` only: it grows from zero at zero frequency to one at half of the rate, and is one half where the tangent of half of the
frequency is `1/(2 s - 1)`. -/
theorem C110_blockdc_power (s : ℤ) (hs : 1 ≤ s) :
    let f : BlockDC ℝ ℂ := init.samples s
    (∀ w, Complex.normSq (response f.a f.b w) = ((2 * s - 1) * Real.sin (w / 2)) ^ 2 / (((2 * s - 1) * Real.sin (w / 2)) ^ 2 + Real.cos (w / 2) ^ 2)) ∧
    StrictMonoOn (fun w => Complex.normSq (response f.a f.b w)) (Set.Icc 0 Real.pi) ∧ response f.a f.b 0 = 0 ∧ response f.a f.b Real.pi = 1 ∧
    Complex.normSq (response f.a f.b (2 * Real.arctan (1 / (2 * s - 1)))) = 1 / 2 := by
  intro f
  obtain ⟨h0, h1⟩ := pole s hs
  have hs1 : (1 : ℝ) ≤ s := by exact_mod_cast hs
  have hs0 : (s : ℝ) ≠ 0 := by linarith
  have ha : f.a = ((s : ℝ) - 1) / s := by show ((s - 1 : ℤ) : ℝ) / s = _; push_cast; rfl
  have hb : f.b = (1 + f.a) / 2 := rfl
  have ha' : ((s - 1 : ℤ) : ℝ) / s = f.a := rfl
  rw [ha'] at h0 h1
  have hq : 0 < 2 * (s : ℝ) - 1 := by linarith
  have pow : ∀ w, Complex.normSq (response f.a f.b w) = ((2 * s - 1) * Real.sin (w / 2)) ^ 2 / (((2 * s - 1) * Real.sin (w / 2)) ^ 2 + Real.cos (w / 2) ^ 2) := by
    intro w
    rw [response, map_div₀, map_mul, Complex.normSq_ofReal, normSq_sub]
    have e1 := normSq_sub 1 w
    rw [Complex.ofReal_one] at e1
    rw [e1]
    have ec : Real.cos w = 1 - 2 * Real.sin (w / 2) ^ 2 := by
      have := Real.cos_two_mul (w / 2)
      rw [mul_div_cancel₀ w (two_ne_zero)] at this
      have h2 := Real.sin_sq_add_cos_sq (w / 2)
      linarith
    have es := Real.sin_sq_add_cos_sq (w / 2)
    have hden : ((2 * s - 1) * Real.sin (w / 2)) ^ 2 + Real.cos (w / 2) ^ 2 = s ^ 2 * (1 + f.a ^ 2 - 2 * f.a * Real.cos w) := by
      rw [ec, ha]
      field_simp
      linear_combination es
    have hnum : f.b * f.b * (1 + 1 ^ 2 - 2 * 1 * Real.cos w) * s ^ 2 = ((2 * s - 1) * Real.sin (w / 2)) ^ 2 := by
      rw [ec, hb, ha]
      field_simp
      ring
    rw [hden, ← hnum, mul_comm ((s : ℝ) ^ 2), mul_div_mul_right _ _ (pow_ne_zero 2 hs0)]
  refine ⟨pow, ?_, ?_, ?_, ?_⟩
  · intro x hx y hy hxy
    show Complex.normSq (response f.a f.b x) < Complex.normSq (response f.a f.b y)
    rw [pow, pow]
    have hsx : 0 ≤ Real.sin (x / 2) := Real.sin_nonneg_of_nonneg_of_le_pi (by linarith [hx.1]) (by linarith [hx.2, Real.pi_pos])
    have hs2 : Real.sin (x / 2) < Real.sin (y / 2) := Real.sin_lt_sin_of_lt_of_le_pi_div_two (by linarith [hx.1, Real.pi_pos]) (by linarith [hy.2]) (by linarith)
    have ex := Real.sin_sq_add_cos_sq (x / 2)
    have ey := Real.sin_sq_add_cos_sq (y / 2)
    have hy1 : Real.sin (y / 2) ^ 2 ≤ 1 := Real.sin_sq_le_one _
    have hsq : Real.sin (x / 2) ^ 2 < Real.sin (y / 2) ^ 2 := by nlinarith
    rw [mul_pow, mul_pow, show Real.cos (x / 2) ^ 2 = 1 - Real.sin (x / 2) ^ 2 by linarith, show Real.cos (y / 2) ^ 2 = 1 - Real.sin (y / 2) ^ 2 by linarith]
    have hq2 : 0 < (2 * (s : ℝ) - 1) ^ 2 := by positivity
    have hx0 : 0 ≤ Real.sin (x / 2) ^ 2 := sq_nonneg _
    generalize (2 * (s : ℝ) - 1) ^ 2 = q at *
    generalize Real.sin (x / 2) ^ 2 = u at *
    generalize Real.sin (y / 2) ^ 2 = v at *
    have d1 : 0 < q * u + (1 - u) := by nlinarith
    have d2 : 0 < q * v + (1 - v) := by nlinarith
    rw [div_lt_div_iff₀ d1 d2]
    nlinarith
  · rw [response]; simp
  · have e : Complex.exp (Real.pi * Complex.I) = -1 := Complex.exp_pi_mul_I
    rw [response, e, hb]
    have : (-1 - (f.a : ℂ)) ≠ 0 := by
      intro h
      have := congrArg Complex.re h
      simp at this
      linarith
    rw [div_eq_one_iff_eq this]
    push_cast
    ring
  · rw [pow, mul_div_cancel_left₀ _ (two_ne_zero), Real.sin_arctan, Real.cos_arctan]
    have hr : 0 < Real.sqrt (1 + (1 / (2 * (s : ℝ) - 1)) ^ 2) := Real.sqrt_pos.mpr (by positivity)
    field_simp
    norm_num

/-- Ten samples. -/
example (n : ℕ) : ∃ H : ℂ, Complex.normSq H = 1 / 2 ∧ ∃ c : ℂ, stream call (init.samples 10 : BlockDC ℝ ℂ) (fun n : ℕ => Complex.exp ((2 * Real.arctan (1 / 19) : ℝ) * n * Complex.I)) n =
    H * Complex.exp ((2 * Real.arctan (1 / 19) : ℝ) * n * Complex.I) + ((9 / 10 : ℝ) : ℂ) ^ n * c := by
  refine ⟨response (init.samples 10 : BlockDC ℝ ℂ).a (init.samples 10 : BlockDC ℝ ℂ).b (2 * Real.arctan (1 / 19)), ?_, ((init.samples 10 : BlockDC ℝ ℂ).b : ℂ) - response (init.samples 10 : BlockDC ℝ ℂ).a (init.samples 10 : BlockDC ℝ ℂ).b (2 * Real.arctan (1 / 19)), ?_⟩
  · have := (C110_blockdc_power 10 (by norm_num)).2.2.2.2
    norm_num at this ⊢
    exact this
  · have := C110_blockdc 10 (by norm_num) (2 * Real.arctan (1 / 19)) n
    rw [show (9 / 10 : ℝ) = (init.samples 10 : BlockDC ℝ ℂ).a by show _ = ((10 - 1 : ℤ) : ℝ) / ((10 : ℤ) : ℝ); norm_num]
    exact this

end BlockDC

/-! ### Differences and sums -/

namespace Calculus

theorem states_differentiator (x0 : ℝ) (x : ℕ → ℝ) (n : ℕ) : states differentiator x0 x (n + 1) = x n := rfl

theorem stream_integrator (x : ℕ → ℝ) (n : ℕ) : stream integrator (0 : ℝ) x n = ∑ k ∈ Finset.range (n + 1), x k := by
  induction n with
  | zero => simp [stream, states, integrator]
  | succ n ih =>
    rw [Finset.sum_range_succ, ← ih]
    rfl

/-- **C110** The differentiator has the gain `2 sin (w/2)` and is ahead by a quarter of a period less half a sample. -/
theorem C110_differentiator (A w φ x0 : ℝ) (n : ℕ) (hn : 1 ≤ n) :
    stream differentiator x0 (fun n : ℕ => sinusoid A w φ n) n = 2 * Real.sin (w / 2) * sinusoid A w (φ + Real.pi / 2) (n - 1 / 2) := by
  obtain ⟨n, rfl⟩ : ∃ m, n = m + 1 := ⟨n - 1, by omega⟩
  show sinusoid A w φ ((n + 1 : ℕ) : ℝ) - sinusoid A w φ n = _
  simp only [sinusoid]
  rw [← mul_sub, Real.cos_sub_cos, ← add_assoc (w * (((n + 1 : ℕ) : ℝ) - 1 / 2)), Real.cos_add_pi_div_two]
  have e1 : (w * ((n + 1 : ℕ) : ℝ) + φ + (w * n + φ)) / 2 = w * (((n + 1 : ℕ) : ℝ) - 1 / 2) + φ := by push_cast; ring
  have e2 : (w * ((n + 1 : ℕ) : ℝ) + φ - (w * n + φ)) / 2 = w / 2 := by push_cast; ring
  rw [e1, e2]
  ring

/-- **C110** The integrator has the inverse gain, lags by a quarter of a period less half a sample, and keeps the constant that is due to the phase at the start. -/
theorem C110_integrator (A w φ : ℝ) (hw : Real.sin (w / 2) ≠ 0) (n : ℕ) :
    stream integrator (0 : ℝ) (fun n : ℕ => sinusoid A w φ n) n = (sinusoid A w (φ - Real.pi / 2) (n + 1 / 2) - A * Real.sin (φ - w / 2)) / (2 * Real.sin (w / 2)) := by
  rw [stream_integrator, eq_div_iff (by simpa using hw)]
  have h := Responses.sum_cos (n + 1) φ w
  have e : ∑ k ∈ Finset.range (n + 1), sinusoid A w φ k = A * ∑ k ∈ Finset.range (n + 1), Real.cos (φ + k * w) := by
    rw [Finset.mul_sum]
    exact Finset.sum_congr rfl fun k _ => by rw [sinusoid]; congr 2; ring
  rw [e, sinusoid, show w * ((n : ℝ) + 1 / 2) + (φ - Real.pi / 2) = (φ + ((n + 1 : ℕ) : ℝ) * w - w / 2) - Real.pi / 2 by push_cast; ring, Real.cos_sub_pi_div_two]
  linear_combination A * h

/-- A quarter of the rate. -/
example (n : ℕ) (hn : 1 ≤ n) : stream differentiator 0 (fun n : ℕ => sinusoid 1 (Real.pi / 2) 0 n) n = √2 * sinusoid 1 (Real.pi / 2) (Real.pi / 2) (n - 1 / 2) ∧
    stream integrator 0 (fun n : ℕ => sinusoid 1 (Real.pi / 2) 0 n) n = (sinusoid 1 (Real.pi / 2) (-(Real.pi / 2)) (n + 1 / 2) + √2 / 2) / √2 := by
  have e : Real.sin (Real.pi / 2 / 2) = √2 / 2 := by rw [show Real.pi / 2 / 2 = Real.pi / 4 by ring, Real.sin_pi_div_four]
  have h2 : (0 : ℝ) < √2 := Real.sqrt_pos.mpr two_pos
  refine ⟨?_, ?_⟩
  · rw [C110_differentiator 1 _ 0 0 n hn, e, zero_add]; ring
  · rw [C110_integrator 1 _ 0 (by rw [e]; positivity) n, e, zero_sub, zero_sub, Real.sin_neg, e]
    congr 1 <;> ring

end Calculus
end DSP
