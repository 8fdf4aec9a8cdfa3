import Verif.Lemmas.Biquad
import Mathlib.Tactic.FieldSimp

/-!
# Biquad filters: transfer function, stability and designs (C46, C47, C48)
-/

namespace DSP
namespace Biquad

open Filter Topology

/-! ### C46: the transfer function -/

/-- Nothing was fed so far. -/
def Rest {K E : Type} [Zero E] (f : Biquad K E) : Prop := f.x1 = 0 ∧ f.x2 = 0 ∧ f.y1 = 0 ∧ f.y2 = 0

section

variable {K E : Type} [Field K]

/-- `B(z)` with `X` for `z⁻¹`. -/
noncomputable def num (f : Biquad K E) : PowerSeries K :=
  PowerSeries.C f.b0a0 + PowerSeries.C f.b1a0 * PowerSeries.X + PowerSeries.C f.b2a0 * PowerSeries.X ^ 2

/-- `A(z)` with `X` for `z⁻¹`. -/
noncomputable def den (f : Biquad K E) : PowerSeries K :=
  1 + PowerSeries.C f.a1a0 * PowerSeries.X + PowerSeries.C f.a2a0 * PowerSeries.X ^ 2

theorem coeff_mul_mk (a b c : K) (u : ℕ → K) (n : ℕ) :
    PowerSeries.coeff n ((PowerSeries.C a + PowerSeries.C b * PowerSeries.X + PowerSeries.C c * PowerSeries.X ^ 2) * PowerSeries.mk u) =
    a * u n + (if n = 0 then 0 else b * u (n - 1)) + (if n ≤ 1 then 0 else c * u (n - 2)) := by
  rw [add_mul, add_mul, map_add, map_add, mul_assoc, mul_assoc, PowerSeries.coeff_C_mul, PowerSeries.coeff_C_mul,
    PowerSeries.coeff_C_mul, PowerSeries.coeff_mk]
  match n with
  | 0 => simp [pow_two, mul_assoc]
  | 1 =>
    rw [show PowerSeries.X ^ 2 * PowerSeries.mk u = PowerSeries.X * (PowerSeries.X * PowerSeries.mk u) from by ring,
      show (1 : ℕ) = 0 + 1 from rfl, PowerSeries.coeff_succ_X_mul, PowerSeries.coeff_succ_X_mul, PowerSeries.coeff_zero_X_mul]
    simp
  | n + 2 =>
    rw [show PowerSeries.X ^ 2 * PowerSeries.mk u = PowerSeries.X * (PowerSeries.X * PowerSeries.mk u) from by ring,
      PowerSeries.coeff_succ_X_mul, PowerSeries.coeff_succ_X_mul, PowerSeries.coeff_succ_X_mul]
    simp

/-- Output times `A(z)` is input times `B(z)`. -/
theorem C46_transfer (f : Biquad K K) (hf : Rest f) (x : ℕ → K) :
    den f * PowerSeries.mk (stream call f x) = num f * PowerSeries.mk x := by
  obtain ⟨h1, h2, h3, h4⟩ := hf
  ext n
  rw [den, num, show (1 : PowerSeries K) = PowerSeries.C 1 from (map_one _).symm, coeff_mul_mk, coeff_mul_mk]
  match n with
  | 0 => rw [stream_zero, h1, h2, h3, h4]; simp
  | 1 => rw [stream_one, h1, h3]; simp
  | n + 2 =>
    rw [stream_two]
    simp only [smul_eq_mul, Nat.add_eq_zero_iff, OfNat.ofNat_ne_zero, and_false, if_false,
      show ¬ (n + 2 ≤ 1) from by omega, Nat.add_sub_cancel, show n + 2 - 1 = n + 1 from rfl]
    ring

/-- A cascade multiplies the transfer functions of its filters. -/
theorem C46_cascade (c : BiquadCascade K K) (hc : ∀ f ∈ c, Rest f) (x : ℕ → K) :
    (c.map den).prod * PowerSeries.mk (stream BiquadCascade.call c x) = (c.map num).prod * PowerSeries.mk x := by
  induction c generalizing x with
  | nil => simp [BiquadCascade.stream_nil]
  | cons f c ih =>
    rw [List.map_cons, List.map_cons, List.prod_cons, List.prod_cons, BiquadCascade.stream_cons, mul_assoc, ih (fun g h => hc g (by simp [h])),
      mul_left_comm, C46_transfer f (hc f (by simp))]
    ring

end

section Linear

variable {K E : Type} [Field K] [AddCommGroup E] [Module K E]

/-- Linear: the response to a combination of inputs is the combination of the responses. -/
theorem C46_linear (f : Biquad K E) (hf : Rest f) (x y : ℕ → E) (c d : K) (n : ℕ) :
    stream call f (fun k => c • x k + d • y k) n = c • stream call f x n + d • stream call f y n := by
  obtain ⟨h1, h2, h3, h4⟩ := hf
  induction n using Nat.strong_induction_on with
  | _ n ih =>
    match n with
    | 0 => simp only [stream_zero, h1, h2, h3, h4]; module
    | 1 => simp only [stream_one, ih 0 (by omega), h1, h3]; module
    | n + 2 => simp only [stream_two, ih n (by omega), ih (n + 1) (by omega)]; module

/-- Time invariant: silence for `m` samples only delays the response. -/
theorem C46_delay (f : Biquad K E) (hf : Rest f) (x : ℕ → E) (m n : ℕ) :
    stream call f (fun k => if k < m then 0 else x (k - m)) n = if n < m then 0 else stream call f x (n - m) := by
  obtain ⟨h1, h2, h3, h4⟩ := hf
  have one : ∀ (x : ℕ → E) n, stream call f (fun k => if k = 0 then 0 else x (k - 1)) n =
      if n = 0 then 0 else stream call f x (n - 1) := by
    intro x n
    induction n using Nat.strong_induction_on with
    | _ n ih =>
      match n with
      | 0 => simp [stream_zero, h1, h2, h3, h4]
      | 1 => rw [stream_one, ih 0 (by omega)]; simp [stream_zero, h1, h2, h3, h4]
      | 2 => rw [stream_two, ih 0 (by omega), ih 1 (by omega)]; simp [stream_one, h1, h3]
      | n + 3 =>
        rw [stream_two f _ (n + 1), ih (n + 1) (by omega), ih (n + 2) (by omega)]
        simp [stream_two]
  induction m generalizing n with
  | zero => simp
  | succ m ih =>
    have e : (fun k => if k < m + 1 then 0 else x (k - (m + 1))) =
        fun k => if k = 0 then 0 else (fun k => if k < m then 0 else x (k - m)) (k - 1) := by
      funext k
      by_cases hk : k = 0
      · simp [hk]
      · have : (k < m + 1) = (k - 1 < m) := propext ⟨fun h => by omega, fun h => by omega⟩
        simp only [hk, if_false, this, show k - (m + 1) = k - 1 - m from by omega]
    rw [e, one (fun k => if k < m then 0 else x (k - m)) n, ih]
    by_cases hn : n = 0
    · simp [hn]
    · have : (n < m + 1) = (n - 1 < m) := propext ⟨fun h => by omega, fun h => by omega⟩
      simp only [hn, if_false, this, show n - (m + 1) = n - 1 - m from by omega]

end Linear

/-- A new filter is at rest and so is a designed one; the impulse response of a recursive filter. -/
example : Rest ((init : Biquad ℚ ℚ).set 1 1 0 2 1 0) ∧
    (List.range 4).map (stream call ((init : Biquad ℚ ℚ).set 1 1 0 2 1 0) (fun k => if k = 0 then 1 else 0)) =
      [1 / 2, 1 / 4, -1 / 8, 1 / 16] := by
  refine ⟨⟨rfl, rfl, rfl, rfl⟩, ?_⟩
  simp only [List.range, List.range.loop, List.map, stream, states, call, set, init, smul_eq_mul]
  norm_num

example : ∀ f ∈ (BiquadCascade.init 3 : BiquadCascade ℚ ℚ), Rest f := by
  intro f hf
  rw [List.eq_of_mem_replicate hf]
  exact ⟨rfl, rfl, rfl, rfl⟩

/-! ### C47: stability -/

/-- The five designs with their quality: a factor for the first two, decibel for the others. -/
inductive Design
  | lowpass (Q : ℝ)
  | highpass (Q : ℝ)
  | notch (QdB : ℝ)
  | bandpass (QdB : ℝ)
  | allpass (QdB : ℝ)

/-- The quality factor must be positive, `idecibel` only gives positive factors. -/
def Design.Positive : Design → Prop
  | .lowpass Q => 0 < Q
  | .highpass Q => 0 < Q
  | _ => True

/-- Calls the member function of that design, with exact sines and cosines. -/
noncomputable def design {E : Type} (idecibel : ℝ → ℝ) (f : Biquad ℝ E) (d : Design) (n N : ℤ) : Biquad ℝ E :=
  match d with
  | .lowpass Q => f.lowpass exactSin exactCos n N Q
  | .highpass Q => f.highpass exactSin exactCos n N Q
  | .notch q => f.notch exactSin exactCos idecibel n N q
  | .bandpass q => f.bandpass exactSin exactCos idecibel n N q
  | .allpass q => f.allpass exactSin exactCos idecibel n N q

theorem sin_pos {n N : ℤ} (hn : 0 < n) (hN : 2 * n < N) : 0 < exactSin n N := by
  have hN' : (0 : ℝ) < N := by exact_mod_cast (by omega : 0 < N)
  have hn' : (0 : ℝ) < n := by exact_mod_cast hn
  have h2 : 2 * (n : ℝ) < N := by exact_mod_cast hN
  have hpi := Real.pi_pos
  refine Real.sin_pos_of_pos_of_lt_pi (by positivity) ?_
  rw [div_lt_iff₀ hN']; nlinarith

theorem sq_add_sq (n N : ℤ) : exactSin n N ^ 2 + exactCos n N ^ 2 = 1 := Real.sin_sq_add_cos_sq _

theorem abs_cos_lt {n N : ℤ} (hn : 0 < n) (hN : 2 * n < N) : |exactCos n N| < 1 := by
  have h1 := sin_pos hn hN
  have h2 := sq_add_sq n N
  rw [abs_lt]
  constructor <;> nlinarith

/-- All designs share their recursive part. -/
theorem design_den {E : Type} (idecibel : ℝ → ℝ) (hi : ∀ q, 0 < idecibel q) (f : Biquad ℝ E) (d : Design) (hd : d.Positive)
    (n N : ℤ) (hn : 0 < n) (hN : 2 * n < N) :
    ∃ alpha, 0 < alpha ∧ (design idecibel f d n N).a1a0 = -2 * exactCos n N / (1 + alpha) ∧
      (design idecibel f d n N).a2a0 = (1 - alpha) / (1 + alpha) := by
  have h1 := sin_pos hn hN
  cases d with
  | lowpass Q => exact ⟨exactSin n N / (2 * Q), div_pos h1 (mul_pos two_pos hd), rfl, rfl⟩
  | highpass Q => exact ⟨exactSin n N / (2 * Q), div_pos h1 (mul_pos two_pos hd), rfl, rfl⟩
  | notch q => exact ⟨exactSin n N / (2 * idecibel q), div_pos h1 (mul_pos two_pos (hi q)), rfl, rfl⟩
  | bandpass q => exact ⟨exactSin n N / (2 * idecibel q), div_pos h1 (mul_pos two_pos (hi q)), rfl, rfl⟩
  | allpass q => exact ⟨exactSin n N / (2 * idecibel q), div_pos h1 (mul_pos two_pos (hi q)), rfl, rfl⟩

theorem design_jury {E : Type} (idecibel : ℝ → ℝ) (hi : ∀ q, 0 < idecibel q) (f : Biquad ℝ E) (d : Design) (hd : d.Positive)
    (n N : ℤ) (hn : 0 < n) (hN : 2 * n < N) :
    (design idecibel f d n N).a2a0 < 1 ∧ |(design idecibel f d n N).a1a0| < 1 + (design idecibel f d n N).a2a0 := by
  obtain ⟨al, h0, h1, h2⟩ := design_den idecibel hi f d hd n N hn hN
  have hc := abs_cos_lt hn hN
  rw [h1, h2]
  refine ⟨by rw [div_lt_one (by linarith)]; linarith, ?_⟩
  rw [abs_div, abs_mul, abs_of_pos (by linarith : 0 < 1 + al), show 1 + (1 - al) / (1 + al) = 2 / (1 + al) from by field_simp; ring]
  rw [div_lt_div_iff_of_pos_right (by linarith)]
  norm_num; linarith

/-- The poles lie strictly inside of the unit circle. -/
theorem C47_poles {E : Type} (idecibel : ℝ → ℝ) (hi : ∀ q, 0 < idecibel q) (f : Biquad ℝ E) (d : Design) (hd : d.Positive)
    (n N : ℤ) (hn : 0 < n) (hN : 2 * n < N) (z : ℂ)
    (hz : z ^ 2 + (design idecibel f d n N).a1a0 * z + (design idecibel f d n N).a2a0 = 0) : ‖z‖ < 1 := by
  obtain ⟨h1, h2⟩ := design_jury idecibel hi f d hd n N hn hN
  exact jury _ _ h1 h2 z hz

/-- Outputs of a stable filter: if the inputs vanish, so do the outputs, whatever was fed before. -/
theorem vanish (f : Biquad ℝ ℂ) (h1 : f.a2a0 < 1) (h2 : |f.a1a0| < 1 + f.a2a0) (x : ℕ → ℂ) (hx : Tendsto x atTop (𝓝 0)) :
    Tendsto (stream call f x) atTop (𝓝 0) := by
  refine second_tendsto f.a1a0 f.a2a0 h1 h2 _ (fun n => f.b0a0 * x (n + 2) + f.b1a0 * x (n + 1) + f.b2a0 * x n) (fun n => ?_) ?_
  · rw [stream_two]; simp only [Complex.real_smul]
  · have := (((hx.comp (tendsto_add_atTop_nat 2)).const_mul (f.b0a0 : ℂ)).add
      ((hx.comp (tendsto_add_atTop_nat 1)).const_mul (f.b1a0 : ℂ))).add (hx.const_mul (f.b2a0 : ℂ))
    simpa using this

/-- The free response (any past, then silence) decays to zero. -/
theorem C47_free (idecibel : ℝ → ℝ) (hi : ∀ q, 0 < idecibel q) (f : Biquad ℝ ℂ) (d : Design) (hd : d.Positive)
    (n N : ℤ) (hn : 0 < n) (hN : 2 * n < N) : Tendsto (stream call (design idecibel f d n N) (fun _ => 0)) atTop (𝓝 0) := by
  obtain ⟨h1, h2⟩ := design_jury idecibel hi f d hd n N hn hN
  exact vanish _ h1 h2 _ tendsto_const_nhds

/-- Bounded inputs give bounded outputs. -/
theorem C47_bounded (idecibel : ℝ → ℝ) (hi : ∀ q, 0 < idecibel q) (f : Biquad ℝ ℂ) (d : Design) (hd : d.Positive)
    (n N : ℤ) (hn : 0 < n) (hN : 2 * n < N) (x : ℕ → ℂ) (B : ℝ) (hx : ∀ k, ‖x k‖ ≤ B) :
    ∃ C, ∀ k, ‖stream call (design idecibel f d n N) x k‖ ≤ C := by
  obtain ⟨h1, h2⟩ := design_jury idecibel hi f d hd n N hn hN
  set g := design idecibel f d n N
  refine second_bounded g.a1a0 g.a2a0 h1 h2 _ (fun n => g.b0a0 * x (n + 2) + g.b1a0 * x (n + 1) + g.b2a0 * x n) (fun n => ?_)
    (|g.b0a0| * B + |g.b1a0| * B + |g.b2a0| * B) (fun n => ?_)
  · rw [stream_two]; simp only [Complex.real_smul]
  · refine (norm_add₃_le).trans ?_
    simp only [norm_mul, Complex.norm_real, Real.norm_eq_abs]
    have a1 := mul_le_mul_of_nonneg_left (hx (n + 2)) (abs_nonneg g.b0a0)
    have a2 := mul_le_mul_of_nonneg_left (hx (n + 1)) (abs_nonneg g.b1a0)
    have a3 := mul_le_mul_of_nonneg_left (hx n) (abs_nonneg g.b2a0)
    linarith

/-- A filter for complex samples fed with reals. -/
def complexify (f : Biquad ℝ ℝ) : Biquad ℝ ℂ :=
  ⟨f.x1, f.x2, f.y1, f.y2, f.b0a0, f.b1a0, f.b2a0, f.a1a0, f.a2a0⟩

theorem stream_complexify (f : Biquad ℝ ℝ) (x : ℕ → ℝ) (n : ℕ) :
    stream call (complexify f) (fun k => (x k : ℂ)) n = (stream call f x n : ℝ) := by
  induction n using Nat.strong_induction_on with
  | _ n ih =>
    match n with
    | 0 => simp [stream_zero, complexify]
    | 1 => rw [stream_one, ih 0 (by omega), stream_one]; simp [complexify]
    | n + 2 => rw [stream_two, ih n (by omega), ih (n + 1) (by omega), stream_two]; simp [complexify]

theorem design_complexify (idecibel : ℝ → ℝ) (f : Biquad ℝ ℝ) (d : Design) (n N : ℤ) :
    complexify (design idecibel f d n N) = design idecibel (complexify f) d n N := by cases d <;> rfl

/-- `C47_free` for real samples. -/
theorem C47_free_real (idecibel : ℝ → ℝ) (hi : ∀ q, 0 < idecibel q) (f : Biquad ℝ ℝ) (d : Design) (hd : d.Positive)
    (n N : ℤ) (hn : 0 < n) (hN : 2 * n < N) : Tendsto (stream call (design idecibel f d n N) (fun _ => 0)) atTop (𝓝 0) := by
  have h := C47_free idecibel hi (complexify f) d hd n N hn hN
  have h2 := (Complex.continuous_re.tendsto 0).comp h
  refine h2.congr fun k => ?_
  have h3 := stream_complexify (design idecibel f d n N) (fun _ => 0) k
  rw [design_complexify] at h3
  simp only [Complex.ofReal_zero] at h3
  simp only [Function.comp, h3, Complex.ofReal_re]

/-- `C47_bounded` for real samples. -/
theorem C47_bounded_real (idecibel : ℝ → ℝ) (hi : ∀ q, 0 < idecibel q) (f : Biquad ℝ ℝ) (d : Design) (hd : d.Positive)
    (n N : ℤ) (hn : 0 < n) (hN : 2 * n < N) (x : ℕ → ℝ) (B : ℝ) (hx : ∀ k, |x k| ≤ B) :
    ∃ C, ∀ k, |stream call (design idecibel f d n N) x k| ≤ C := by
  obtain ⟨C, h⟩ := C47_bounded idecibel hi (complexify f) d hd n N hn hN (fun k => x k) B (fun k => by simpa using hx k)
  refine ⟨C, fun k => ?_⟩
  have h2 := h k
  rw [← design_complexify, stream_complexify] at h2
  simpa using h2

/-- A lowpass at an eighth of the sampling rate meets the hypotheses. -/
example : (Design.lowpass 1).Positive ∧ (0 : ℤ) < 1 ∧ 2 * (1 : ℤ) < 8 ∧ ∀ q : ℝ, 0 < (fun q : ℝ => Real.exp q) q :=
  ⟨one_pos, by decide, by decide, fun q => Real.exp_pos q⟩

/-! ### C48: frequency responses -/

/-- `B(z) / A(z)` at `z = exp(i w)`. -/
noncomputable def response {E : Type} (f : Biquad ℝ E) (w : ℝ) : ℂ :=
  (f.b0a0 + f.b1a0 * Complex.exp (-(w * Complex.I)) + f.b2a0 * Complex.exp (-(w * Complex.I)) ^ 2) /
  (1 + f.a1a0 * Complex.exp (-(w * Complex.I)) + f.a2a0 * Complex.exp (-(w * Complex.I)) ^ 2)

theorem den_ne (a b w : ℝ) (hb : b < 1) (ha : |a| < 1 + b) :
    (1 + a * Complex.exp (-(w * Complex.I)) + b * Complex.exp (-(w * Complex.I)) ^ 2 : ℂ) ≠ 0 := by
  intro h
  have hz : Complex.exp (w * Complex.I) * Complex.exp (-(w * Complex.I)) = 1 := by rw [← Complex.exp_add]; simp
  have := jury a b hb ha (Complex.exp (w * Complex.I)) (by
    linear_combination Complex.exp (w * Complex.I) ^ 2 * h -
      (a * Complex.exp (w * Complex.I) + b * (Complex.exp (w * Complex.I) * Complex.exp (-(w * Complex.I)) + 1)) * hz)
  rw [Complex.norm_exp_ofReal_mul_I] at this
  exact lt_irrefl _ this

/-- Fed with anything that settles to `c * exp(i w k)`, a stable filter settles to `response * c * exp(i w k)`. -/
theorem settle (f : Biquad ℝ ℂ) (h1 : f.a2a0 < 1) (h2 : |f.a1a0| < 1 + f.a2a0) (w : ℝ) (c : ℂ) (x : ℕ → ℂ)
    (hx : Tendsto (fun k : ℕ => x k - c * Complex.exp (w * k * Complex.I)) atTop (𝓝 0)) :
    Tendsto (fun k : ℕ => stream call f x k - response f w * c * Complex.exp (w * k * Complex.I)) atTop (𝓝 0) := by
  have hd := den_ne f.a1a0 f.a2a0 w h1 h2
  set e := Complex.exp (-(w * Complex.I))
  have hr : response f w * (1 + f.a1a0 * e + f.a2a0 * e ^ 2) = f.b0a0 + f.b1a0 * e + f.b2a0 * e ^ 2 := by
    rw [response, div_mul_cancel₀ _ hd]
  have he : ∀ k : ℕ, Complex.exp (w * k * Complex.I) = e * Complex.exp (w * (k + 1 : ℕ) * Complex.I) := by
    intro k
    rw [← Complex.exp_add]; congr 1; push_cast; ring
  refine second_tendsto f.a1a0 f.a2a0 h1 h2 _ (fun n =>
    f.b0a0 * (x (n + 2) - c * Complex.exp (w * (n + 2 : ℕ) * Complex.I)) +
    f.b1a0 * (x (n + 1) - c * Complex.exp (w * (n + 1 : ℕ) * Complex.I)) +
    f.b2a0 * (x n - c * Complex.exp (w * n * Complex.I))) (fun n => ?_) ?_
  · rw [stream_two]
    simp only [Complex.real_smul]
    rw [he n, he (n + 1)]
    linear_combination (-(c * Complex.exp (w * (n + 1 + 1 : ℕ) * Complex.I))) * hr
  · have := (((hx.comp (tendsto_add_atTop_nat 2)).const_mul (f.b0a0 : ℂ)).add
      ((hx.comp (tendsto_add_atTop_nat 1)).const_mul (f.b1a0 : ℂ))).add (hx.const_mul (f.b2a0 : ℂ))
    simpa using this

/-- `response` is what can be observed: fed with `exp(i w k)`, the output of a design settles to `response * exp(i w k)`. -/
theorem C48_settles (idecibel : ℝ → ℝ) (hi : ∀ q, 0 < idecibel q) (f : Biquad ℝ ℂ) (d : Design) (hd : d.Positive)
    (n N : ℤ) (hn : 0 < n) (hN : 2 * n < N) (w : ℝ) :
    Tendsto (fun k : ℕ => stream call (design idecibel f d n N) (fun k : ℕ => Complex.exp (w * k * Complex.I)) k -
      response (design idecibel f d n N) w * Complex.exp (w * k * Complex.I)) atTop (𝓝 0) := by
  obtain ⟨h1, h2⟩ := design_jury idecibel hi f d hd n N hn hN
  have := settle _ h1 h2 w 1 (fun k : ℕ => Complex.exp (w * k * Complex.I)) (by simp)
  simpa using this

theorem exp_cis (w : ℝ) : Complex.exp (-(w * Complex.I)) = Complex.cos w - Complex.sin w * Complex.I := by
  rw [show -((w : ℂ) * Complex.I) = (-w : ℂ) * Complex.I from by ring, Complex.exp_mul_I, Complex.cos_neg, Complex.sin_neg]; ring

/-- The responses in closed form: numerator and denominator times `exp(i w) / 2`. -/
theorem response_set {E : Type} (f : Biquad ℝ E) (b0 b1 b2 c al w : ℝ) (ha : 0 < al) :
    response (f.set b0 b1 b2 (1 + al) (-2 * c) (1 - al)) w =
    ((b0 + b2) * Complex.cos w + b1 + (b0 - b2) * Complex.sin w * Complex.I) /
      (2 * (Complex.cos w - c) + 2 * al * Complex.sin w * Complex.I) := by
  have h : (1 + al : ℂ) ≠ 0 := by exact_mod_cast (by linarith : (1 + al : ℝ) ≠ 0)
  have hz : Complex.exp (w * Complex.I) ≠ 0 := Complex.exp_ne_zero _
  have hc : Complex.exp (w * Complex.I) = Complex.cos w + Complex.sin w * Complex.I := Complex.exp_mul_I _
  have hm : Complex.exp (w * Complex.I) * Complex.exp (-(w * Complex.I)) = 1 := by rw [← Complex.exp_add]; simp
  have hI := Complex.I_mul_I
  simp only [response, set]
  push_cast
  rw [← mul_div_mul_left _ _ (mul_ne_zero hz h)]
  congr 1
  · have e : Complex.exp (w * Complex.I) * (1 + al) * (b0 / (1 + al) + b1 / (1 + al) * Complex.exp (-(w * Complex.I)) +
        b2 / (1 + al) * Complex.exp (-(w * Complex.I)) ^ 2) =
        b0 * Complex.exp (w * Complex.I) + b1 * (Complex.exp (w * Complex.I) * Complex.exp (-(w * Complex.I))) +
        b2 * (Complex.exp (w * Complex.I) * Complex.exp (-(w * Complex.I))) * Complex.exp (-(w * Complex.I)) := by
      field_simp
    rw [e, hm, hc, exp_cis]; ring
  · have e : Complex.exp (w * Complex.I) * (1 + al) * (1 + -2 * c / (1 + al) * Complex.exp (-(w * Complex.I)) +
        (1 - al) / (1 + al) * Complex.exp (-(w * Complex.I)) ^ 2) =
        (1 + al) * Complex.exp (w * Complex.I) + -2 * c * (Complex.exp (w * Complex.I) * Complex.exp (-(w * Complex.I))) +
        (1 - al) * (Complex.exp (w * Complex.I) * Complex.exp (-(w * Complex.I))) * Complex.exp (-(w * Complex.I)) := by
      field_simp
    rw [e, hm, hc, exp_cis]; ring

section Gains

variable {E : Type} (f : Biquad ℝ E) (n N : ℤ) (hn : 0 < n) (hN : 2 * n < N)
include hn hN

theorem lowpass_response (Q : ℝ) (hQ : 0 < Q) (w : ℝ) : response (f.lowpass exactSin exactCos n N Q) w =
    ((1 - exactCos n N) * (1 + Complex.cos w)) /
      (2 * (Complex.cos w - exactCos n N) + 2 * (exactSin n N / (2 * Q)) * Complex.sin w * Complex.I) := by
  rw [lowpass, response_set _ _ _ _ _ _ _ (div_pos (sin_pos hn hN) (mul_pos two_pos hQ))]
  push_cast; congr 1; ring

theorem highpass_response (Q : ℝ) (hQ : 0 < Q) (w : ℝ) : response (f.highpass exactSin exactCos n N Q) w =
    ((1 + exactCos n N) * (Complex.cos w - 1)) /
      (2 * (Complex.cos w - exactCos n N) + 2 * (exactSin n N / (2 * Q)) * Complex.sin w * Complex.I) := by
  rw [highpass, response_set _ _ _ _ _ _ _ (div_pos (sin_pos hn hN) (mul_pos two_pos hQ))]
  push_cast; congr 1; ring

theorem one_sub_cos_ne : (1 - exactCos n N : ℂ) ≠ 0 ∧ (1 + exactCos n N : ℂ) ≠ 0 := by
  have h := abs_lt.mp (abs_cos_lt hn hN)
  exact ⟨by exact_mod_cast (by linarith : (1 - exactCos n N : ℝ) ≠ 0), by exact_mod_cast (by linarith : (1 + exactCos n N : ℝ) ≠ 0)⟩

/-- Lowpass: gain 1 at DC, 0 at the Nyquist frequency, Q at the corner. -/
theorem C48_lowpass (Q : ℝ) (hQ : 0 < Q) :
    response (f.lowpass exactSin exactCos n N Q) 0 = 1 ∧ response (f.lowpass exactSin exactCos n N Q) Real.pi = 0 ∧
    ‖response (f.lowpass exactSin exactCos n N Q) (2 * Real.pi * n / N)‖ = Q := by
  obtain ⟨h1, h2⟩ := one_sub_cos_ne n N hn hN
  refine ⟨?_, ?_, ?_⟩
  · rw [lowpass_response f n N hn hN Q hQ, Complex.ofReal_zero, Complex.cos_zero, Complex.sin_zero]
    rw [div_eq_one_iff_eq] <;> ring_nf
    intro h; apply h1; linear_combination (1 / 2 : ℂ) * h
  · rw [lowpass_response f n N hn hN Q hQ, Complex.cos_pi]; simp
  · have hs := sin_pos hn hN
    rw [lowpass_response f n N hn hN Q hQ, ← Complex.ofReal_cos, ← Complex.ofReal_sin, ← exactCos, ← exactSin]
    have e : ((1 - exactCos n N) * (1 + exactCos n N)) / (2 * (exactCos n N - exactCos n N) +
        2 * (exactSin n N / (2 * Q)) * exactSin n N * Complex.I) = (Q : ℂ) / Complex.I := by
      have hsq : ((1 - exactCos n N) * (1 + exactCos n N) : ℂ) = (exactSin n N : ℂ) ^ 2 := by
        have := sq_add_sq n N
        exact_mod_cast (by linarith : (1 - exactCos n N) * (1 + exactCos n N) = exactSin n N ^ 2)
      have h3 : (exactSin n N : ℂ) ≠ 0 := by exact_mod_cast hs.ne'
      have h4 : (Q : ℂ) ≠ 0 := by exact_mod_cast hQ.ne'
      have h5 := Complex.I_ne_zero
      rw [hsq, sub_self]
      field_simp
      ring
    rw [e, norm_div, Complex.norm_I, div_one, Complex.norm_real, Real.norm_eq_abs, abs_of_pos hQ]

/-- Highpass: gain 0 at DC, 1 at the Nyquist frequency, Q at the corner. -/
theorem C48_highpass (Q : ℝ) (hQ : 0 < Q) :
    response (f.highpass exactSin exactCos n N Q) 0 = 0 ∧ response (f.highpass exactSin exactCos n N Q) Real.pi = 1 ∧
    ‖response (f.highpass exactSin exactCos n N Q) (2 * Real.pi * n / N)‖ = Q := by
  obtain ⟨h1, h2⟩ := one_sub_cos_ne n N hn hN
  refine ⟨?_, ?_, ?_⟩
  · rw [highpass_response f n N hn hN Q hQ, Complex.ofReal_zero, Complex.cos_zero]; simp
  · rw [highpass_response f n N hn hN Q hQ, Complex.cos_pi, Complex.sin_pi]
    rw [div_eq_one_iff_eq] <;> ring_nf
    intro h; apply h2; linear_combination (-(1 / 2) : ℂ) * h
  · have hs := sin_pos hn hN
    rw [highpass_response f n N hn hN Q hQ, ← Complex.ofReal_cos, ← Complex.ofReal_sin, ← exactCos, ← exactSin]
    have e : ((1 + exactCos n N) * (exactCos n N - 1)) / (2 * (exactCos n N - exactCos n N) +
        2 * (exactSin n N / (2 * Q)) * exactSin n N * Complex.I) = -((Q : ℂ) / Complex.I) := by
      have hsq : ((1 + exactCos n N) * (exactCos n N - 1) : ℂ) = -(exactSin n N : ℂ) ^ 2 := by
        have := sq_add_sq n N
        exact_mod_cast (by linarith : (1 + exactCos n N) * (exactCos n N - 1) = -exactSin n N ^ 2)
      have h3 : (exactSin n N : ℂ) ≠ 0 := by exact_mod_cast hs.ne'
      have h4 : (Q : ℂ) ≠ 0 := by exact_mod_cast hQ.ne'
      have h5 := Complex.I_ne_zero
      rw [hsq, sub_self]
      field_simp
      ring
    rw [e, norm_neg, norm_div, Complex.norm_I, div_one, Complex.norm_real, Real.norm_eq_abs, abs_of_pos hQ]

variable (idecibel : ℝ → ℝ) (hi : ∀ q, 0 < idecibel q)
include hi

theorem alpha_pos (q : ℝ) : 0 < exactSin n N / (2 * idecibel q) := div_pos (sin_pos hn hN) (mul_pos two_pos (hi q))

/-- Notch: nothing passes at the centre, everything at DC and the Nyquist frequency. -/
theorem C48_notch (q : ℝ) :
    response (f.notch exactSin exactCos idecibel n N q) (2 * Real.pi * n / N) = 0 ∧
    response (f.notch exactSin exactCos idecibel n N q) 0 = 1 ∧
    response (f.notch exactSin exactCos idecibel n N q) Real.pi = 1 := by
  obtain ⟨h1, h2⟩ := one_sub_cos_ne n N hn hN
  have ha := alpha_pos n N hn hN idecibel hi q
  refine ⟨?_, ?_, ?_⟩
  · rw [notch, response_set _ _ _ _ _ _ _ ha, ← Complex.ofReal_cos, ← exactCos]
    push_cast; ring_nf
  · rw [notch, response_set _ _ _ _ _ _ _ ha, Complex.ofReal_zero, Complex.cos_zero, Complex.sin_zero]
    rw [div_eq_one_iff_eq] <;> push_cast <;> ring_nf
    intro h; apply h1; linear_combination (1 / 2 : ℂ) * h
  · rw [notch, response_set _ _ _ _ _ _ _ ha, Complex.cos_pi, Complex.sin_pi]
    rw [div_eq_one_iff_eq] <;> push_cast <;> ring_nf
    intro h; apply h2; linear_combination (-(1 / 2) : ℂ) * h

/-- Bandpass: gain one at the centre, nothing at DC and the Nyquist frequency. -/
theorem C48_bandpass (q : ℝ) :
    response (f.bandpass exactSin exactCos idecibel n N q) (2 * Real.pi * n / N) = 1 ∧
    response (f.bandpass exactSin exactCos idecibel n N q) 0 = 0 ∧
    response (f.bandpass exactSin exactCos idecibel n N q) Real.pi = 0 := by
  have ha := alpha_pos n N hn hN idecibel hi q
  have hs := sin_pos hn hN
  refine ⟨?_, ?_, ?_⟩
  · rw [bandpass, response_set _ _ _ _ _ _ _ ha, ← Complex.ofReal_cos, ← Complex.ofReal_sin, ← exactCos, ← exactSin]
    have h3 : (exactSin n N : ℂ) ≠ 0 := by exact_mod_cast hs.ne'
    have h4 : ((exactSin n N / (2 * idecibel q) : ℝ) : ℂ) ≠ 0 := by exact_mod_cast ha.ne'
    have h5 := Complex.I_ne_zero
    have h6 : (2 * ((exactSin n N / (2 * idecibel q) : ℝ) : ℂ) * exactSin n N * Complex.I) ≠ 0 :=
      mul_ne_zero (mul_ne_zero (mul_ne_zero two_ne_zero h4) h3) h5
    rw [sub_self, mul_zero, zero_add, div_eq_one_iff_eq h6]
    simp only [Complex.ofReal_neg, Complex.ofReal_zero]
    ring
  · rw [bandpass, response_set _ _ _ _ _ _ _ ha, Complex.ofReal_zero, Complex.cos_zero, Complex.sin_zero]; simp
  · rw [bandpass, response_set _ _ _ _ _ _ _ ha, Complex.sin_pi, Complex.cos_pi]; simp

/-- Allpass: gain one at every frequency. -/
theorem C48_allpass (q w : ℝ) : ‖response (f.allpass exactSin exactCos idecibel n N q) w‖ = 1 := by
  have ha := alpha_pos n N hn hN idecibel hi q
  obtain ⟨j1, j2⟩ := design_jury idecibel hi f (.allpass q) trivial n N hn hN
  rw [allpass, response_set _ _ _ _ _ _ _ ha]
  set al := exactSin n N / (2 * idecibel q)
  have e : (((1 - al : ℝ) + (1 + al : ℝ)) * Complex.cos w + (-2 * exactCos n N : ℝ) +
      ((1 - al : ℝ) - (1 + al : ℝ)) * Complex.sin w * Complex.I : ℂ) =
      (starRingEnd ℂ) (2 * (Complex.cos w - exactCos n N) + 2 * al * Complex.sin w * Complex.I) := by
    simp only [map_add, map_sub, map_mul, Complex.conj_ofReal, Complex.conj_I, ← Complex.ofReal_cos, ← Complex.ofReal_sin]
    rw [Complex.conj_ofNat]
    push_cast; ring
  rw [e, norm_div, Complex.norm_conj]
  apply div_self
  rw [norm_ne_zero_iff]
  intro h
  rw [← Complex.ofReal_cos, ← Complex.ofReal_sin] at h
  have hre := congrArg Complex.re h
  have him := congrArg Complex.im h
  simp [-Complex.ofReal_cos, -Complex.ofReal_sin] at hre him
  have hc := abs_lt.mp (abs_cos_lt hn hN)
  have h1 := Real.sin_sq_add_cos_sq w
  rcases him with h3 | h3
  · linarith
  · rw [h3, show Real.cos w = exactCos n N from by linarith] at h1
    nlinarith

end Gains

end Biquad
end DSP
