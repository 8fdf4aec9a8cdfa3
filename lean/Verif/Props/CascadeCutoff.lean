import Verif.Model.CascadeCutoff
import Verif.Props.EMACascade
import Verif.Props.Constants
import Mathlib.Analysis.Convex.SpecificFunctions.Deriv
import Mathlib.Analysis.SpecialFunctions.Trigonometric.Bounds

/-!
# C72: the half power point of EMACascade
-/

namespace DSP
namespace EMACascade

open Filter Topology

/-- The response of a cascade is that of a single stage to the power `ORDER`: fed with `exp(i w k)`, the output approaches `response^ORDER * exp(i w k)`. -/
theorem C72_response (ORDER : ℕ) (a w : ℝ) (h0 : 0 < a) (h1 : a ≤ 1) :
    Tendsto (fun n : ℕ => stream call { (init ORDER : EMACascade ℝ ℂ) with alpha := a } (fun k : ℕ => Complex.exp (w * k * Complex.I)) n -
      EMA.response a w ^ ORDER * Complex.exp (w * n * Complex.I)) atTop (𝓝 0) := by
  have hden : (1 - (1 - a) * Complex.exp (-(w * Complex.I)) : ℂ) ≠ 0 := by
    intro h
    have h2 := EMA.normSq_den a w
    rw [h, map_zero] at h2
    have := Real.cos_le_one w
    nlinarith
  have stage : ∀ (c : ℂ) (x : ℕ → ℂ), Tendsto (fun n : ℕ => x n - c * Complex.exp (w * n * Complex.I)) atTop (𝓝 0) →
      Tendsto (fun n : ℕ => stream EMA.call (EMA.init (0 : ℂ) a) x n - c * EMA.response a w * Complex.exp (w * n * Complex.I)) atTop (𝓝 0) := by
    intro c x hx
    have h := recursion_tendsto (fun n : ℕ => (states EMA.call (EMA.init (0 : ℂ) a) x n).prev - c * EMA.response a w * Complex.exp (w * ((n : ℂ) - 1) * Complex.I))
      (fun n => a • (x n - c * Complex.exp (w * n * Complex.I))) (1 - a) (by rw [Real.norm_eq_abs, abs_of_nonneg (by linarith)]; linarith) (fun n => ?_) ?_
    · have h2 := h.comp (tendsto_add_atTop_nat 1)
      refine h2.congr fun n => ?_
      simp [EMA.stream_eq]
    · have e : Complex.exp (w * ((n : ℂ) - 1) * Complex.I) = Complex.exp (-(w * Complex.I)) * Complex.exp (w * n * Complex.I) := by
        rw [← Complex.exp_add]; congr 1; ring
      have hr : EMA.response a w * (1 - (1 - a) * Complex.exp (-(w * Complex.I))) = a := by rw [EMA.response]; field_simp
      simp only [EMA.prev_succ, lerp, EMA.init]
      push_cast
      rw [show (n : ℂ) + 1 - 1 = n by ring, e]
      simp only [Complex.real_smul]
      push_cast
      linear_combination (-c * Complex.exp (w * n * Complex.I)) * hr
    · have := hx.const_smul a
      simpa using this
  have key : ∀ (c : ℂ) (x : ℕ → ℂ), Tendsto (fun n : ℕ => x n - c * Complex.exp (w * n * Complex.I)) atTop (𝓝 0) →
      Tendsto (fun n : ℕ => stream call (⟨List.replicate ORDER 0, a⟩ : EMACascade ℝ ℂ) x n - c * EMA.response a w ^ ORDER * Complex.exp (w * n * Complex.I)) atTop (𝓝 0) := by
    induction ORDER with
    | zero => intro c x hx; simpa [stream_nil] using hx
    | succ k ih =>
      intro c x hx
      rw [List.replicate_succ, stream_cons, pow_succ', ← mul_assoc]
      exact ih _ _ (stage c x hx)
  have := key 1 (fun k : ℕ => Complex.exp (w * k * Complex.I)) (by simp)
  simpa [init] using this

end EMACascade

namespace Spec

/-- The power that a recursion with the response `H` lets pass at bin `b` of `N`. -/
noncomputable def powerAt (H : ℝ → ℂ) (N b : ℝ) : ℝ := ‖H (2 * Real.pi * b / N)‖ ^ 2

/-- The half power point of `ORDER` equal first order low passes relative to that of one. -/
noncomputable def cascadeRatio (ORDER : ℕ) : ℝ := Real.sqrt ((2 : ℝ) ^ (1 / (ORDER : ℝ)) - 1)

end Spec

namespace EMACascade

open Spec

/-- The response of the cascade after `cutoff(n, N)`. -/
noncomputable def tuned (ORDER : ℕ) (n N : ℤ) (w : ℝ) : ℂ := EMA.response (setCutoff ORDER (init ORDER : EMACascade ℝ ℂ) n N).alpha w ^ ORDER

theorem cutoffBin_near (ORDER n : ℤ) : |(cutoffBin ORDER n : ℝ) - n / cascadeFactor ORDER| ≤ 1 / 2 := Binary.nearestReal_near _

theorem factor_bounds (ORDER : ℕ) (h1 : 1 ≤ ORDER) (h2 : ORDER ≤ 16) : (0.21 : ℝ) ≤ cascadeFactor ORDER ∧ cascadeFactor ORDER ≤ 1 := by
  interval_cases ORDER <;> norm_num [cascadeFactor]

theorem factor_pos (ORDER : ℕ) (h1 : 1 ≤ ORDER) : (0.21 : ℝ) ≤ cascadeFactor ORDER ∧ cascadeFactor ORDER ≤ 1 := by
  by_cases h : ORDER ≤ 16
  · exact factor_bounds ORDER h1 h
  · rw [(Const.C40_cascade_limit ORDER (by omega)).1]; norm_num

theorem cutoffBin_pos (ORDER : ℕ) (h1 : 1 ≤ ORDER) (n : ℤ) (hn : 0 < n) : 0 < cutoffBin ORDER n := by
  obtain ⟨h3, h4⟩ := factor_pos ORDER h1
  have h := cutoffBin_near ORDER n
  have hn' : (1 : ℝ) ≤ n := by exact_mod_cast hn
  have : (1 : ℝ) ≤ n / cascadeFactor ORDER := by rw [le_div_iff₀ (by linarith)]; linarith
  rw [abs_le] at h
  have h5 : (0 : ℝ) < cutoffBin ORDER n := by linarith [h.1]
  exact_mod_cast h5

/-- The power in terms of the bin `m` where a single stage has its half power point. -/
theorem power_eq (ORDER : ℕ) (n N : ℤ) (hm : 0 < cutoffBin ORDER n) (hN : 2 * cutoffBin ORDER n ≤ N) (b : ℝ) :
    powerAt (tuned ORDER n N) N b =
    (Real.sin (Real.pi * cutoffBin ORDER n / N) ^ 2 / (Real.sin (Real.pi * cutoffBin ORDER n / N) ^ 2 + Real.sin (Real.pi * b / N) ^ 2)) ^ ORDER ∧
    0 < Real.sin (Real.pi * cutoffBin ORDER n / N) := by
  obtain ⟨h0, h1, h2, -⟩ := C44_cutoff (init ORDER : EMACascade ℝ ℂ) (cutoffBin ORDER) n N hm hN
  unfold tuned setCutoff powerAt
  set a := ((init ORDER : EMACascade ℝ ℂ).cutoff exactCos Real.sqrt (cutoffBin ORDER) n N).alpha
  set m := cutoffBin ORDER n
  have hN0 : (0 : ℝ) < N := by exact_mod_cast (by omega : 0 < N)
  have hm0 : (0 : ℝ) < m := by exact_mod_cast hm
  have hmN : 2 * (m : ℝ) ≤ N := by exact_mod_cast hN
  have half : ∀ w : ℝ, ‖EMA.response a w‖ ^ 2 = a ^ 2 / (a ^ 2 + 4 * (1 - a) * Real.sin (w / 2) ^ 2) := by
    intro w
    rw [EMA.response, norm_div, div_pow, ← Complex.normSq_eq_norm_sq (1 - _), EMA.normSq_den, Complex.norm_real, Real.norm_eq_abs, sq_abs]
    congr 1
    have : Real.cos w = 1 - 2 * Real.sin (w / 2) ^ 2 := by
      have h := Real.cos_two_mul (w / 2)
      rw [show 2 * (w / 2) = w by ring, Real.cos_sq'] at h
      rw [h]; ring
    rw [this]; ring
  have hs : 0 < Real.sin (Real.pi * m / N) := by
    apply Real.sin_pos_of_pos_of_lt_pi (by positivity)
    rw [div_lt_iff₀ hN0]
    nlinarith [Real.pi_pos]
  refine ⟨?_, hs⟩
  rw [norm_pow, ← pow_mul, mul_comm ORDER 2, pow_mul, half]
  rw [half] at h2
  have e1 : 2 * Real.pi * m / N / 2 = Real.pi * m / N := by ring
  have e2 : 2 * Real.pi * b / N / 2 = Real.pi * b / N := by ring
  rw [e1] at h2
  rw [e2]
  set s := Real.sin (Real.pi * m / N)
  set t := Real.sin (Real.pi * b / N)
  have hp : 0 < a ^ 2 + 4 * (1 - a) * s ^ 2 := by
    have : 0 ≤ (1 - a) * s ^ 2 := mul_nonneg (by linarith) (by positivity)
    nlinarith [pow_pos h0 2]
  rw [div_eq_div_iff hp.ne' (by norm_num)] at h2
  have ha : a ^ 2 = 4 * (1 - a) * s ^ 2 := by linarith
  have h1' : 0 < 1 - a := by
    rcases h1.lt_or_eq with h | h
    · linarith
    · rw [h] at ha; norm_num at ha
  congr 1
  rw [ha]
  have hq : 0 < s ^ 2 + t ^ 2 := by positivity
  rw [div_eq_div_iff (by nlinarith [mul_pos h1' hq]) hq.ne']
  ring

theorem ratio_pow (ORDER : ℕ) (h1 : 1 ≤ ORDER) : (1 + cascadeRatio ORDER ^ 2) ^ ORDER = 2 ∧ 0 ≤ cascadeRatio ORDER ∧ cascadeRatio ORDER ≤ 1 := by
  have h2 : (1 : ℝ) ≤ (2 : ℝ) ^ (1 / (ORDER : ℝ)) := Real.one_le_rpow (by norm_num) (by positivity)
  have h3 : (2 : ℝ) ^ (1 / (ORDER : ℝ)) ≤ 2 := by
    have : (2 : ℝ) ^ (1 / (ORDER : ℝ)) ≤ (2 : ℝ) ^ (1 : ℝ) := by
      apply Real.rpow_le_rpow_of_exponent_le (by norm_num)
      rw [div_le_one (by exact_mod_cast h1)]
      exact_mod_cast h1
    rwa [Real.rpow_one] at this
  refine ⟨?_, Real.sqrt_nonneg _, Real.sqrt_le_one.mpr (by linarith)⟩
  rw [cascadeRatio, Real.sq_sqrt (by linarith)]
  have := Real.rpow_inv_natCast_pow (x := 2) (n := ORDER) (by norm_num) (by omega)
  rw [one_div, show 1 + ((2 : ℝ) ^ ((ORDER : ℝ)⁻¹) - 1) = (2 : ℝ) ^ ((ORDER : ℝ)⁻¹) by ring]
  exact this

/-- Half of the power passes exactly if the sines of half the frequencies have the ratio of the cascade. -/
theorem half_iff (ORDER : ℕ) (h1 : 1 ≤ ORDER) {s t : ℝ} (hs : 0 < s) (ht : 0 ≤ t) :
    ((s ^ 2 / (s ^ 2 + t ^ 2)) ^ ORDER ≤ 1 / 2 ↔ cascadeRatio ORDER * s ≤ t) ∧ (1 / 2 ≤ (s ^ 2 / (s ^ 2 + t ^ 2)) ^ ORDER ↔ t ≤ cascadeRatio ORDER * s) := by
  obtain ⟨h2, h3, -⟩ := ratio_pow ORDER h1
  set F := cascadeRatio ORDER
  have hF : (0 : ℝ) < 1 + F ^ 2 := by positivity
  have e : (1 / 2 : ℝ) = (1 / (1 + F ^ 2)) ^ ORDER := by rw [div_pow, one_pow, h2]
  have hq : 0 < s ^ 2 + t ^ 2 := by positivity
  have hs2 : 0 < s ^ 2 := by positivity
  rw [e, pow_le_pow_iff_left₀ (by positivity) (by positivity) (by omega), pow_le_pow_iff_left₀ (by positivity) (by positivity) (by omega), div_le_div_iff₀ hq hF, div_le_div_iff₀ hF hq]
  have hFs : 0 ≤ F * s := by positivity
  constructor
  · rw [← pow_le_pow_iff_left₀ hFs ht (two_ne_zero)]
    constructor <;> intro h <;> nlinarith
  · rw [← pow_le_pow_iff_left₀ ht hFs (two_ne_zero)]
    constructor <;> intro h <;> nlinarith

/-- **C72.** After `cutoff(n, N)` of a cascade of up to sixteen stages the power falls with the frequency and the half power point lies between `F m (1 - (pi m / N)^2 / 6)` and `F m` bins, where
`F` is the exact ratio, `m` the bin chosen by the code, which must not exceed `N / 2`, and `F m` differs from `n` by at most half of `F` and the last digit of the constant. -/
theorem C72_half_power (ORDER : ℕ) (h1 : 1 ≤ ORDER) (h2 : ORDER ≤ 16) (n N : ℤ) (hn : 0 < n) (hN : 2 * cutoffBin ORDER n ≤ N) :
    StrictAntiOn (powerAt (tuned ORDER n N) N) (Set.Icc 0 (N / 2)) ∧
    powerAt (tuned ORDER n N) N (cascadeRatio ORDER * cutoffBin ORDER n) ≤ 1 / 2 ∧
    1 / 2 ≤ powerAt (tuned ORDER n N) N (cascadeRatio ORDER * cutoffBin ORDER n * (1 - (Real.pi * cutoffBin ORDER n / N) ^ 2 / 6)) ∧
    |cascadeRatio ORDER * cutoffBin ORDER n - n| ≤ cascadeRatio ORDER / 2 + n / 10 ^ 66 := by
  have hm := cutoffBin_pos ORDER h1 n hn
  have hnear := cutoffBin_near ORDER n
  have hpow := fun b => (power_eq ORDER n N hm hN b).1
  have hs := (power_eq ORDER n N hm hN 0).2
  obtain ⟨hr, hF0, hF1⟩ := ratio_pow ORDER h1
  obtain ⟨hf0, hf1⟩ := factor_bounds ORDER h1 h2
  have ht := Const.C40_cascade ORDER h1 h2
  rw [← cascadeRatio] at ht
  have hN0 : (0 : ℝ) < N := by exact_mod_cast (by omega : 0 < N)
  have hm0 : (0 : ℝ) < cutoffBin ORDER n := by exact_mod_cast hm
  have hmN : 2 * (cutoffBin ORDER n : ℝ) ≤ N := by exact_mod_cast hN
  have hn0 : (0 : ℝ) < n := by exact_mod_cast hn
  set m := cutoffBin ORDER n
  set F := cascadeRatio ORDER
  have hpi := Real.pi_pos
  have hx0 : 0 < Real.pi * m / N := by positivity
  have hx1 : Real.pi * m / N ≤ Real.pi / 2 := by
    rw [div_le_iff₀ hN0]; nlinarith
  set x := Real.pi * m / N with hx
  refine ⟨?_, ?_, ?_, ?_⟩
  · intro b hb c hc hbc
    rw [hpow, hpow]
    have hb' : 0 ≤ Real.pi * b / N := by have := hb.1; positivity
    have hc' : Real.pi * c / N ≤ Real.pi / 2 := by rw [div_le_iff₀ hN0]; nlinarith [hc.2]
    have hbc' : Real.pi * b / N < Real.pi * c / N := by gcongr
    have h3 : Real.sin (Real.pi * b / N) < Real.sin (Real.pi * c / N) := Real.sin_lt_sin_of_lt_of_le_pi_div_two (by linarith) hc' hbc'
    have h4 : 0 ≤ Real.sin (Real.pi * b / N) := Real.sin_nonneg_of_nonneg_of_le_pi hb' (by linarith)
    apply pow_lt_pow_left₀ _ (by positivity) (by omega)
    apply div_lt_div_of_pos_left (by positivity) (by positivity)
    have := pow_lt_pow_left₀ h3 h4 two_ne_zero
    linarith
  · rw [hpow]
    have e : Real.pi * (F * m) / N = F * x := by rw [hx]; ring
    have hFx : F * x ≤ x := by nlinarith
    rw [e]
    refine ((half_iff ORDER h1 hs (Real.sin_nonneg_of_nonneg_of_le_pi (by positivity) (by linarith))).1).mpr ?_
    have := strictConcaveOn_sin_Icc.concaveOn.2 (⟨hx0.le, by linarith⟩ : x ∈ Set.Icc 0 Real.pi) (⟨le_rfl, hpi.le⟩ : (0 : ℝ) ∈ Set.Icc 0 Real.pi) hF0 (by linarith : 0 ≤ 1 - F) (by ring)
    simpa using this
  · rw [hpow]
    have hy : 0 ≤ 1 - x ^ 2 / 6 := by nlinarith [Real.pi_le_four]
    have hy1 : 1 - x ^ 2 / 6 ≤ 1 := by nlinarith
    have e : Real.pi * (F * m * (1 - x ^ 2 / 6)) / N = F * x * (1 - x ^ 2 / 6) := by rw [hx]; ring
    have hFx : F * x * (1 - x ^ 2 / 6) ≤ x := by
      have : F * x ≤ x := by nlinarith
      nlinarith [mul_nonneg hF0 hx0.le]
    rw [e]
    have h0 : 0 ≤ F * x * (1 - x ^ 2 / 6) := by positivity
    refine ((half_iff ORDER h1 hs (Real.sin_nonneg_of_nonneg_of_le_pi h0 (by linarith))).2).mpr ?_
    calc Real.sin (F * x * (1 - x ^ 2 / 6)) ≤ F * x * (1 - x ^ 2 / 6) := Real.sin_le h0
      _ = F * (x - x ^ 3 / 6) := by ring
      _ ≤ _ := by gcongr; exact Real.sin_ge_sub_cube hx0.le
  · set f := cascadeFactor ORDER
    have hf : (0 : ℝ) < f := by linarith
    have e : F * m - n = F * (m - n / f) + n * ((F - f) / f) := by field_simp; ring
    rw [e]
    have b1 : |F * (m - n / f)| ≤ F / 2 := by rw [abs_mul, abs_of_nonneg hF0]; nlinarith
    have b2 : |n * ((F - f) / f)| ≤ n / 10 ^ 66 := by
      rw [abs_mul, abs_of_pos hn0, abs_of_nonneg (div_nonneg (by linarith [ht.1]) hf.le), div_eq_mul_one_div (n : ℝ)]
      refine mul_le_mul_of_nonneg_left ?_ hn0.le
      rw [div_le_iff₀ hf]
      have := ht.2
      norm_num at this ⊢
      linarith
    exact (abs_add_le _ _).trans (add_le_add b1 b2)

/-- Two stages, `cutoff(100, 1000)`: the bin is 155 and the half power point is between 95.8 and 99.8. -/
example : cutoffBin (2 : ℕ) 100 = 155 ∧ 2 * cutoffBin (2 : ℕ) 100 ≤ 1000 := by
  have h : cutoffBin (2 : ℕ) 100 = 155 := by
    have := cutoffBin_near (2 : ℕ) 100
    norm_num [cascadeFactor] at this
    rw [abs_le] at this
    have h1 : (154 : ℝ) < cutoffBin 2 100 := by linarith [this.1]
    have h2 : (cutoffBin 2 100 : ℝ) < 156 := by linarith [this.2]
    have h1' : 154 < cutoffBin 2 100 := by exact_mod_cast h1
    have h2' : cutoffBin 2 100 < 156 := by exact_mod_cast h2
    have : cutoffBin 2 100 = 155 := by omega
    exact_mod_cast this
  exact ⟨h, by rw [h]; norm_num⟩

/-- From seventeen stages on `cutoff(n, N)` is off by far: the power at bin `n` is `1/2^ORDER`. -/
theorem C72_uncorrected (ORDER : ℕ) (h : 17 ≤ ORDER) (n N : ℤ) (hn : 0 < n) (hN : 2 * n ≤ N) : powerAt (tuned ORDER n N) N n = 1 / 2 ^ ORDER := by
  have e : cutoffBin ORDER n = n := by
    have := cutoffBin_near ORDER n
    rw [(Const.C40_cascade_limit ORDER h).1, div_one, abs_le] at this
    have h1 : (n : ℝ) - 1 < cutoffBin ORDER n := by linarith [this.1]
    have h2 : (cutoffBin ORDER n : ℝ) < n + 1 := by linarith [this.2]
    have h1' : n - 1 < cutoffBin ORDER n := by exact_mod_cast h1
    have h2' : cutoffBin ORDER n < n + 1 := by exact_mod_cast h2
    omega
  obtain ⟨h1, h2⟩ := power_eq ORDER n N (by rw [e]; exact hn) (by rw [e]; exact hN) n
  rw [h1, e] at *
  rw [← two_mul, div_mul_cancel_right₀ (by positivity), inv_pow, one_div]

/-- The bin is not limited: with sixteen stages `cutoff(21, 100)` asks for a whole turn, the weight becomes zero and so do all outputs, though the cutoff is below a quarter of the sampling
rate. -/
theorem C72_stuck : ((setCutoff 16 (init 16 : EMACascade ℝ ℂ) 21 100).alpha = 0) ∧
    ∀ (x : ℕ → ℂ) (n : ℕ), stream call (setCutoff 16 (init 16 : EMACascade ℝ ℂ) 21 100) x n = 0 := by
  have hb : cutoffBin 16 21 = 100 := by
    have := cutoffBin_near 16 21
    norm_num [cascadeFactor] at this
    rw [abs_le] at this
    have h1 : (99 : ℝ) < cutoffBin 16 21 := by linarith [this.1]
    have h2 : (cutoffBin 16 21 : ℝ) < 101 := by linarith [this.2]
    have h1' : 99 < cutoffBin 16 21 := by exact_mod_cast h1
    have h2' : cutoffBin 16 21 < 101 := by exact_mod_cast h2
    omega
  have ha : (setCutoff 16 (init 16 : EMACascade ℝ ℂ) 21 100).alpha = 0 := by
    simp only [setCutoff, cutoff, EMA.cutoffAlpha, hb, exactCos]
    rw [show 2 * Real.pi * ((100 : ℤ) : ℝ) / ((100 : ℤ) : ℝ) = 2 * Real.pi by push_cast; field_simp, Real.cos_two_pi]
    norm_num
  refine ⟨ha, ?_⟩
  have e : setCutoff 16 (init 16 : EMACascade ℝ ℂ) 21 100 = ⟨List.replicate 16 0, 0⟩ := by
    have : setCutoff 16 (init 16 : EMACascade ℝ ℂ) 21 100 = ⟨List.replicate 16 0, (setCutoff 16 (init 16 : EMACascade ℝ ℂ) 21 100).alpha⟩ := rfl
    rw [this, ha]
  rw [e]
  have st : ∀ (k : ℕ) (x : ℂ), stages (0 : ℝ) (List.replicate (k + 1) (0 : ℂ)) x = (List.replicate (k + 1) 0, 0) := by
    intro k
    induction k with
    | zero => intro x; simp [stages, lerp]
    | succ k ih =>
      intro x
      rw [List.replicate_succ, stages, ih]
      simp [lerp, List.replicate_succ]
  intro x n
  have hst := states_inv call (⟨List.replicate 16 0, 0⟩ : EMACascade ℝ ℂ) x (fun s => s = ⟨List.replicate 16 0, 0⟩) rfl
    (fun s i h => by rw [h]; simp only [call, st 15]) n
  simp only [stream, hst, call, st 15]

end EMACascade
end DSP
