import Verif.Model.Demod
import Verif.Lemmas.Base
import Mathlib.Tactic.LinearCombination
import Mathlib.Tactic.FieldSimp

/-!
# Phasor (C50)
-/

namespace DSP

theorem fdiv_ok {a b : ℝ} (h : b ≠ 0) : fdiv a b = .ok (a / b) := by simp [fdiv, h]

theorem cdiv_ok {a b : ℂ} (h : b ≠ 0) : cdiv a b = .ok (a / b) := by simp [cdiv, h]

namespace Phasor

/-- Everything a user can do to an oscillator. -/
inductive Op
  | omegaInt (n N : ℤ)
  | omega (v : ℝ)
  | freq (v : ℝ)
  | reset
  | call

/-- The member functions; only `operator()` has an output. -/
noncomputable def step (p : Phasor) : Op → M (Phasor × Option ℂ)
  | .omegaInt n N => .ok (p.omegaInt n N, none)
  | .omega v => .ok (p.omega v, none)
  | .freq v => .ok (p.freq v, none)
  | .reset => .ok (p.reset, none)
  | .call => do
    let (p, y) ← p.call
    return (p, some y)

/-- The specification: an oscillator is a phase and an angular frequency; a call gives `exp(i phase)` and advances the phase. -/
noncomputable def osc (s : ℝ × ℝ) : Op → (ℝ × ℝ) × Option ℂ
  | .omegaInt n N => ((s.1, 2 * Real.pi * n / N), none)
  | .omega v => ((s.1, v), none)
  | .freq v => ((s.1, 2 * Real.pi * v), none)
  | .reset => ((0, s.2), none)
  | .call => ((s.1 + s.2, s.2), some (Complex.exp (s.1 * Complex.I)))

theorem cis (v : ℝ) : (⟨Real.cos v, Real.sin v⟩ : ℂ) = Complex.exp (v * Complex.I) := by
  rw [Complex.exp_mul_I, ← Complex.ofReal_cos, ← Complex.ofReal_sin]
  apply Complex.ext <;> simp [-Complex.ofReal_cos, -Complex.ofReal_sin]

/-- For every history of calls the outputs are those of the phase accumulator: the magnitude is one, frequency changes keep the
phase, `reset` returns to one, and no call divides by zero. -/
theorem C50_oscillator (ops : List Op) : trace step init ops = (outputs osc (0, 0) ops, none) := by
  refine trace_eq_outputs (fun (p : Phasor) (s : ℝ × ℝ) => p.prev = Complex.exp (s.1 * Complex.I) ∧
    p.delta = Complex.exp (s.2 * Complex.I)) ?_ (by simp [init]) ops
  rintro p ⟨t, w⟩ o ⟨h1, h2⟩
  simp only at h1 h2
  cases o with
  | omegaInt n N => exact ⟨_, rfl, h1, cis _⟩
  | omega v => exact ⟨_, rfl, h1, cis _⟩
  | freq v => exact ⟨_, rfl, h1, cis _⟩
  | reset => exact ⟨_, rfl, by simp [reset, osc], h2⟩
  | call =>
    have e : p.delta * p.prev = Complex.exp (((t + w : ℝ) : ℂ) * Complex.I) := by
      rw [h1, h2, ← Complex.exp_add]; congr 1; push_cast; ring
    refine ⟨{ p with prev := Complex.exp (((t + w : ℝ) : ℂ) * Complex.I) }, ?_, rfl, h2⟩
    simp only [step, call, e, Complex.norm_exp_ofReal_mul_I, bind, Except.bind, pure, Except.pure]
    rw [cdiv_ok (by simp)]
    simp [osc, h1]

/-- Even when `delta` is not exactly on the unit circle (rounded sines and cosines) the outputs are. -/
theorem C50_norm (d : ℂ) (hd : d ≠ 0) (n : ℕ) : ∃ ys : List (Option ℂ),
    trace step { init with delta := d } (List.replicate n .call) = (ys, none) ∧ ys.length = n ∧
    (∀ y ∈ ys, ∃ z : ℂ, y = some z ∧ ‖z‖ = 1) ∧ ∀ k, k < n → ys[k]? = some (some ((d / ‖d‖) ^ k)) := by
  have aux : ∀ (n m : ℕ), trace step ⟨(d / ‖d‖) ^ m, d⟩ (List.replicate n .call) =
      ((List.range n).map fun k => some ((d / ‖d‖) ^ (m + k)), none) := by
    intro n
    induction n with
    | zero => intro m; rfl
    | succ n ih =>
      intro m
      have hn : (‖d‖ : ℂ) ≠ 0 := by exact_mod_cast (norm_ne_zero_iff.mpr hd)
      have h1 : ‖d / (‖d‖ : ℂ)‖ = 1 := by
        rw [norm_div, Complex.norm_real, norm_norm, div_self (norm_ne_zero_iff.mpr hd)]
      have h2 : ‖d * (d / (‖d‖ : ℂ)) ^ m‖ = ‖d‖ := by rw [norm_mul, norm_pow, h1, one_pow, mul_one]
      rw [List.replicate_succ, List.range_succ_eq_map]
      simp only [trace, step, call, h2, bind, Except.bind, pure, Except.pure]
      rw [cdiv_ok hn]
      simp only []
      rw [show d * (d / (‖d‖ : ℂ)) ^ m / ‖d‖ = (d / (‖d‖ : ℂ)) ^ (m + 1) from by rw [pow_succ]; ring, ih (m + 1)]
      simp only [List.map_cons, List.map_map, add_zero]
      congr 2
      apply List.map_congr_left
      intro k _
      simp only [Function.comp]
      congr 2; omega
  refine ⟨_, by simpa [init] using aux n 0, by simp, ?_, ?_⟩
  · intro y hy
    obtain ⟨k, -, rfl⟩ := List.mem_map.mp hy
    refine ⟨_, rfl, ?_⟩
    rw [norm_pow, norm_div, Complex.norm_real, norm_norm, div_self (norm_ne_zero_iff.mpr hd), one_pow]
  · intro k hk
    simp [hk]

/-- A quarter turn per sample, then back to one. -/
example : outputs osc (0, 0) [.omegaInt 1 4, .call, .call, .reset, .call] = [none, some 1, some Complex.I, none, some 1] := by
  simp only [outputs, osc]
  have : Complex.exp ((((0 : ℝ) + 2 * Real.pi * ((1 : ℤ) : ℝ) / ((4 : ℤ) : ℝ) : ℝ) : ℂ) * Complex.I) = Complex.I := by
    rw [show ((((0 : ℝ) + 2 * Real.pi * ((1 : ℤ) : ℝ) / ((4 : ℤ) : ℝ) : ℝ) : ℂ) * Complex.I) = Real.pi / 2 * Complex.I from by
      push_cast; ring]
    exact Complex.exp_pi_div_two_mul_I
  rw [this]
  simp

example : (⟨3, 4⟩ : ℂ) ≠ 0 := fun h => by simpa using congrArg Complex.re h

end Phasor
end DSP
