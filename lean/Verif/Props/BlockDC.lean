import Verif.Model.Filters
import Verif.Lemmas.Endless
import Verif.Lemmas.Recursion
import Mathlib.Tactic.Module
import Mathlib.Tactic.LinearCombination

/-!
# DC blocker (C45)
-/

namespace DSP
namespace BlockDC

open Filter Topology

section Algebra

variable {K E : Type} [Field K] [AddCommGroup E] [Module K E]

theorem coeffs {K E : Type} [Add E] [Sub E] [SMul K E] (f : BlockDC K E) (x : ℕ → E) (n : ℕ) : (states call f x n).a = f.a ∧ (states call f x n).b = f.b :=
  states_inv call f x (fun s => s.a = f.a ∧ s.b = f.b) ⟨rfl, rfl⟩ (fun _ _ h => h) n

theorem stream_zero {K E : Type} [Add E] [Sub E] [SMul K E] (f : BlockDC K E) (x : ℕ → E) : stream call f x 0 = f.b • (x 0 - f.x1) + f.a • f.y1 := rfl

theorem stream_succ {K E : Type} [Add E] [Sub E] [SMul K E] (f : BlockDC K E) (x : ℕ → E) (n : ℕ) :
    stream call f x (n + 1) = f.b • (x (n + 1) - x n) + f.a • stream call f x n := by
  obtain ⟨h1, h2⟩ := coeffs f x (n + 1)
  simp only [stream, states, call] at h1 h2 ⊢
  rw [h1, h2]

/-- A constant decays geometrically. -/
theorem C45_constant (s : ℤ) (c : E) (n : ℕ) :
    stream call (init.samples s : BlockDC K E) (fun _ => c) n =
    ((((s - 1 : ℤ) : K) / s) ^ n * ((1 + ((s - 1 : ℤ) : K) / s) / 2)) • c := by
  induction n with
  | zero => rw [stream_zero]; simp [init, samples]
  | succ n ih => rw [stream_succ, ih, sub_self, smul_zero, zero_add, smul_smul, pow_succ']; simp only [samples, mul_assoc]

/-- The alternating signal passes unchanged but for a transient that decays geometrically. -/
theorem C45_nyquist (h2 : (2 : K) ≠ 0) (s : ℤ) (c : E) (n : ℕ) :
    stream call (init.samples s : BlockDC K E) (fun k => (-1 : K) ^ k • c) n =
    (-1 : K) ^ n • c + ((((s - 1 : ℤ) : K) / s) ^ n * ((((s - 1 : ℤ) : K) / s - 1) / 2)) • c := by
  induction n with
  | zero =>
    rw [stream_zero]
    simp only [init, samples, pow_zero, one_smul, sub_zero, smul_zero, add_zero, one_mul]
    rw [← one_smul K c, smul_smul, smul_smul, ← add_smul]
    congr 1
    field_simp; ring
  | succ n ih =>
    rw [stream_succ, ih]
    simp only [samples]
    rw [← sub_smul, smul_smul, ← add_smul, smul_smul, ← add_smul, ← add_smul, pow_succ, pow_succ]
    congr 1
    field_simp; ring

end Algebra

theorem pole (s : ℤ) (hs : 1 ≤ s) : 0 ≤ ((s - 1 : ℤ) : ℝ) / s ∧ ((s - 1 : ℤ) : ℝ) / s < 1 := by
  have h : (1 : ℝ) ≤ s := by exact_mod_cast hs
  have h2 : ((s - 1 : ℤ) : ℝ) = s - 1 := by push_cast; ring
  rw [h2]
  exact ⟨div_nonneg (by linarith) (by linarith), by rw [div_lt_one (by linarith)]; linarith⟩

section Limits

variable {E : Type} [NormedAddCommGroup E] [NormedSpace ℝ E]

/-- DC is removed. -/
theorem C45_dc (s : ℤ) (hs : 1 ≤ s) (c : E) : Tendsto (stream call (init.samples s : BlockDC ℝ E) (fun _ => c)) atTop (𝓝 0) := by
  obtain ⟨h0, h1⟩ := pole s hs
  have h := ((tendsto_pow_atTop_nhds_zero_of_lt_one h0 h1).mul_const ((1 + ((s - 1 : ℤ) : ℝ) / s) / 2)).smul_const c
  rw [zero_mul, zero_smul] at h
  exact h.congr fun n => (C45_constant s c n).symm

/-- The alternating signal has gain one in steady state. -/
theorem C45_nyquist_limit (s : ℤ) (hs : 1 ≤ s) (c : E) :
    Tendsto (fun n => stream call (init.samples s : BlockDC ℝ E) (fun k => (-1 : ℝ) ^ k • c) n - (-1 : ℝ) ^ n • c) atTop (𝓝 0) := by
  obtain ⟨h0, h1⟩ := pole s hs
  have h := ((tendsto_pow_atTop_nhds_zero_of_lt_one h0 h1).mul_const ((((s - 1 : ℤ) : ℝ) / s - 1) / 2)).smul_const c
  rw [zero_mul, zero_smul] at h
  refine h.congr fun n => ?_
  rw [C45_nyquist two_ne_zero, add_sub_cancel_left]

/-- Inputs bounded by `B` give outputs bounded by `(1 + a) B`, where `a = (s - 1) / s`; in particular by `2 B`. -/
theorem C45_bounded (s : ℤ) (hs : 1 ≤ s) (x : ℕ → E) (B : ℝ) (hx : ∀ n, ‖x n‖ ≤ B) (n : ℕ) :
    ‖stream call (init.samples s : BlockDC ℝ E) x n‖ ≤ (1 + ((s - 1 : ℤ) : ℝ) / s) * B := by
  obtain ⟨h0, h1⟩ := pole s hs
  set f : BlockDC ℝ E := init.samples s with hf
  have hfa : f.a = ((s - 1 : ℤ) : ℝ) / s := rfl
  have hfb : f.b = (1 + ((s - 1 : ℤ) : ℝ) / s) / 2 := rfl
  rw [← hfa] at h0 h1 hfb ⊢
  have hb : 0 ≤ f.b := by rw [hfb]; linarith
  have key : ∀ n, ‖f.b • x n - stream call f x n‖ ≤ f.b * B := by
    intro n
    induction n with
    | zero =>
      rw [stream_zero]
      simp only [show f.x1 = 0 from rfl, show f.y1 = 0 from rfl, sub_zero, smul_zero, add_zero, sub_self, norm_zero]
      exact mul_nonneg hb ((norm_nonneg _).trans (hx 0))
    | succ n ih =>
      rw [stream_succ]
      have e : f.b • x (n + 1) - (f.b • (x (n + 1) - x n) + f.a • stream call f x n) =
          f.a • (f.b • x n - stream call f x n) + (f.b * (1 - f.a)) • x n := by module
      rw [e]
      refine (norm_add_le _ _).trans ?_
      rw [norm_smul, norm_smul, Real.norm_eq_abs, Real.norm_eq_abs, abs_of_nonneg h0,
        abs_of_nonneg (mul_nonneg hb (by linarith))]
      have h3 : f.b * (1 - f.a) * ‖x n‖ ≤ f.b * (1 - f.a) * B :=
        mul_le_mul_of_nonneg_left (hx n) (mul_nonneg hb (by linarith))
      have h4 : f.a * ‖f.b • x n - stream call f x n‖ ≤ f.a * (f.b * B) := mul_le_mul_of_nonneg_left ih h0
      linarith
  have h2 : stream call f x n = f.b • x n - (f.b • x n - stream call f x n) := by module
  rw [h2]
  refine (norm_sub_le _ _).trans ?_
  rw [norm_smul, Real.norm_eq_abs, abs_of_nonneg hb]
  have h5 := key n
  have h3 : f.b * ‖x n‖ ≤ f.b * B := mul_le_mul_of_nonneg_left (hx n) hb
  have h6 : (1 + f.a) * B = f.b * B + f.b * B := by rw [hfb]; ring
  linarith

end Limits

/-- Four samples: pole 3/4, the constant 8 gives 7, 21/4, ... -/
example : stream call (init.samples 4 : BlockDC ℝ ℝ) (fun _ => 8) 1 = 21 / 4 ∧ (1 : ℤ) ≤ 4 := by
  refine ⟨?_, by norm_num⟩
  rw [C45_constant]; norm_num

example : ∀ n : ℕ, ‖(fun k : ℕ => (-1 : ℝ) ^ k • (3 : ℝ)) n‖ ≤ 3 := by intro n; simp

end BlockDC
end DSP
