import Verif.Model.Filters
import Verif.Lemmas.Endless
import Verif.Lemmas.Recursion
import Verif.Spec.Circle
import Mathlib.Analysis.Complex.Polynomial.Basic
import Mathlib.RingTheory.PowerSeries.Basic
import Mathlib.Tactic.Module
import Mathlib.Tactic.LinearCombination

/-! # Recursions of second order, and what the streams of a biquad filter satisfy -/

namespace DSP

open Filter Topology

/-- Jury's test: real quadratics with `|b| < 1` and `|a| < 1 + b` have their roots inside of the unit circle. -/
theorem jury (a b : ℝ) (hb : b < 1) (ha : |a| < 1 + b) (z : ℂ) (hz : z ^ 2 + a * z + b = 0) : ‖z‖ < 1 := by
  obtain ⟨h1, h2⟩ := abs_lt.mp ha
  have hre := congrArg Complex.re hz
  have him := congrArg Complex.im hz
  simp [pow_two] at hre him
  have hn : ‖z‖ ^ 2 = z.re * z.re + z.im * z.im := by rw [← Complex.normSq_eq_norm_sq, Complex.normSq_apply]
  have : ‖z‖ ^ 2 < 1 := by
    rw [hn]
    by_cases h : z.im = 0
    · rw [h] at hre ⊢
      have h3 : z.re < 1 := by nlinarith [sq_nonneg (z.re - 1), sq_nonneg z.re]
      have h4 : -1 < z.re := by nlinarith [sq_nonneg (z.re + 1), sq_nonneg z.re]
      nlinarith
    · have h3 : a = -(2 * z.re) := by
        have : z.im * (2 * z.re + a) = 0 := by linear_combination him
        rcases mul_eq_zero.mp this with h5 | h5
        · exact absurd h5 h
        · linarith
      rw [h3] at hre
      nlinarith
  nlinarith [norm_nonneg z]

/-- Both roots of a quadratic. -/
theorem roots (a b : ℂ) : ∃ p q : ℂ, a = -(p + q) ∧ b = p * q := by
  obtain ⟨s, hs⟩ := IsAlgClosed.exists_pow_nat_eq (a ^ 2 - 4 * b) (n := 2) (by norm_num)
  exact ⟨(-a + s) / 2, (-a - s) / 2, by ring, by linear_combination (1 / 4 : ℂ) * hs⟩

theorem roots_jury (a b : ℝ) (hb : b < 1) (ha : |a| < 1 + b) : ∃ p q : ℂ, (a : ℂ) = -(p + q) ∧ (b : ℂ) = p * q ∧ ‖p‖ < 1 ∧ ‖q‖ < 1 := by
  obtain ⟨p, q, h1, h2⟩ := roots a b
  exact ⟨p, q, h1, h2, jury a b hb ha p (by rw [h1, h2]; ring), jury a b hb ha q (by rw [h1, h2]; ring)⟩

/-- `y[n+2] = v[n] - a y[n+1] - b y[n]`: a vanishing input gives a vanishing output. -/
theorem second_tendsto (a b : ℝ) (hb : b < 1) (ha : |a| < 1 + b) (y v : ℕ → ℂ)
    (h : ∀ n, y (n + 2) = v n - a * y (n + 1) - b * y n) (hv : Tendsto v atTop (𝓝 0)) : Tendsto y atTop (𝓝 0) := by
  obtain ⟨p, q, h1, h2, hp, hq⟩ := roots_jury a b hb ha
  have hu := recursion_tendsto (fun n => y (n + 1) - p * y n) v q hq
    (fun n => by simp only [smul_eq_mul]; rw [h n, h1, h2]; ring) hv
  exact recursion_tendsto y _ p hp (fun n => by simp only [smul_eq_mul]; ring) hu

theorem second_bounded (a b : ℝ) (hb : b < 1) (ha : |a| < 1 + b) (y v : ℕ → ℂ)
    (h : ∀ n, y (n + 2) = v n - a * y (n + 1) - b * y n) (B : ℝ) (hv : ∀ n, ‖v n‖ ≤ B) : ∃ C, ∀ n, ‖y n‖ ≤ C := by
  obtain ⟨p, q, h1, h2, hp, hq⟩ := roots_jury a b hb ha
  have hu := recursion_bounded (fun n => y (n + 1) - p * y n) v q hq
    (fun n => by simp only [smul_eq_mul]; rw [h n, h1, h2]; ring) B hv
  exact ⟨_, recursion_bounded y _ p hp (fun n => by simp only [smul_eq_mul]; ring) _ hu⟩

namespace Biquad

section

variable {K E : Type} [Add E] [Sub E] [SMul K E]

/-- Same coefficients. -/
def Same (f g : Biquad K E) : Prop :=
  f.b0a0 = g.b0a0 ∧ f.b1a0 = g.b1a0 ∧ f.b2a0 = g.b2a0 ∧ f.a1a0 = g.a1a0 ∧ f.a2a0 = g.a2a0

theorem same (f : Biquad K E) (x : ℕ → E) (n : ℕ) : Same (states call f x n) f :=
  states_inv call f x (fun s => Same s f) ⟨rfl, rfl, rfl, rfl, rfl⟩ (fun _ _ h => h) n

theorem stream_zero (f : Biquad K E) (x : ℕ → E) :
    stream call f x 0 = f.b0a0 • x 0 + f.b1a0 • f.x1 + f.b2a0 • f.x2 - f.a1a0 • f.y1 - f.a2a0 • f.y2 := rfl

theorem stream_one (f : Biquad K E) (x : ℕ → E) :
    stream call f x 1 = f.b0a0 • x 1 + f.b1a0 • x 0 + f.b2a0 • f.x1 - f.a1a0 • stream call f x 0 - f.a2a0 • f.y1 := rfl

theorem stream_two (f : Biquad K E) (x : ℕ → E) (n : ℕ) :
    stream call f x (n + 2) = f.b0a0 • x (n + 2) + f.b1a0 • x (n + 1) + f.b2a0 • x n - f.a1a0 • stream call f x (n + 1)
      - f.a2a0 • stream call f x n := by
  obtain ⟨h1, h2, h3, h4, h5⟩ := same f x (n + 2)
  simp only [stream, states, call] at h1 h2 h3 h4 h5 ⊢
  rw [h1, h2, h3, h4, h5]

end

end Biquad

namespace BiquadCascade

variable {K E : Type} [Add E] [Sub E] [SMul K E]

theorem stream_nil (x : ℕ → E) : stream call ([] : BiquadCascade K E) x = x := by
  have : ∀ n, states call ([] : BiquadCascade K E) x n = [] := fun n =>
    states_inv _ _ x (fun s => s = []) rfl (fun s i h => by rw [h]; rfl) n
  funext n
  simp only [stream, this, call]

/-- A cascade is one filter behind the other. -/
theorem stream_cons (f : Biquad K E) (c : BiquadCascade K E) (x : ℕ → E) :
    stream call (f :: c) x = stream call c (stream Biquad.call f x) := by
  have : ∀ n, states call (f :: c) x n = states Biquad.call f x n :: states call c (stream Biquad.call f x) n := by
    intro n
    induction n with
    | zero => rfl
    | succ n ih => simp only [states, ih, call, stream]
  funext n
  simp only [stream, this, call]

end BiquadCascade
end DSP
