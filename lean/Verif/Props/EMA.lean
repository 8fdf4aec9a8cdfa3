import Verif.Model.Filters
import Verif.Lemmas.Endless
import Verif.Spec.Circle
import Mathlib.Analysis.Convex.Hull
import Mathlib.Analysis.SpecificLimits.Normed
import Mathlib.Analysis.SpecialFunctions.Trigonometric.Basic
import Mathlib.Analysis.Complex.Trigonometric
import Mathlib.Algebra.BigOperators.Intervals
import Mathlib.Tactic.Module
import Mathlib.Tactic.FieldSimp
import Mathlib.Tactic.LinearCombination

/-!
# Exponential moving average (C42, C43)
-/

namespace DSP
namespace EMA

open Filter Topology

/-- What a user can do to an average: change the weight (`cutoff` and `samples`) or feed it a sample. -/
inductive Op (K E : Type)
  | weight (a : K)
  | input (x : E)

section Hull

variable {K E : Type} [Field K] [LinearOrder K] [IsStrictOrderedRing K] [AddCommGroup E] [Module K E]

/-- One operation; changing the weight has no output. -/
def step (e : EMA K E) : Op K E → EMA K E × Option E
  | .weight a => ({ e with alpha := a }, none)
  | .input x => ((e.call x).1, some (e.call x).2)

theorem lerp_mem {s : Set E} (hs : Convex K s) {a b : E} {x : K} (ha : a ∈ s) (hb : b ∈ s) (h0 : 0 ≤ x) (h1 : x ≤ 1) :
    lerp a b x ∈ s := hs ha hb (by linarith) h0 (by ring)

/-- Every output lies in the convex hull of the initial value and the inputs so far, even when the weight changes. -/
theorem C42_hull (p : E) (a : K) (h0 : 0 ≤ a) (h1 : a ≤ 1) (ops : List (Op K E))
    (hw : ∀ w, Op.weight w ∈ ops → 0 ≤ w ∧ w ≤ 1) (y : E) (hy : some y ∈ outputs step (init p a) ops) :
    y ∈ convexHull K (insert p {x | Op.input x ∈ ops}) := by
  have key : ∀ (s : Set E), Convex K s → ∀ (ops : List (Op K E)) (e : EMA K E),
      (∀ w, Op.weight w ∈ ops → 0 ≤ w ∧ w ≤ 1) → (∀ x, Op.input x ∈ ops → x ∈ s) →
      e.prev ∈ s → 0 ≤ e.alpha → e.alpha ≤ 1 → ∀ y, some y ∈ outputs step e ops → y ∈ s := by
    intro s hs ops
    induction ops with
    | nil => intro e _ _ _ _ _ y hy; simp [outputs] at hy
    | cons o ops ih =>
      intro e hw hx hp h0 h1 y hy
      simp only [outputs, List.mem_cons] at hy
      cases o with
      | weight w =>
        have hw' := hw w (by simp)
        rcases hy with hy | hy
        · simp [step] at hy
        · exact ih { e with alpha := w } (fun w h => hw w (by simp [h])) (fun x h => hx x (by simp [h])) hp hw'.1 hw'.2 y hy
      | input x =>
        have hm : lerp e.prev x e.alpha ∈ s := lerp_mem hs hp (hx x (by simp)) h0 h1
        rcases hy with hy | hy
        · simp only [step, call, Option.some.injEq] at hy
          rw [hy]; exact hm
        · exact ih (e.call x).1 (fun w h => hw w (by simp [h])) (fun x h => hx x (by simp [h])) hm h0 h1 y hy
  refine key _ (convex_convexHull K _) ops _ hw ?_ ?_ h0 h1 y hy
  · intro x hx; exact subset_convexHull K _ (Set.mem_insert_of_mem _ hx)
  · exact subset_convexHull K _ (Set.mem_insert _ _)

/-- The same for numbers: between the smallest and the largest of the initial value and the inputs so far. -/
theorem C42_between (p a : K) (h0 : 0 ≤ a) (h1 : a ≤ 1) (x : ℕ → K) (n : ℕ) (lo hi : K) (hp : lo ≤ p ∧ p ≤ hi)
    (hx : ∀ k ≤ n, lo ≤ x k ∧ x k ≤ hi) :
    lo ≤ stream call (init p a) x n ∧ stream call (init p a) x n ≤ hi := by
  have aux : ∀ m ≤ n + 1, ((states call (init p a) x m).prev ∈ Set.Icc lo hi) ∧ (states call (init p a) x m).alpha = a := by
    intro m
    induction m with
    | zero => intro _; exact ⟨hp, rfl⟩
    | succ m ih =>
      intro hm
      obtain ⟨h2, h3⟩ := ih (by omega)
      refine ⟨?_, h3⟩
      simp only [states, call, h3]
      exact lerp_mem (convex_Icc lo hi) h2 (hx m (by omega)) h0 h1
  exact (aux (n + 1) (le_refl _)).1

/-- Larger inputs never give a smaller output. -/
theorem C42_monotone (p q a : K) (h0 : 0 ≤ a) (h1 : a ≤ 1) (x y : ℕ → K) (n : ℕ) (hp : p ≤ q) (hx : ∀ k ≤ n, x k ≤ y k) :
    stream call (init p a) x n ≤ stream call (init q a) y n := by
  have aux : ∀ m ≤ n + 1, (states call (init p a) x m).prev ≤ (states call (init q a) y m).prev ∧
      (states call (init p a) x m).alpha = a ∧ (states call (init q a) y m).alpha = a := by
    intro m
    induction m with
    | zero => intro _; exact ⟨hp, rfl, rfl⟩
    | succ m ih =>
      intro hm
      obtain ⟨h2, h3, h4⟩ := ih (by omega)
      refine ⟨?_, h3, h4⟩
      simp only [states, call, h3, h4, lerp, smul_eq_mul]
      have := hx m (by omega)
      exact add_le_add (mul_le_mul_of_nonneg_left h2 (by linarith)) (mul_le_mul_of_nonneg_left this h0)
  exact (aux (n + 1) (le_refl _)).1

/-- The hypotheses of `C42_between` and `C42_monotone` hold for a rising signal, and the outputs really move. -/
example : stream call (init (0 : ℚ) (1 / 2 : ℚ)) (fun k => (k : ℚ)) 3 = 17 / 8 ∧
    (∀ k : ℕ, k ≤ 3 → (0 : ℚ) ≤ (k : ℚ) ∧ (k : ℚ) ≤ 3) := by
  refine ⟨?_, fun k hk => ⟨Nat.cast_nonneg k, by exact_mod_cast hk⟩⟩
  simp only [stream, states, call, init, lerp, smul_eq_mul]; norm_num

/-- The weight changes between two samples; the hypotheses of `C42_hull` hold. -/
example : outputs step (init (0 : ℚ) (1 : ℚ)) [.input 4, .weight (1 / 4), .input 8] = [some 4, none, some 5] ∧
    (∀ w, Op.weight w ∈ ([.input 4, .weight (1 / 4), .input 8] : List (Op ℚ ℚ)) → 0 ≤ w ∧ w ≤ 1) := by
  refine ⟨?_, ?_⟩
  · simp only [outputs, step, call, init, lerp, smul_eq_mul]; norm_num
  · intro w hw; simp at hw; subst hw; norm_num

end Hull

section Sum

variable {K E : Type} [Field K] [AddCommGroup E] [Module K E]

theorem alpha_const {K E : Type} [One K] [Sub K] [Add E] [SMul K E] (e : EMA K E) (x : ℕ → E) (n : ℕ) : (states call e x n).alpha = e.alpha :=
  states_inv call e x (fun s => s.alpha = e.alpha) rfl (fun _ _ h => h) n

theorem stream_eq {K E : Type} [One K] [Sub K] [Add E] [SMul K E] (e : EMA K E) (x : ℕ → E) (n : ℕ) : stream call e x n = (states call e x (n + 1)).prev := rfl

theorem prev_succ {K E : Type} [One K] [Sub K] [Add E] [SMul K E] (e : EMA K E) (x : ℕ → E) (n : ℕ) :
    (states call e x (n + 1)).prev = lerp (states call e x n).prev (x n) e.alpha := by
  rw [← alpha_const e x n]; rfl

/-- The output is the exponentially weighted sum. -/
theorem C42_weighted_sum (p : E) (a : K) (x : ℕ → E) (n : ℕ) :
    stream call (init p a) x n = (1 - a) ^ (n + 1) • p + ∑ k ∈ Finset.range (n + 1), (a * (1 - a) ^ (n - k)) • x k := by
  rw [stream_eq]
  induction n with
  | zero =>
    rw [prev_succ]
    simp [states, init, lerp]
  | succ n ih =>
    rw [prev_succ, ih, Finset.sum_range_succ _ (n + 1), lerp, show (init p a).alpha = a from rfl, smul_add, Finset.smul_sum, smul_smul, ← pow_succ']
    have : ∀ k ∈ Finset.range (n + 1), (1 - a) • (a * (1 - a) ^ (n - k)) • x k = (a * (1 - a) ^ (n + 1 - k)) • x k := by
      intro k hk
      have hk' : k ≤ n := by have := Finset.mem_range.mp hk; omega
      rw [smul_smul, Nat.succ_sub hk', pow_succ]; congr 1; ring
    rw [Finset.sum_congr rfl this]
    simp only [Nat.sub_self, pow_zero, mul_one, add_assoc]

/-- The weights sum to one. -/
theorem C42_weights (a : K) (n : ℕ) : (1 - a) ^ (n + 1) + ∑ k ∈ Finset.range (n + 1), a * (1 - a) ^ (n - k) = 1 := by
  induction n with
  | zero => simp
  | succ n ih =>
    rw [Finset.sum_range_succ]
    have : ∀ k ∈ Finset.range (n + 1), a * (1 - a) ^ (n + 1 - k) = (1 - a) * (a * (1 - a) ^ (n - k)) := by
      intro k hk
      have hk' : k ≤ n := by have := Finset.mem_range.mp hk; omega
      rw [Nat.succ_sub hk', pow_succ]; ring
    rw [Finset.sum_congr rfl this, ← Finset.mul_sum, Nat.sub_self, pow_zero]
    linear_combination (1 - a) * ih

/-- A constant input: the error shrinks by `1 - alpha` with every sample. -/
theorem C42_constant (p c : E) (a : K) (n : ℕ) :
    stream call (init p a) (fun _ => c) n - c = (1 - a) ^ (n + 1) • (p - c) := by
  rw [C42_weighted_sum, ← Finset.sum_smul]
  have h := C42_weights a n
  rw [show ∑ k ∈ Finset.range (n + 1), a * (1 - a) ^ (n - k) = 1 - (1 - a) ^ (n + 1) from by linear_combination h]
  module

end Sum

/-- Unit DC gain: a constant is reached in the limit. -/
theorem C42_dc {E : Type} [NormedAddCommGroup E] [NormedSpace ℝ E] (p c : E) (a : ℝ) (h0 : 0 < a) (h1 : a ≤ 1) :
    Tendsto (stream call (init p a) (fun _ => c)) atTop (𝓝 c) := by
  have h : Tendsto (fun n : ℕ => (1 - a) ^ (n + 1) • (p - c) + c) atTop (𝓝 ((0 : ℝ) • (p - c) + c)) :=
    (((tendsto_pow_atTop_nhds_zero_of_lt_one (by linarith) (by linarith : 1 - a < 1)).comp
      (tendsto_add_atTop_nat 1)).smul_const _).add_const _
  rw [zero_smul, zero_add] at h
  refine h.congr fun n => ?_
  rw [← C42_constant, sub_add_cancel]

/-- `samples(s)` gives a weight in `(0, 1]` for every `s ≥ 1`. -/
theorem C42_samples {E : Type} (e : EMA ℝ E) (s : ℤ) (hs : 1 ≤ s) :
    (e.samples s).alpha = 1 / s ∧ 0 < (e.samples s).alpha ∧ (e.samples s).alpha ≤ 1 ∧ (e.samples s).prev = e.prev := by
  have h : (1 : ℝ) ≤ s := by exact_mod_cast hs
  refine ⟨rfl, by simp only [samples]; positivity, ?_, rfl⟩
  simp only [samples]
  rw [div_le_one (by linarith)]; exact h

example : ((init (0 : ℝ) (1 : ℝ)).samples 4).alpha = 1 / 4 := by simp [samples, init]

/-! ### Cutoff -/

/-- Frequency response of `y[n] = (1 - a) y[n-1] + a x[n]` at angular frequency `w`. -/
noncomputable def response (a w : ℝ) : ℂ := a / (1 - (1 - a) * Complex.exp (-(w * Complex.I)))

theorem cos_lt_one {n N : ℤ} (hn : 0 < n) (hN : 2 * n ≤ N) : exactCos n N < 1 ∧ -1 ≤ exactCos n N := by
  refine ⟨?_, Real.neg_one_le_cos _⟩
  have hN' : (0 : ℝ) < N := by exact_mod_cast (by omega : 0 < N)
  have hn' : (0 : ℝ) < n := by exact_mod_cast hn
  have h2 : 2 * (n : ℝ) ≤ N := by exact_mod_cast hN
  have hpi := Real.pi_pos
  have h := Real.cos_lt_cos_of_nonneg_of_le_pi (le_refl (0 : ℝ)) (y := 2 * Real.pi * n / N) ?_ ?_
  · rwa [Real.cos_zero] at h
  · rw [div_le_iff₀ hN']; nlinarith
  · positivity

/-- The weight that `cutoff(n, N)` sets lies in `(0, 1]`. -/
theorem C43_alpha {E : Type} (e : EMA ℝ E) (n N : ℤ) (hn : 0 < n) (hN : 2 * n ≤ N) :
    0 < (e.cutoff exactCos Real.sqrt n N).alpha ∧ (e.cutoff exactCos Real.sqrt n N).alpha ≤ 1 ∧
    (e.cutoff exactCos Real.sqrt n N).prev = e.prev := by
  obtain ⟨h1, h2⟩ := cos_lt_one hn hN
  refine ⟨?_, ?_, rfl⟩ <;> simp only [cutoff, cutoffAlpha] <;> set c := exactCos n N
  · have : 1 - c < Real.sqrt (c * (c - 4) + 3) := Real.lt_sqrt_of_sq_lt (by nlinarith)
    linarith
  · have : Real.sqrt (c * (c - 4) + 3) ≤ 2 - c := Real.sqrt_le_iff.mpr ⟨by linarith, by nlinarith⟩
    linarith

theorem normSq_den (a w : ℝ) : Complex.normSq (1 - (1 - a) * Complex.exp (-(w * Complex.I))) =
    1 + (1 - a) ^ 2 - 2 * (1 - a) * Real.cos w := by
  have h : Complex.exp (-(w * Complex.I)) = ⟨Real.cos w, -Real.sin w⟩ := by
    rw [show -((w : ℂ) * Complex.I) = ((-w : ℝ) : ℂ) * Complex.I from by push_cast; ring, Complex.exp_mul_I]
    rw [← Complex.ofReal_cos, ← Complex.ofReal_sin, Real.cos_neg, Real.sin_neg]
    apply Complex.ext <;> simp [-Complex.ofReal_cos, -Complex.ofReal_sin]
  rw [h, Complex.normSq_apply]
  simp
  linear_combination (1 - a) ^ 2 * Real.sin_sq_add_cos_sq w

/-- At the cutoff frequency the squared magnitude of the response is exactly one half. -/
theorem C43_half_power {E : Type} (e : EMA ℝ E) (n N : ℤ) (hn : 0 < n) (hN : 2 * n ≤ N) :
    ‖response (e.cutoff exactCos Real.sqrt n N).alpha (2 * Real.pi * n / N)‖ ^ 2 = 1 / 2 := by
  obtain ⟨ha0, ha1, -⟩ := C43_alpha e n N hn hN
  obtain ⟨h1, h2⟩ := cos_lt_one hn hN
  have hsq : Real.sqrt (exactCos n N * (exactCos n N - 4) + 3) ^ 2 = exactCos n N * (exactCos n N - 4) + 3 :=
    Real.sq_sqrt (by nlinarith)
  have hal : (e.cutoff exactCos Real.sqrt n N).alpha = exactCos n N - 1 + Real.sqrt (exactCos n N * (exactCos n N - 4) + 3) := rfl
  rw [response, norm_div, div_pow, ← Complex.normSq_eq_norm_sq (1 - _), normSq_den, ← exactCos]
  rw [Complex.norm_real, Real.norm_eq_abs, sq_abs]
  set a := (e.cutoff exactCos Real.sqrt n N).alpha
  have hq : (a + 1 - exactCos n N) ^ 2 = exactCos n N * (exactCos n N - 4) + 3 := by rw [← hsq, hal]; ring
  have key : 1 + (1 - a) ^ 2 - 2 * (1 - a) * exactCos n N = 2 * a ^ 2 := by linear_combination -hq
  rw [key]; field_simp

/-- `response` is what the code does: fed with `exp(i w k)`, the output differs from `response * exp(i w k)` by a transient that
shrinks by `1 - alpha` with every sample. -/
theorem C43_response (p : ℂ) (a w : ℝ) (h0 : 0 < a) (h1 : a ≤ 1) (n : ℕ) :
    stream call (init p a) (fun k : ℕ => Complex.exp (w * k * Complex.I)) n - response a w * Complex.exp (w * n * Complex.I) =
    (1 - a : ℂ) ^ (n + 1) * (p - response a w * Complex.exp (-(w * Complex.I))) := by
  have hden : (1 - (1 - a) * Complex.exp (-(w * Complex.I)) : ℂ) ≠ 0 := by
    intro h
    have h2 := normSq_den a w
    rw [h, map_zero] at h2
    have := Real.cos_le_one w
    nlinarith [mul_nonneg (by linarith : 0 ≤ 1 - a) (by linarith : 0 ≤ 1 - Real.cos w)]
  have hr : response a w = a + (1 - a) * (response a w * Complex.exp (-(w * Complex.I))) := by
    have : response a w * (1 - (1 - a) * Complex.exp (-(w * Complex.I))) = a := by rw [response, div_mul_cancel₀ _ hden]
    linear_combination this
  rw [stream_eq]
  induction n with
  | zero =>
    rw [prev_succ]
    simp only [states, init, lerp, Complex.real_smul]
    push_cast
    simp only [mul_zero, zero_mul, Complex.exp_zero]
    linear_combination -hr
  | succ n ih =>
    rw [prev_succ]
    simp only [lerp, Complex.real_smul]
    have he : Complex.exp (w * n * Complex.I) = Complex.exp (-(w * Complex.I)) * Complex.exp (w * (n + 1 : ℕ) * Complex.I) := by
      rw [← Complex.exp_add]; congr 1; push_cast; ring
    rw [he] at ih
    simp only [init] at ih ⊢
    rw [pow_succ (1 - a : ℂ) (n + 1)]
    push_cast at ih ⊢
    linear_combination (1 - a : ℂ) * ih - Complex.exp (w * (n + 1) * Complex.I) * hr

/-- Half power at a quarter of the sampling rate: the hypotheses of C43 hold and the weight is `sqrt 3 - 1`. -/
example : (0 : ℤ) < 1 ∧ 2 * (1 : ℤ) ≤ 4 ∧ ((init (0 : ℝ) (1 : ℝ)).cutoff exactCos Real.sqrt 1 4).alpha = Real.sqrt 3 - 1 := by
  refine ⟨by norm_num, by norm_num, ?_⟩
  have : exactCos 1 4 = 0 := by
    rw [exactCos, show 2 * Real.pi * ((1 : ℤ) : ℝ) / ((4 : ℤ) : ℝ) = Real.pi / 2 from by push_cast; ring, Real.cos_pi_div_two]
  simp only [cutoff, cutoffAlpha, this]; norm_num; ring

end EMA
end DSP
