import Verif.Props.EMA
import Verif.Lemmas.Recursion
import Mathlib.RingTheory.PowerSeries.Basic

/-!
# Cascaded exponential moving averages (C44)
-/

namespace DSP
namespace EMACascade

open Filter Topology

section Hull

variable {K E : Type} [Field K] [LinearOrder K] [IsStrictOrderedRing K] [AddCommGroup E] [Module K E]

/-- One operation: a new weight or a sample. -/
def step (e : EMACascade K E) : EMA.Op K E → EMACascade K E × Option E
  | .weight a => ({ e with alpha := a }, none)
  | .input x => ((e.call x).1, some (e.call x).2)

theorem stages_mem {s : Set E} (hs : Convex K s) {a : K} (h0 : 0 ≤ a) (h1 : a ≤ 1) (ps : List E) (x : E)
    (hp : ∀ p ∈ ps, p ∈ s) (hx : x ∈ s) : (∀ p ∈ (stages a ps x).1, p ∈ s) ∧ (stages a ps x).2 ∈ s := by
  induction ps generalizing x with
  | nil => exact ⟨fun p hp => by simp [stages] at hp, hx⟩
  | cons p ps ih =>
    have hm : lerp p x a ∈ s := EMA.lerp_mem hs (hp p (by simp)) hx h0 h1
    obtain ⟨h2, h3⟩ := ih (lerp p x a) (fun p h => hp p (by simp [h])) hm
    refine ⟨?_, h3⟩
    intro q hq
    simp only [stages, List.mem_cons] at hq
    rcases hq with rfl | hq
    · exact hm
    · exact h2 q hq

/-- Every output lies in the convex hull of zero and the inputs so far, even when the weight changes. -/
theorem C44_hull (ORDER : ℕ) (ops : List (EMA.Op K E))
    (hw : ∀ w, EMA.Op.weight w ∈ ops → 0 ≤ w ∧ w ≤ 1) (y : E) (hy : some y ∈ outputs step (init ORDER) ops) :
    y ∈ convexHull K (insert 0 {x | EMA.Op.input x ∈ ops}) := by
  have key : ∀ (s : Set E), Convex K s → ∀ (ops : List (EMA.Op K E)) (e : EMACascade K E),
      (∀ w, EMA.Op.weight w ∈ ops → 0 ≤ w ∧ w ≤ 1) → (∀ x, EMA.Op.input x ∈ ops → x ∈ s) →
      (∀ p ∈ e.prev, p ∈ s) → 0 ≤ e.alpha → e.alpha ≤ 1 → ∀ y, some y ∈ outputs step e ops → y ∈ s := by
    intro s hs ops
    induction ops with
    | nil => intro e _ _ _ _ _ y hy; simp [outputs] at hy
    | cons o ops ih =>
      intro e hw hx hp h0 h1 y hy
      simp only [outputs, List.mem_cons] at hy
      cases o with
      | weight w =>
        have hw' := hw w (by simp)
        rcases hy with hy | hy
        · simp [step] at hy
        · exact ih { e with alpha := w } (fun w h => hw w (by simp [h])) (fun x h => hx x (by simp [h])) hp hw'.1 hw'.2 y hy
      | input x =>
        obtain ⟨h2, h3⟩ := stages_mem hs h0 h1 e.prev x hp (hx x (by simp))
        rcases hy with hy | hy
        · simp only [step, call, Option.some.injEq] at hy
          rw [hy]; exact h3
        · exact ih (e.call x).1 (fun w h => hw w (by simp [h])) (fun x h => hx x (by simp [h])) h2 h0 h1 y hy
  refine key _ (convex_convexHull K _) ops _ hw ?_ ?_ zero_le_one le_rfl y hy
  · intro x hx; exact subset_convexHull K _ (Set.mem_insert_of_mem _ hx)
  · intro p hp
    rw [List.eq_of_mem_replicate hp]
    exact subset_convexHull K _ (Set.mem_insert _ _)

/-- Two stages with weight one half: the hypotheses of `C44_hull` hold. -/
example : outputs step (init 2 : EMACascade ℚ ℚ) [.weight (1 / 2), .input 4, .input 4] = [none, some 1, some 2] ∧
    (∀ w, EMA.Op.weight w ∈ ([.weight (1 / 2), .input 4, .input 4] : List (EMA.Op ℚ ℚ)) → 0 ≤ w ∧ w ≤ 1) := by
  refine ⟨?_, ?_⟩
  · simp only [outputs, step, call, init, stages, List.replicate, lerp, smul_eq_mul]; norm_num
  · intro w hw; simp at hw; subst hw; norm_num

end Hull

section Chain

variable {K E : Type} [One K] [Sub K] [Add E] [SMul K E]

theorem states_cons (p : E) (ps : List E) (a : K) (x : ℕ → E) (n : ℕ) :
    states call ⟨p :: ps, a⟩ x n =
    ⟨(states EMA.call (EMA.init p a) x n).prev :: (states call ⟨ps, a⟩ (stream EMA.call (EMA.init p a) x) n).prev, a⟩ := by
  have ha : ∀ n (y : ℕ → E), (states call ⟨ps, a⟩ y n).alpha = a := fun n y =>
    states_inv call ⟨ps, a⟩ y (fun s => s.alpha = a) rfl (fun _ _ h => h) n
  induction n with
  | zero => rfl
  | succ n ih =>
    have h1 := EMA.alpha_const (EMA.init p a) x n
    simp only [EMA.init] at h1
    simp only [states, ih, call, stages, EMA.call, stream, EMA.init, h1, ha]

/-- A cascade is one average behind the other. -/
theorem stream_cons (p : E) (ps : List E) (a : K) (x : ℕ → E) :
    stream call ⟨p :: ps, a⟩ x = stream call ⟨ps, a⟩ (stream EMA.call (EMA.init p a) x) := by
  have ha : ∀ n (y : ℕ → E), (states call ⟨ps, a⟩ y n).alpha = a := fun n y =>
    states_inv call ⟨ps, a⟩ y (fun s => s.alpha = a) rfl (fun _ _ h => h) n
  funext n
  have h1 := EMA.alpha_const (EMA.init p a) x n
  simp only [EMA.init] at h1
  simp only [stream, states_cons, call, stages, EMA.call, EMA.init, h1, ha]

theorem stream_nil (a : K) (x : ℕ → E) : stream call ⟨[], a⟩ x = x := by
  have : ∀ n, states call (⟨[], a⟩ : EMACascade K E) x n = ⟨[], a⟩ := fun n =>
    states_inv call ⟨[], a⟩ x (fun s => s = ⟨[], a⟩) rfl (fun s i h => by rw [h]; rfl) n
  funext n
  simp only [stream, this, call, stages]

end Chain

/-- A single stage: `(1 - (1 - a) X) Y = a U`. -/
theorem ema_transfer {K : Type} [Field K] (a : K) (x : ℕ → K) :
    (1 - PowerSeries.C (1 - a) * PowerSeries.X) * PowerSeries.mk (stream EMA.call (EMA.init 0 a) x) =
    PowerSeries.C a * PowerSeries.mk x := by
  ext n
  rw [sub_mul, one_mul, map_sub, mul_assoc, PowerSeries.coeff_C_mul, PowerSeries.coeff_C_mul, PowerSeries.coeff_mk, PowerSeries.coeff_mk]
  cases n with
  | zero =>
    rw [PowerSeries.coeff_zero_X_mul, EMA.stream_eq, EMA.prev_succ]
    simp [states, EMA.init, lerp]
  | succ n =>
    rw [PowerSeries.coeff_succ_X_mul, PowerSeries.coeff_mk, EMA.stream_eq, EMA.prev_succ, EMA.stream_eq]
    simp [EMA.init, lerp]

/-- The transfer function is that of a single stage to the power `ORDER`; with `X` for `z⁻¹`:
`(1 - (1 - a) X)^ORDER Y = a^ORDER U`. -/
theorem C44_transfer {K : Type} [Field K] (ORDER : ℕ) (a : K) (x : ℕ → K) :
    (1 - PowerSeries.C (1 - a) * PowerSeries.X) ^ ORDER *
      PowerSeries.mk (stream call { (init ORDER : EMACascade K K) with alpha := a } x) =
    PowerSeries.C a ^ ORDER * PowerSeries.mk x := by
  simp only [init]
  induction ORDER generalizing x with
  | zero => simp [stream_nil]
  | succ k ih =>
    rw [List.replicate_succ, stream_cons, pow_succ', mul_assoc, ih, mul_left_comm, ema_transfer, pow_succ]
    ring

theorem ema_tendsto {E : Type} [NormedAddCommGroup E] [NormedSpace ℝ E] (p c : E) (a : ℝ) (h0 : 0 < a) (h1 : a ≤ 1)
    (x : ℕ → E) (hx : Tendsto x atTop (𝓝 c)) : Tendsto (stream EMA.call (EMA.init p a) x) atTop (𝓝 c) := by
  have h := recursion_tendsto (fun n => (states EMA.call (EMA.init p a) x n).prev - c) (fun n => a • (x n - c)) (1 - a)
    (by rw [Real.norm_eq_abs, abs_of_nonneg (by linarith)]; linarith) (fun n => ?_) ?_
  · have h2 := (h.comp (tendsto_add_atTop_nat 1)).add_const c
    rw [zero_add] at h2
    refine h2.congr fun n => ?_
    simp [EMA.stream_eq]
  · simp only [EMA.prev_succ, lerp, EMA.init]; module
  · have := (hx.sub_const c).const_smul a
    simpa using this

/-- A constant input, or any input that settles, is reached in the limit. -/
theorem C44_dc {E : Type} [NormedAddCommGroup E] [NormedSpace ℝ E] (ORDER : ℕ) (c : E) (a : ℝ) (h0 : 0 < a) (h1 : a ≤ 1)
    (x : ℕ → E) (hx : Tendsto x atTop (𝓝 c)) :
    Tendsto (stream call { (init ORDER : EMACascade ℝ E) with alpha := a } x) atTop (𝓝 c) := by
  simp only [init]
  induction ORDER generalizing x with
  | zero => simp only [List.replicate_zero, stream_nil]; exact hx
  | succ k ih =>
    rw [List.replicate_succ, stream_cons]
    exact ih _ (ema_tendsto 0 c a h0 h1 x hx)

/-- The step response of two stages with weight one half: 1/4, 1/2, 11/16. -/
example : stream call { (init 2 : EMACascade ℝ ℝ) with alpha := (1 / 2 : ℝ) } (fun _ => 1) 2 = 11 / 16 ∧
    Tendsto (fun _ : ℕ => (1 : ℝ)) atTop (𝓝 1) := by
  refine ⟨?_, tendsto_const_nhds⟩
  simp only [stream, states, call, init, stages, List.replicate, lerp, smul_eq_mul]; norm_num

/-- `cutoff(n, N)` sets the weight of a single average for the bin that `nearbyint(n / cascade_factor(ORDER))` gives; this
weight is in `(0, 1]` whenever that bin is between 1 and `N / 2`. -/
theorem C44_cutoff {E : Type} (e : EMACascade ℝ E) (nearest : ℤ → ℤ) (n N : ℤ) (h0 : 0 < nearest n) (h1 : 2 * nearest n ≤ N) :
    0 < (e.cutoff exactCos Real.sqrt nearest n N).alpha ∧ (e.cutoff exactCos Real.sqrt nearest n N).alpha ≤ 1 ∧
    ‖EMA.response (e.cutoff exactCos Real.sqrt nearest n N).alpha (2 * Real.pi * nearest n / N)‖ ^ 2 = 1 / 2 ∧
    (e.cutoff exactCos Real.sqrt nearest n N).prev = e.prev := by
  obtain ⟨h2, h3, -⟩ := EMA.C43_alpha (EMA.init (0 : ℝ) (0 : ℝ)) (nearest n) N h0 h1
  exact ⟨h2, h3, EMA.C43_half_power (EMA.init (0 : ℝ) (0 : ℝ)) (nearest n) N h0 h1, rfl⟩

/-- A second order cascade with cutoff 2: `2 / 0.6436` is nearest to 3. -/
example : 0 < (fun _ : ℤ => (3 : ℤ)) 2 ∧ 2 * (fun _ : ℤ => (3 : ℤ)) 2 ≤ 16 := by decide

end EMACascade
end DSP
