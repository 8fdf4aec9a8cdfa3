import Verif.Props.EMACascade
import Verif.Props.BlockDC
import Verif.Lemmas.Biquad
import Verif.Lemmas.BinaryRounded
import Verif.Spec.Recursive

/-!
# C74: recursive filters in rounded arithmetic
-/

namespace DSP

open Spec Filter Topology

set_option linter.unusedSectionVars false

/-- Errors that shrink by `r` and grow by `B` each time. -/
theorem error_bounded (d : ℕ → ℝ) (r B : ℝ) (hr : 0 ≤ r) (hr1 : r < 1) (h0 : d 0 ≤ B / (1 - r)) (h : ∀ n, d (n + 1) ≤ r * d n + B) (n : ℕ) : d n ≤ B / (1 - r) := by
  refine contraction_bounded d r B _ hr h h0 (le_of_eq ?_) n
  have : 1 - r ≠ 0 := by linarith
  field_simp
  ring

section

variable {V : Type} [Zero V] [One V] [Add V] [Sub V] [Mul V] [IntCast V] {val : V → ℝ} {u : ℝ} (hR : RoundedMul V val u) (h1 : val 1 = 1) (hu0 : 0 ≤ u)

include hR hu0 in
/-- A sum of two terms that carry errors already. -/
theorem add_error (s t : V) (S T A B g : ℝ) (hs : |val s - S| ≤ g * A) (ht : |val t - T| ≤ g * B) (hS : |S| ≤ A) (hT : |T| ≤ B) :
    |val (s + t) - (S + T)| ≤ ((1 + u) * (1 + g) - 1) * (A + B) := by
  have h := hR.add s t
  have h2 : |val s + val t| ≤ (1 + g) * (A + B) := by
    calc |val s + val t| = |(val s - S) + (val t - T) + (S + T)| := by congr 1; ring
      _ ≤ |val s - S| + |val t - T| + (|S| + |T|) := (abs_add_le _ _).trans (add_le_add (abs_add_le _ _) (abs_add_le _ _))
      _ ≤ _ := by linarith
  calc |val (s + t) - (S + T)| = |(val (s + t) - (val s + val t)) + (val s - S) + (val t - T)| := by congr 1; ring
    _ ≤ |val (s + t) - (val s + val t)| + |val s - S| + |val t - T| := abs_add_three _ _ _
    _ ≤ u * ((1 + g) * (A + B)) + g * A + g * B := by
      have := mul_le_mul_of_nonneg_left h2 hu0
      linarith
    _ = _ := by ring

include hR hu0 in
theorem sub_error (s t : V) (S T A B g : ℝ) (hs : |val s - S| ≤ g * A) (ht : |val t - T| ≤ g * B) (hS : |S| ≤ A) (hT : |T| ≤ B) :
    |val (s - t) - (S - T)| ≤ ((1 + u) * (1 + g) - 1) * (A + B) := by
  have h := hR.sub s t
  have h2 : |val s - val t| ≤ (1 + g) * (A + B) := by
    calc |val s - val t| = |(val s - S) + -(val t - T) + (S + -T)| := by congr 1; ring
      _ ≤ |val s - S| + |val t - T| + (|S| + |T|) := by
        refine (abs_add_le _ _).trans (add_le_add ((abs_add_le _ _).trans ?_) ((abs_add_le _ _).trans ?_))
        · rw [abs_neg]
        · rw [abs_neg]
      _ ≤ _ := by linarith
  calc |val (s - t) - (S - T)| = |(val (s - t) - (val s - val t)) + (val s - S) + -(val t - T)| := by congr 1; ring
    _ ≤ |val (s - t) - (val s - val t)| + |val s - S| + |-(val t - T)| := abs_add_three _ _ _
    _ ≤ u * ((1 + g) * (A + B)) + g * A + g * B := by
      rw [abs_neg]
      have := mul_le_mul_of_nonneg_left h2 hu0
      linarith
    _ = _ := by ring

include hR hu0 in
/-- A product with one factor that carries an error. -/
theorem mul_error (s t : V) (S g : ℝ) (hs : |val s - S| ≤ g * |S|) :
    |val (s * t) - S * val t| ≤ ((1 + u) * (1 + g) - 1) * (|S| * |val t|) := by
  have h := hR.mul s t
  have h2 : |val s| ≤ (1 + g) * |S| := by
    calc |val s| = |(val s - S) + S| := by congr 1; ring
      _ ≤ _ := abs_add_le _ _
      _ ≤ _ := by linarith
  calc |val (s * t) - S * val t| = |(val (s * t) - val s * val t) + (val s - S) * val t| := by congr 1; ring
    _ ≤ |val (s * t) - val s * val t| + |(val s - S) * val t| := abs_add_le _ _
    _ ≤ u * ((1 + g) * |S| * |val t|) + g * |S| * |val t| := by
      rw [abs_mul] at h
      rw [abs_mul (val s - S)]
      gcongr
      exact h.trans (by gcongr)
    _ = _ := by ring

include hR hu0 in
theorem mul_error_right (s t : V) (T g : ℝ) (ht : |val t - T| ≤ g * |T|) :
    |val (s * t) - val s * T| ≤ ((1 + u) * (1 + g) - 1) * (|val s| * |T|) := by
  have h := hR.mul s t
  have h2 : |val t| ≤ (1 + g) * |T| := by
    calc |val t| = |(val t - T) + T| := by congr 1; ring
      _ ≤ _ := abs_add_le _ _
      _ ≤ _ := by linarith
  calc |val (s * t) - val s * T| = |(val (s * t) - val s * val t) + val s * (val t - T)| := by congr 1; ring
    _ ≤ |val (s * t) - val s * val t| + |val s * (val t - T)| := abs_add_le _ _
    _ ≤ u * (|val s| * ((1 + g) * |T|)) + |val s| * (g * |T|) := by
      rw [abs_mul] at h
      rw [abs_mul (val s) (val t - T)]
      gcongr
      exact h.trans (by gcongr)
    _ = _ := by ring

include hR hu0 in
/-- A product of numbers without errors. -/
theorem mul_error_plain (s t : V) (g : ℝ) (hg : u ≤ g) : |val (s * t) - val s * val t| ≤ g * (|val s| * |val t|) := by
  have h := hR.mul s t
  rw [abs_mul] at h
  exact h.trans (by gcongr)

end

namespace EMA

variable {V : Type} [Zero V] [One V] [Add V] [Sub V] [Mul V] [IntCast V] {val : V → ℝ} {u : ℝ} (hR : RoundedMul V val u) (h1 : val 1 = 1) (hu0 : 0 ≤ u)

include hR h1 hu0 in
/-- One step. -/
theorem lerp_error (y x α : V) (ha0 : 0 ≤ val α) (ha1 : val α ≤ 1) :
    |val (lerp y x α) - ((1 - val α) * val y + val α * val x)| ≤ ((1 + u) ^ 3 - 1) * ((1 - val α) * |val y| + val α * |val x|) := by
  have hc := hR.sub 1 α
  rw [h1] at hc
  have e1 := mul_error hR hu0 (1 - α) y (1 - val α) u hc
  have e2 := mul_error hR hu0 α x (val α) u (by rw [sub_self, abs_zero]; positivity)
  have e := add_error hR hu0 ((1 - α) * y) (α * x) _ _ _ _ ((1 + u) * (1 + u) - 1) e1 e2 (by rw [abs_mul]) (by rw [abs_mul])
  rw [abs_of_nonneg (by linarith : 0 ≤ 1 - val α), abs_of_nonneg ha0] at e
  refine e.trans (le_of_eq ?_)
  ring

/-- The exact average follows its recursion. -/
theorem expAverage_zero (a p : ℝ) (x : ℕ → ℝ) : expAverage a p x 0 = (1 - a) * p + a * x 0 := by simp [expAverage]

theorem expAverage_succ (a p : ℝ) (x : ℕ → ℝ) (n : ℕ) : expAverage a p x (n + 1) = (1 - a) * expAverage a p x n + a * x (n + 1) := by
  unfold expAverage
  rw [Finset.sum_range_succ _ (n + 1), mul_add, Finset.mul_sum, Nat.sub_self, pow_zero, mul_one]
  have : ∑ k ∈ Finset.range (n + 1), a * (1 - a) ^ (n + 1 - k) * x k = ∑ k ∈ Finset.range (n + 1), (1 - a) * (a * (1 - a) ^ (n - k) * x k) := by
    apply Finset.sum_congr rfl
    intro k hk
    rw [show n + 1 - k = (n - k) + 1 by have := Finset.mem_range.mp hk; omega, pow_succ]
    ring
  rw [this, pow_succ]
  ring

theorem expAverage_le (a p : ℝ) (h0 : 0 ≤ a) (h1 : a ≤ 1) (x : ℕ → ℝ) (M : ℝ) (hp : |p| ≤ M) (hx : ∀ n, |x n| ≤ M) (n : ℕ) : |expAverage a p x n| ≤ M := by
  have step : ∀ (y z : ℝ), |y| ≤ M → |z| ≤ M → |(1 - a) * y + a * z| ≤ M := by
    intro y z hy hz
    calc |(1 - a) * y + a * z| ≤ |(1 - a) * y| + |a * z| := abs_add_le _ _
      _ = (1 - a) * |y| + a * |z| := by rw [abs_mul, abs_mul, abs_of_nonneg (by linarith : 0 ≤ 1 - a), abs_of_nonneg h0]
      _ ≤ (1 - a) * M + a * M := add_le_add (mul_le_mul_of_nonneg_left hy (by linarith)) (mul_le_mul_of_nonneg_left hz h0)
      _ = M := by ring
  induction n with
  | zero => rw [expAverage_zero]; exact step _ _ hp (hx 0)
  | succ n ih => rw [expAverage_succ]; exact step _ _ ih (hx _)

theorem expAverage_sub (a p q : ℝ) (x y : ℕ → ℝ) (n : ℕ) : expAverage a p x n - expAverage a q y n = expAverage a (p - q) (fun k => x k - y k) n := by
  unfold expAverage
  rw [add_sub_add_comm, ← mul_sub, ← Finset.sum_sub_distrib]
  congr 1
  apply Finset.sum_congr rfl
  intro k _
  ring

/-- The relative error of an average of weight `a`. -/
noncomputable def relError (u a : ℝ) : ℝ := ((1 + u) ^ 3 - 1) / (a - ((1 + u) ^ 3 - 1) * (1 - a))

include hR h1 hu0 in
/-- **C74** The error of an average never exceeds a fixed part of the largest input, however long it runs: about `3 u / alpha`. -/
theorem C74_ema (p α : V) (hα1 : val α ≤ 1) (hα : ((1 + u) ^ 3 - 1) * (1 - val α) < val α) (x : ℕ → V) (M : ℝ) (hp : |val p| ≤ M) (hx : ∀ n, |val (x n)| ≤ M) (n : ℕ) :
    |val (stream call (init p α) x n) - expAverage (val α) (val p) (fun k => val (x k)) n| ≤ relError u (val α) * M := by
  generalize ha : val α = a at *
  generalize hg : (1 + u) ^ 3 - 1 = g at *
  have hg0 : 0 ≤ g := by
    rw [← hg, sub_nonneg]
    exact one_le_pow₀ (by linarith)
  have ha0 : 0 < a := (mul_nonneg hg0 (by linarith)).trans_lt hα
  have hM : 0 ≤ M := (abs_nonneg _).trans hp
  -- one step from an error d to the next
  have step : ∀ (y z : V) (w : ℝ), |w| ≤ M → |val z| ≤ M → |val (lerp y z α) - ((1 - a) * w + a * val z)| ≤ (1 - a) * (1 + g) * |val y - w| + g * M := by
    intro y z w hw hz
    have e := lerp_error hR h1 hu0 y z α (by rw [ha]; exact ha0.le) (by rw [ha]; exact hα1)
    rw [ha, hg] at e
    have hy : |val y| ≤ M + |val y - w| := by
      calc |val y| = |w + (val y - w)| := by congr 1; ring
        _ ≤ _ := abs_add_le _ _
        _ ≤ _ := by linarith
    have h1a : 0 ≤ 1 - a := by linarith
    calc |val (lerp y z α) - ((1 - a) * w + a * val z)| = |(val (lerp y z α) - ((1 - a) * val y + a * val z)) + (1 - a) * (val y - w)| := by congr 1; ring
      _ ≤ _ := abs_add_le _ _
      _ ≤ g * ((1 - a) * (M + |val y - w|) + a * M) + (1 - a) * |val y - w| := by
        rw [abs_mul (1 - a), abs_of_nonneg h1a]
        gcongr
        exact e.trans (by gcongr)
      _ = _ := by ring
  have hden : a - g * (1 - a) = 1 - (1 - a) * (1 + g) := by ring
  have key := error_bounded (fun n => |val (stream call (init p α) x n) - expAverage a (val p) (fun k => val (x k)) n|) ((1 - a) * (1 + g)) (g * M)
    (mul_nonneg (by linarith) (by linarith)) (by linarith) (by
      have e := step p (x 0) (val p) hp (hx 0)
      rw [sub_self, abs_zero, mul_zero, zero_add] at e
      show |val (lerp p (x 0) α) - expAverage a (val p) (fun k => val (x k)) 0| ≤ _
      rw [expAverage_zero]
      refine e.trans ?_
      rw [le_div_iff₀ (by linarith)]
      have : 0 ≤ g * M * ((1 - a) * (1 + g)) := mul_nonneg (mul_nonneg hg0 hM) (mul_nonneg (by linarith) (by linarith))
      nlinarith) (by
      intro n
      have e := step (stream call (init p α) x n) (x (n + 1)) _ (expAverage_le a (val p) ha0.le hα1 (fun k => val (x k)) M hp hx n) (hx (n + 1))
      rw [stream_eq _ _ (n + 1), prev_succ, expAverage_succ]
      exact e) n
  unfold relError
  rw [hg, hden, div_mul_eq_mul_div]
  exact key

end EMA

namespace EMACascade

variable {V : Type} [Zero V] [One V] [Add V] [Sub V] [Mul V] [IntCast V] {val : V → ℝ} {u : ℝ} (hR : RoundedMul V val u) (h1 : val 1 = 1) (hu0 : 0 ≤ u)

/-- Averages one behind the other, all of them zero before the first input. -/
noncomputable def _root_.DSP.Spec.cascadedAverage (a : ℝ) : ℕ → (ℕ → ℝ) → ℕ → ℝ
  | 0, x => x
  | k + 1, x => cascadedAverage a k (expAverage a 0 x)

theorem cascaded_sub (a : ℝ) (h0 : 0 ≤ a) (h1 : a ≤ 1) (k : ℕ) : ∀ (x y : ℕ → ℝ) (C : ℝ), (∀ n, |x n - y n| ≤ C) → ∀ n, |cascadedAverage a k x n - cascadedAverage a k y n| ≤ C := by
  induction k with
  | zero => intro x y C h n; exact h n
  | succ k ih =>
    intro x y C h
    refine ih _ _ C fun n => ?_
    rw [EMA.expAverage_sub, sub_self]
    exact EMA.expAverage_le a 0 h0 h1 _ C (by rw [abs_zero]; exact (abs_nonneg _).trans (h 0)) h n

include hR h1 hu0 in
/-- **C74** The same for a cascade. -/
theorem C74_cascade (ORDER : ℕ) (α : V) (hα1 : val α ≤ 1) (hα : ((1 + u) ^ 3 - 1) * (1 - val α) < val α) (x : ℕ → V) (M : ℝ) (hx : ∀ n, |val (x n)| ≤ M) (n : ℕ) :
    |val (stream call ({ prev := List.replicate ORDER 0, alpha := α } : EMACascade V V) x n) - cascadedAverage (val α) ORDER (fun k => val (x k)) n| ≤
      ((1 + EMA.relError u (val α)) ^ ORDER - 1) * M := by
  have hg0 : 0 ≤ (1 + u) ^ 3 - 1 := by
    rw [sub_nonneg]
    exact one_le_pow₀ (by linarith)
  have ha0 : 0 < val α := (mul_nonneg hg0 (by linarith)).trans_lt hα
  have hκ : 0 ≤ EMA.relError u (val α) := div_nonneg hg0 (by linarith)
  induction ORDER generalizing x M n with
  | zero => simp [stream_nil, cascadedAverage]
  | succ k ih =>
    have hM : 0 ≤ M := (abs_nonneg _).trans (hx 0)
    rw [List.replicate_succ, stream_cons]
    have e := EMA.C74_ema hR h1 hu0 0 α hα1 hα x M (by rw [hR.zero, abs_zero]; exact hM) hx
    rw [hR.zero] at e
    have hb : ∀ n, |val (stream EMA.call (EMA.init 0 α) x n)| ≤ (1 + EMA.relError u (val α)) * M := by
      intro n
      have h2 := EMA.expAverage_le (val α) 0 ha0.le hα1 (fun k => val (x k)) M (by rw [abs_zero]; exact hM) hx n
      calc |val (stream EMA.call (EMA.init 0 α) x n)| = |expAverage (val α) 0 (fun k => val (x k)) n + (val (stream EMA.call (EMA.init 0 α) x n) - expAverage (val α) 0 (fun k => val (x k)) n)| := by
            congr 1; ring
        _ ≤ _ := abs_add_le _ _
        _ ≤ M + EMA.relError u (val α) * M := add_le_add h2 (e n)
        _ = _ := by ring
    have h3 := ih (stream EMA.call (EMA.init 0 α) x) _ hb n
    have h4 := cascaded_sub (val α) ha0.le hα1 k (fun n => val (stream EMA.call (EMA.init 0 α) x n)) _ _ e n
    rw [cascadedAverage]
    refine (abs_sub_le _ _ _).trans ((add_le_add h3 h4).trans (le_of_eq ?_))
    rw [pow_succ]
    ring

end EMACascade

namespace BlockDC

variable {V : Type} [Zero V] [One V] [Add V] [Sub V] [Mul V] [IntCast V] {val : V → ℝ} {u : ℝ} (hR : RoundedMul V val u) (hu0 : 0 ≤ u)

include hR hu0 in
/-- One step. -/
theorem step_error (x0 x1 y1 a b : V) :
    |val (b • (x0 - x1) + a • y1) - (val b * (val x0 - val x1) + val a * val y1)| ≤ ((1 + u) ^ 3 - 1) * (|val b| * |val x0 - val x1| + |val a| * |val y1|) := by
  have e1 := mul_error_right hR hu0 b (x0 - x1) (val x0 - val x1) u (hR.sub x0 x1)
  have e2 := mul_error_plain hR hu0 a y1 ((1 + u) * (1 + u) - 1) (by nlinarith)
  have e := add_error hR hu0 (b * (x0 - x1)) (a * y1) _ _ _ _ ((1 + u) * (1 + u) - 1) e1 e2 (by rw [abs_mul]) (by rw [abs_mul])
  refine e.trans (le_of_eq ?_)
  ring

theorem leaky_zero (a b : ℝ) (x : ℕ → ℝ) : leakyDifference a b x 0 = b * x 0 := by simp [leakyDifference, differences]

theorem leaky_succ (a b : ℝ) (x : ℕ → ℝ) (n : ℕ) : leakyDifference a b x (n + 1) = b * (x (n + 1) - x n) + a * leakyDifference a b x n := by
  unfold leakyDifference
  rw [Finset.sum_range_succ _ (n + 1), Finset.mul_sum, Nat.sub_self, pow_zero, one_mul, add_comm]
  congr 1
  apply Finset.sum_congr rfl
  intro k hk
  rw [show n + 1 - k = (n - k) + 1 by have := Finset.mem_range.mp hk; omega, pow_succ]
  ring

/-- The exact output is at most twice as large as `b` times the input. -/
theorem leaky_le (a b : ℝ) (h0 : 0 ≤ a) (h1 : a ≤ 1) (x : ℕ → ℝ) (M : ℝ) (hx : ∀ n, |x n| ≤ M) (n : ℕ) : |leakyDifference a b x n| ≤ 2 * |b| * M := by
  have hM : 0 ≤ M := (abs_nonneg _).trans (hx 0)
  have key : ∀ n, |b * x n - leakyDifference a b x n| ≤ |b| * M := by
    intro n
    induction n with
    | zero => rw [leaky_zero, sub_self, abs_zero]; positivity
    | succ n ih =>
      rw [leaky_succ]
      calc |b * x (n + 1) - (b * (x (n + 1) - x n) + a * leakyDifference a b x n)| = |a * (b * x n - leakyDifference a b x n) + (1 - a) * (b * x n)| := by congr 1; ring
        _ ≤ _ := abs_add_le _ _
        _ = a * |b * x n - leakyDifference a b x n| + (1 - a) * (|b| * |x n|) := by rw [abs_mul, abs_mul (1 - a), abs_mul b, abs_of_nonneg h0, abs_of_nonneg (by linarith : 0 ≤ 1 - a)]
        _ ≤ a * (|b| * M) + (1 - a) * (|b| * M) := by
          have : 0 ≤ 1 - a := by linarith
          gcongr
          exact hx n
        _ = _ := by ring
  calc |leakyDifference a b x n| = |b * x n + -(b * x n - leakyDifference a b x n)| := by congr 1; ring
    _ ≤ _ := abs_add_le _ _
    _ ≤ |b| * M + |b| * M := by
      rw [abs_neg, abs_mul]
      exact add_le_add (mul_le_mul_of_nonneg_left (hx n) (abs_nonneg _)) (key n)
    _ = _ := by ring

include hR hu0 in
/-- **C74** The error of the DC blocker is bounded as well, by about `12 u / (1 - a)` times the largest input. -/
theorem C74_blockdc (a b : V) (ha0 : 0 ≤ val a) (ha : (1 + u) ^ 3 * val a < 1) (x : ℕ → V) (M : ℝ) (hx : ∀ n, |val (x n)| ≤ M) (n : ℕ) :
    |val (stream call (⟨0, 0, a, b⟩ : BlockDC V V) x n) - leakyDifference (val a) (val b) (fun k => val (x k)) n| ≤
      ((1 + u) ^ 3 - 1) * (2 * (1 + val a) * |val b|) / (1 - (1 + u) ^ 3 * val a) * M := by
  have hM : 0 ≤ M := (abs_nonneg _).trans (hx 0)
  generalize hg : (1 + u) ^ 3 - 1 = g at *
  have hg3 : (1 + u) ^ 3 = 1 + g := by linarith
  rw [hg3] at ha ⊢
  have hg0 : 0 ≤ g := by
    rw [← hg, sub_nonneg]
    exact one_le_pow₀ (by linarith)
  have ha1 : val a ≤ 1 := by nlinarith
  have step : ∀ (x0 x1 y : V) (w : ℝ), |w| ≤ 2 * |val b| * M → |val x0| ≤ M → |val x1| ≤ M →
      |val (b • (x0 - x1) + a • y) - (val b * (val x0 - val x1) + val a * w)| ≤ (1 + g) * val a * |val y - w| + g * (2 * (1 + val a) * |val b|) * M := by
    intro x0 x1 y w hw hx0 hx1
    have e := step_error hR hu0 x0 x1 y a b
    rw [hg, abs_of_nonneg ha0] at e
    have hy : |val y| ≤ 2 * |val b| * M + |val y - w| := by
      calc |val y| = |w + (val y - w)| := by congr 1; ring
        _ ≤ _ := abs_add_le _ _
        _ ≤ _ := by linarith
    have hd : |val x0 - val x1| ≤ 2 * M := by
      rw [abs_le] at hx0 hx1 ⊢
      constructor <;> linarith
    calc |val (b • (x0 - x1) + a • y) - (val b * (val x0 - val x1) + val a * w)|
        = |(val (b • (x0 - x1) + a • y) - (val b * (val x0 - val x1) + val a * val y)) + val a * (val y - w)| := by congr 1; ring
      _ ≤ _ := abs_add_le _ _
      _ ≤ g * (|val b| * (2 * M) + val a * (2 * |val b| * M + |val y - w|)) + val a * |val y - w| := by
        rw [abs_mul (val a), abs_of_nonneg ha0]
        gcongr
        exact e.trans (by gcongr)
      _ = _ := by ring
  have hden : 0 < 1 - (1 + g) * val a := by linarith
  rw [div_mul_eq_mul_div]
  refine error_bounded (fun n => |val (stream call (⟨0, 0, a, b⟩ : BlockDC V V) x n) - leakyDifference (val a) (val b) (fun k => val (x k)) n|) ((1 + g) * val a) (g * (2 * (1 + val a) * |val b|) * M)
    (by positivity) ha ?_ ?_ n
  · have e := step (x 0) 0 0 0 (by rw [abs_zero]; positivity) (hx 0) (by rw [hR.zero, abs_zero]; exact hM)
    rw [hR.zero, sub_zero, sub_zero, abs_zero, mul_zero, mul_zero, add_zero, zero_add] at e
    show |val (b • (x 0 - 0) + a • 0) - leakyDifference (val a) (val b) (fun k => val (x k)) 0| ≤ _
    rw [leaky_zero]
    refine e.trans ?_
    rw [le_div_iff₀ hden]
    have : 0 ≤ g * (2 * (1 + val a) * |val b|) * M := by positivity
    nlinarith [mul_nonneg (by linarith : 0 ≤ 1 + g) ha0]
  · intro n
    have e := step (x (n + 1)) (x n) (stream call (⟨0, 0, a, b⟩ : BlockDC V V) x n) _ (leaky_le (val a) (val b) ha0 ha1 (fun k => val (x k)) M hx n) (hx (n + 1)) (hx n)
    simp only [stream_succ, leaky_succ]
    exact e

include hR hu0 in
/-- **C74** A constant vanishes completely: rounding does not keep anything of it. -/
theorem C74_blockdc_constant (a b : V) (ha : (1 + u) ^ 2 * |val a| < 1) (c : V) : Tendsto (fun n => val (stream call (⟨0, 0, a, b⟩ : BlockDC V V) (fun _ => c) n)) atTop (𝓝 0) := by
  have hc : val (c - c) = 0 := by
    have := hR.sub c c
    rw [sub_self, abs_zero, mul_zero, sub_zero] at this
    exact abs_eq_zero.mp (le_antisymm this (abs_nonneg _))
  have hb : val (b * (c - c)) = 0 := by
    have := hR.mul b (c - c)
    rw [hc, mul_zero, abs_zero, mul_zero, sub_zero] at this
    exact abs_eq_zero.mp (le_antisymm this (abs_nonneg _))
  have step : ∀ n, |val (stream call (⟨0, 0, a, b⟩ : BlockDC V V) (fun _ => c) (n + 1))| ≤ (1 + u) ^ 2 * |val a| * |val (stream call (⟨0, 0, a, b⟩ : BlockDC V V) (fun _ => c) n)| + 0 := by
    intro n
    rw [stream_succ]
    show |val (b * (c - c) + a * _)| ≤ _
    generalize stream call (⟨0, 0, a, b⟩ : BlockDC V V) (fun _ => c) n = y
    have e1 := hR.add (b * (c - c)) (a * y)
    have e2 := hR.mul a y
    rw [hb, zero_add] at e1
    rw [abs_mul] at e2
    have e3 : |val (a * y)| ≤ (1 + u) * (|val a| * |val y|) := by
      calc |val (a * y)| = |(val (a * y) - val a * val y) + val a * val y| := by congr 1; ring
        _ ≤ _ := abs_add_le _ _
        _ ≤ _ := by rw [abs_mul (val a) (val y)]; linarith
    calc |val (b * (c - c) + a * y)| = |(val (b * (c - c) + a * y) - val (a * y)) + val (a * y)| := by congr 1; ring
      _ ≤ _ := abs_add_le _ _
      _ ≤ (1 + u) * |val (a * y)| := by linarith
      _ ≤ (1 + u) * ((1 + u) * (|val a| * |val y|)) := by gcongr
      _ = _ := by ring
  rw [tendsto_zero_iff_abs_tendsto_zero]
  exact contraction_tendsto _ (fun _ => 0) _ (by positivity) ha (fun _ => abs_nonneg _) step tendsto_const_nhds

end BlockDC

namespace Biquad

variable {V : Type} [Zero V] [One V] [Add V] [Sub V] [Mul V] [IntCast V] {val : V → ℝ} {u : ℝ} (hR : RoundedMul V val u) (hu0 : 0 ≤ u)

include hR hu0 in
/-- One step. -/
theorem step_error (b0 b1 b2 a1 a2 x0 x1 x2 y1 y2 : V) :
    |val (b0 • x0 + b1 • x1 + b2 • x2 - a1 • y1 - a2 • y2) - (val b0 * val x0 + val b1 * val x1 + val b2 * val x2 - val a1 * val y1 - val a2 * val y2)| ≤
      ((1 + u) ^ 5 - 1) * (|val b0| * |val x0| + |val b1| * |val x1| + |val b2| * |val x2| + |val a1| * |val y1| + |val a2| * |val y2|) := by
  have pw : ∀ k, u ≤ (1 + u) ^ (k + 1) - 1 := by
    intro k
    have : (1 : ℝ) ≤ (1 + u) ^ k := one_le_pow₀ (by linarith)
    rw [pow_succ]
    nlinarith
  have s1 := add_error hR hu0 (b0 * x0) (b1 * x1) _ _ _ _ u (mul_error_plain hR hu0 b0 x0 u le_rfl) (mul_error_plain hR hu0 b1 x1 u le_rfl) (abs_mul _ _).le (abs_mul _ _).le
  rw [show (1 + u) * (1 + u) - 1 = (1 + u) ^ 2 - 1 by ring] at s1
  have b1' : |val b0 * val x0 + val b1 * val x1| ≤ |val b0| * |val x0| + |val b1| * |val x1| := by
    rw [← abs_mul, ← abs_mul]; exact abs_add_le _ _
  have s2 := add_error hR hu0 (b0 * x0 + b1 * x1) (b2 * x2) _ _ _ _ ((1 + u) ^ 2 - 1) s1 (mul_error_plain hR hu0 b2 x2 _ (pw 1)) b1' (abs_mul _ _).le
  rw [show (1 + u) * (1 + ((1 + u) ^ 2 - 1)) - 1 = (1 + u) ^ 3 - 1 by ring] at s2
  have b2' : |val b0 * val x0 + val b1 * val x1 + val b2 * val x2| ≤ |val b0| * |val x0| + |val b1| * |val x1| + |val b2| * |val x2| := by
    refine (abs_add_le _ _).trans (add_le_add b1' (abs_mul _ _).le)
  have s3 := sub_error hR hu0 (b0 * x0 + b1 * x1 + b2 * x2) (a1 * y1) _ _ _ _ ((1 + u) ^ 3 - 1) s2 (mul_error_plain hR hu0 a1 y1 _ (pw 2)) b2' (abs_mul _ _).le
  rw [show (1 + u) * (1 + ((1 + u) ^ 3 - 1)) - 1 = (1 + u) ^ 4 - 1 by ring] at s3
  have b3' : |val b0 * val x0 + val b1 * val x1 + val b2 * val x2 - val a1 * val y1| ≤ |val b0| * |val x0| + |val b1| * |val x1| + |val b2| * |val x2| + |val a1| * |val y1| := by
    refine (abs_sub _ _).trans (add_le_add b2' (abs_mul _ _).le)
  have s4 := sub_error hR hu0 (b0 * x0 + b1 * x1 + b2 * x2 - a1 * y1) (a2 * y2) _ _ _ _ ((1 + u) ^ 4 - 1) s3 (mul_error_plain hR hu0 a2 y2 _ (pw 3)) b3' (abs_mul _ _).le
  rw [show (1 + u) * (1 + ((1 + u) ^ 4 - 1)) - 1 = (1 + u) ^ 5 - 1 by ring] at s4
  exact s4

/-- A filter of second order that is never driven by more than `D`: with poles `p` and `q` inside of the unit circle it stays below `D / ((1 - |p|) (1 - |q|))`. The bound on the input
may depend on that bound on the output. -/
theorem second_le (a1 a2 : ℝ) (p q : ℂ) (hs : (a1 : ℂ) = -(p + q)) (hm : (a2 : ℂ) = p * q) (hp : ‖p‖ < 1) (C : ℝ) (hC : 0 ≤ C) (e d : ℕ → ℝ)
    (h : ∀ n, e n = d n - a1 * ago e 1 n - a2 * ago e 2 n) (hd : ∀ n, (∀ k < n, |e k| ≤ C) → |d n| ≤ (1 - ‖p‖) * (1 - ‖q‖) * C) (n : ℕ) : |e n| ≤ C := by
  have key : ∀ n, |e n| ≤ C ∧ ‖(e n : ℂ) - p * (ago e 1 n : ℂ)‖ ≤ (1 - ‖p‖) * C := by
    intro n
    induction n using Nat.strong_induction_on with
    | _ n ih =>
      have hdn := hd n fun k hk => (ih k hk).1
      have f : ‖(e n : ℂ) - p * (ago e 1 n : ℂ)‖ ≤ (1 - ‖p‖) * C := by
        have prev : ‖(ago e 1 n : ℂ) - p * (ago e 2 n : ℂ)‖ ≤ (1 - ‖p‖) * C := by
          unfold ago
          by_cases h1 : 1 ≤ n
          · have := (ih (n - 1) (by omega)).2
            rw [if_pos h1]
            unfold ago at this
            by_cases h2 : 2 ≤ n
            · rw [if_pos h2]
              rw [if_pos (by omega), show n - 1 - 1 = n - 2 by omega] at this
              exact this
            · rw [if_neg h2]
              rw [if_neg (by omega)] at this
              exact this
          · rw [if_neg h1, if_neg (by omega)]
            simp only [Complex.ofReal_zero, mul_zero, sub_zero, norm_zero]
            exact mul_nonneg (by linarith) hC
        have eq : (e n : ℂ) - p * (ago e 1 n : ℂ) = q * ((ago e 1 n : ℂ) - p * (ago e 2 n : ℂ)) + (d n : ℂ) := by
          conv_lhs => rw [h n]
          push_cast
          rw [hs, hm]
          ring
        rw [eq]
        calc _ ≤ ‖q * ((ago e 1 n : ℂ) - p * (ago e 2 n : ℂ))‖ + ‖(d n : ℂ)‖ := norm_add_le _ _
          _ ≤ ‖q‖ * ((1 - ‖p‖) * C) + (1 - ‖p‖) * (1 - ‖q‖) * C := by
            rw [norm_mul, Complex.norm_real, Real.norm_eq_abs]
            gcongr
          _ = _ := by ring
      refine ⟨?_, f⟩
      have ha : |ago e 1 n| ≤ C := by
        unfold ago
        split_ifs with h1
        · exact (ih (n - 1) (by omega)).1
        · rw [abs_zero]; exact hC
      have : ‖(e n : ℂ)‖ ≤ C := by
        calc ‖(e n : ℂ)‖ = ‖((e n : ℂ) - p * (ago e 1 n : ℂ)) + p * (ago e 1 n : ℂ)‖ := by congr 1; ring
          _ ≤ _ := norm_add_le _ _
          _ ≤ (1 - ‖p‖) * C + ‖p‖ * C := by
            rw [norm_mul, Complex.norm_real, Real.norm_eq_abs]
            gcongr
          _ = C := by ring
      rwa [Complex.norm_real, Real.norm_eq_abs] at this
  exact (key n).1

theorem ago_le (x : ℕ → ℝ) (M : ℝ) (hM : 0 ≤ M) (d n : ℕ) (h : 1 ≤ d) (hx : ∀ k < n, |x k| ≤ M) : |ago x d n| ≤ M := by
  unfold ago
  split_ifs with h1
  · exact hx _ (by omega)
  · rw [abs_zero]; exact hM

/-- What the filter itself does, with zeros before the first input. -/
theorem stream_ago (hz : val 0 = 0) (b0 b1 b2 a1 a2 : V) (x : ℕ → V) (n : ℕ) : ∃ x1 x2 y1 y2 : V, stream call (⟨0, 0, 0, 0, b0, b1, b2, a1, a2⟩ : Biquad V V) x n =
      b0 • x n + b1 • x1 + b2 • x2 - a1 • y1 - a2 • y2 ∧ val x1 = ago (fun k => val (x k)) 1 n ∧ val x2 = ago (fun k => val (x k)) 2 n ∧
      val y1 = ago (fun k => val (stream call (⟨0, 0, 0, 0, b0, b1, b2, a1, a2⟩ : Biquad V V) x k)) 1 n ∧
      val y2 = ago (fun k => val (stream call (⟨0, 0, 0, 0, b0, b1, b2, a1, a2⟩ : Biquad V V) x k)) 2 n := by
  match n with
  | 0 => exact ⟨0, 0, 0, 0, stream_zero _ x, by simp [ago, hz]⟩
  | 1 => exact ⟨x 0, 0, stream call (⟨0, 0, 0, 0, b0, b1, b2, a1, a2⟩ : Biquad V V) x 0, 0, stream_one _ x, by simp [ago, hz]⟩
  | n + 2 => exact ⟨x (n + 1), x n, _, _, stream_two _ x n, by simp [ago], by simp [ago], by simp [ago], by simp [ago]⟩

/-- How much larger than the input the output can be: `G = (|b0| + |b1| + |b2|) / ((1 - |p|) (1 - |q|))`. -/
noncomputable def gain (b0 b1 b2 : ℝ) (p q : ℂ) : ℝ := (|b0| + |b1| + |b2|) / ((1 - ‖p‖) * (1 - ‖q‖))

theorem secondOrder_le (b0 b1 b2 a1 a2 : ℝ) (p q : ℂ) (hs : (a1 : ℂ) = -(p + q)) (hm : (a2 : ℂ) = p * q) (hp : ‖p‖ < 1) (hq : ‖q‖ < 1) (x w : ℕ → ℝ) (M : ℝ) (hx : ∀ n, |x n| ≤ M)
    (hw : SecondOrder b0 b1 b2 a1 a2 x w) (n : ℕ) : |w n| ≤ gain b0 b1 b2 p q * M := by
  have hM : 0 ≤ M := (abs_nonneg _).trans (hx 0)
  have hp' : 0 < 1 - ‖p‖ := by linarith
  have hq' : 0 < 1 - ‖q‖ := by linarith
  refine second_le a1 a2 p q hs hm hp (gain b0 b1 b2 p q * M) (by unfold gain; positivity) w (fun n => b0 * x n + b1 * ago x 1 n + b2 * ago x 2 n) hw ?_ n
  intro n _
  have h1 := ago_le x M hM 1 n le_rfl fun k _ => hx k
  have h2 := ago_le x M hM 2 n (by norm_num) fun k _ => hx k
  calc |b0 * x n + b1 * ago x 1 n + b2 * ago x 2 n| ≤ |b0 * x n| + |b1 * ago x 1 n| + |b2 * ago x 2 n| := abs_add_three _ _ _
    _ ≤ |b0| * M + |b1| * M + |b2| * M := by
      rw [abs_mul, abs_mul, abs_mul]
      gcongr
      exact hx n
    _ = _ := by
      unfold gain
      field_simp

/-- The relative error of a filter of second order: `noise = g G (1 + A R) / (1 - g A R)` with `g` for five roundings, `A = |a1| + |a2|` and `R = 1 / ((1 - |p|) (1 - |q|))`. -/
noncomputable def noise (u b0 b1 b2 a1 a2 : ℝ) (p q : ℂ) : ℝ :=
  ((1 + u) ^ 5 - 1) * gain b0 b1 b2 p q * ((1 - ‖p‖) * (1 - ‖q‖) + (|a1| + |a2|)) / ((1 - ‖p‖) * (1 - ‖q‖) - ((1 + u) ^ 5 - 1) * (|a1| + |a2|))

include hR hu0 in
/-- **C74** The error of a filter of second order is bounded for ever: the rounded output differs from every solution of the difference equation with the same coefficients by at most
`noise` times the largest input. -/
theorem C74_biquad (b0 b1 b2 a1 a2 : V) (p q : ℂ) (hs : (val a1 : ℂ) = -(p + q)) (hm : (val a2 : ℂ) = p * q) (hp : ‖p‖ < 1) (hq : ‖q‖ < 1)
    (hA : ((1 + u) ^ 5 - 1) * (|val a1| + |val a2|) < (1 - ‖p‖) * (1 - ‖q‖)) (x : ℕ → V) (M : ℝ) (hx : ∀ n, |val (x n)| ≤ M) (w : ℕ → ℝ)
    (hw : SecondOrder (val b0) (val b1) (val b2) (val a1) (val a2) (fun n => val (x n)) w) (n : ℕ) :
    |val (stream call (⟨0, 0, 0, 0, b0, b1, b2, a1, a2⟩ : Biquad V V) x n) - w n| ≤ noise u (val b0) (val b1) (val b2) (val a1) (val a2) p q * M := by
  have hM : 0 ≤ M := (abs_nonneg _).trans (hx 0)
  have hw' := secondOrder_le _ _ _ _ _ p q hs hm hp hq _ w M hx hw
  have hp' : 0 < 1 - ‖p‖ := by linarith
  have hq' : 0 < 1 - ‖q‖ := by linarith
  have hG : 0 ≤ gain (val b0) (val b1) (val b2) p q := by unfold gain; positivity
  have hβ : |val b0| + |val b1| + |val b2| = gain (val b0) (val b1) (val b2) p q * ((1 - ‖p‖) * (1 - ‖q‖)) := by
    unfold gain
    field_simp
  have hg0 : 0 ≤ (1 + u) ^ 5 - 1 := by
    rw [sub_nonneg]
    exact one_le_pow₀ (by linarith)
  unfold noise
  generalize hS : (fun k => val (stream call (⟨0, 0, 0, 0, b0, b1, b2, a1, a2⟩ : Biquad V V) x k)) = y
  have hy : ∀ k, val (stream call (⟨0, 0, 0, 0, b0, b1, b2, a1, a2⟩ : Biquad V V) x k) = y k := fun k => congrFun hS k
  generalize hR' : (1 - ‖p‖) * (1 - ‖q‖) = R at *
  have hR0 : 0 < R := by rw [← hR']; positivity
  generalize hgg : (1 + u) ^ 5 - 1 = g at *
  generalize hAA : |val a1| + |val a2| = A at *
  have hA0 : 0 ≤ A := by rw [← hAA]; positivity
  generalize gain (val b0) (val b1) (val b2) p q = G at *
  have hden : 0 < R - g * A := by linarith
  have hC : 0 ≤ g * G * (R + A) / (R - g * A) * M := by positivity
  rw [hy]
  refine second_le (val a1) (val a2) p q hs hm hp (g * G * (R + A) / (R - g * A) * M) hC (fun n => y n - w n) (fun n => y n - w n + val a1 * ago (fun n => y n - w n) 1 n + val a2 * ago (fun n => y n - w n) 2 n)
    (fun n => by ring) ?_ n
  intro n hn
  rw [hR']
  obtain ⟨x1, x2, y1, y2, e, e1, e2, e3, e4⟩ := stream_ago hR.zero b0 b1 b2 a1 a2 x n
  rw [hS] at e3 e4
  have st := step_error hR hu0 b0 b1 b2 a1 a2 (x n) x1 x2 y1 y2
  rw [← e, hy, hgg] at st
  have agosub : ∀ d, ago (fun n => y n - w n) d n = ago y d n - ago w d n := by
    intro d
    unfold ago
    split_ifs
    · rfl
    · ring
  have eq : y n - w n + val a1 * ago (fun n => y n - w n) 1 n + val a2 * ago (fun n => y n - w n) 2 n =
      y n - (val b0 * val (x n) + val b1 * val x1 + val b2 * val x2 - val a1 * val y1 - val a2 * val y2) := by
    rw [hw n, agosub, agosub, e1, e2, e3, e4]
    ring
  rw [eq]
  refine st.trans ?_
  have bx1 : |val x1| ≤ M := by rw [e1]; exact ago_le _ M hM 1 n le_rfl fun k _ => hx k
  have bx2 : |val x2| ≤ M := by rw [e2]; exact ago_le _ M hM 2 n (by norm_num) fun k _ => hx k
  have by_ : ∀ k < n, |y k| ≤ G * M + g * G * (R + A) / (R - g * A) * M := by
    intro k hk
    calc |y k| = |w k + (y k - w k)| := by congr 1; ring
      _ ≤ _ := abs_add_le _ _
      _ ≤ _ := add_le_add (hw' k) (hn k hk)
  have hB : 0 ≤ G * M + g * G * (R + A) / (R - g * A) * M := by positivity
  have by1 : |val y1| ≤ G * M + g * G * (R + A) / (R - g * A) * M := by rw [e3]; exact ago_le _ _ hB 1 n le_rfl by_
  have by2 : |val y2| ≤ G * M + g * G * (R + A) / (R - g * A) * M := by rw [e4]; exact ago_le _ _ hB 2 n (by norm_num) by_
  calc g * (|val b0| * |val (x n)| + |val b1| * |val x1| + |val b2| * |val x2| + |val a1| * |val y1| + |val a2| * |val y2|)
      ≤ g * (|val b0| * M + |val b1| * M + |val b2| * M + |val a1| * (G * M + g * G * (R + A) / (R - g * A) * M) + |val a2| * (G * M + g * G * (R + A) / (R - g * A) * M)) := by
        gcongr
        exact hx n
    _ = g * ((|val b0| + |val b1| + |val b2|) * M + (|val a1| + |val a2|) * (G * M + g * G * (R + A) / (R - g * A) * M)) := by ring
    _ = R * (g * G * (R + A) / (R - g * A) * M) := by
      rw [hβ, hAA]
      field_simp
      ring

/-- Every input has an exact output. -/
theorem secondOrder_exists (b0 b1 b2 a1 a2 : ℝ) (x : ℕ → ℝ) : ∃ w, SecondOrder b0 b1 b2 a1 a2 x w := by
  refine ⟨stream call (⟨0, 0, 0, 0, b0, b1, b2, a1, a2⟩ : Biquad ℝ ℝ) x, fun n => ?_⟩
  obtain ⟨x1, x2, y1, y2, e, e1, e2, e3, e4⟩ := stream_ago (V := ℝ) (val := id) rfl b0 b1 b2 a1 a2 x n
  simp only [id] at e1 e2 e3 e4
  rw [e, e1, e2, e3, e4]
  rfl

theorem secondOrder_sub (b0 b1 b2 a1 a2 : ℝ) (x y v w : ℕ → ℝ) (h1 : SecondOrder b0 b1 b2 a1 a2 x v) (h2 : SecondOrder b0 b1 b2 a1 a2 y w) :
    SecondOrder b0 b1 b2 a1 a2 (fun n => x n - y n) fun n => v n - w n := by
  intro n
  have agosub : ∀ (a b : ℕ → ℝ) d, ago (fun n => a n - b n) d n = ago a d n - ago b d n := by
    intro a b d
    unfold ago
    split_ifs
    · rfl
    · ring
  simp only [agosub]
  rw [h1 n, h2 n]
  ring

end Biquad

namespace BiquadCascade

/-- One section with its poles. -/
structure Section (V : Type) where
  b0 : V
  b1 : V
  b2 : V
  a1 : V
  a2 : V
  p : ℂ
  q : ℂ

/-- The outputs of a chain of exact sections. -/
def _root_.DSP.Spec.Chain {V : Type} (val : V → ℝ) : List (Section V) → (ℕ → ℝ) → (ℕ → ℝ) → Prop
  | [], x, y => y = x
  | s :: ss, x, y => ∃ w, SecondOrder (val s.b0) (val s.b1) (val s.b2) (val s.a1) (val s.a2) x w ∧ Chain val ss w y

variable {V : Type} [Zero V] [One V] [Add V] [Sub V] [Mul V] [IntCast V] {val : V → ℝ} {u : ℝ} (hR : RoundedMul V val u) (hu0 : 0 ≤ u)

/-- The filter at rest. -/
def Section.filter (s : Section V) : Biquad V V := ⟨0, 0, 0, 0, s.b0, s.b1, s.b2, s.a1, s.a2⟩

/-- Its poles are those of the coefficients, inside of the unit circle, and not too close to it for the precision. -/
structure Section.Good (val : V → ℝ) (u : ℝ) (s : Section V) : Prop where
  sum : (val s.a1 : ℂ) = -(s.p + s.q)
  prod : (val s.a2 : ℂ) = s.p * s.q
  p : ‖s.p‖ < 1
  q : ‖s.q‖ < 1
  room : ((1 + u) ^ 5 - 1) * (|val s.a1| + |val s.a2|) < (1 - ‖s.p‖) * (1 - ‖s.q‖)

noncomputable def Section.gain (val : V → ℝ) (s : Section V) : ℝ := Biquad.gain (val s.b0) (val s.b1) (val s.b2) s.p s.q

noncomputable def Section.noise (val : V → ℝ) (u : ℝ) (s : Section V) : ℝ := Biquad.noise u (val s.b0) (val s.b1) (val s.b2) (val s.a1) (val s.a2) s.p s.q

theorem gain_nonneg {s : Section V} (h : s.Good val u) : 0 ≤ s.gain val := by
  have := h.p
  have := h.q
  have hp' : 0 < 1 - ‖s.p‖ := by linarith
  have hq' : 0 < 1 - ‖s.q‖ := by linarith
  unfold Section.gain Biquad.gain
  positivity

theorem chain_exists (ss : List (Section V)) : ∀ x : ℕ → ℝ, ∃ y, Chain val ss x y := by
  induction ss with
  | nil => intro x; exact ⟨x, rfl⟩
  | cons s ss ih =>
    intro x
    obtain ⟨w, hw⟩ := Biquad.secondOrder_exists (val s.b0) (val s.b1) (val s.b2) (val s.a1) (val s.a2) x
    obtain ⟨y, hy⟩ := ih w
    exact ⟨y, w, hw, hy⟩

theorem chain_sub (ss : List (Section V)) (hg : ∀ s ∈ ss, s.Good val u) : ∀ (x y v w : ℕ → ℝ) (C : ℝ), Chain val ss x v → Chain val ss y w → (∀ n, |x n - y n| ≤ C) →
    ∀ n, |v n - w n| ≤ (ss.map (Section.gain val)).prod * C := by
  induction ss with
  | nil =>
    rintro x y v w C rfl rfl h n
    simpa using h n
  | cons s ss ih =>
    rintro x y v w C ⟨v1, hv1, hv⟩ ⟨w1, hw1, hw⟩ h n
    have g := hg s (by simp)
    have h1 := Biquad.secondOrder_le _ _ _ _ _ s.p s.q g.sum g.prod g.p g.q _ _ C h (Biquad.secondOrder_sub _ _ _ _ _ _ _ _ _ hv1 hw1)
    have h2 := ih (fun s h => hg s (by simp [h])) _ _ _ _ _ hv hw h1 n
    refine h2.trans (le_of_eq ?_)
    rw [List.map_cons, List.prod_cons]
    unfold Section.gain
    ring

include hR hu0 in
/-- **C74** The same for a cascade of them: with gains `G` and errors `N` of the sections at most the product of `G + N` less the product of `G`. -/
theorem C74_cascade (ss : List (Section V)) (hg : ∀ s ∈ ss, s.Good val u) (x : ℕ → V) (M : ℝ) (hx : ∀ n, |val (x n)| ≤ M) (w : ℕ → ℝ) (hw : Chain val ss (fun n => val (x n)) w) (n : ℕ) :
    |val (stream call (ss.map Section.filter : BiquadCascade V V) x n) - w n| ≤
      ((ss.map fun s => s.gain val + s.noise val u).prod - (ss.map (Section.gain val)).prod) * M := by
  induction ss generalizing x M w n with
  | nil =>
    rw [show w = fun n => val (x n) from hw]
    simp [stream_nil]
  | cons s ss ih =>
    have hM : 0 ≤ M := (abs_nonneg _).trans (hx 0)
    obtain ⟨w1, hw1, hw2⟩ := hw
    have g := hg s (by simp)
    rw [List.map_cons, stream_cons]
    have e1 := Biquad.C74_biquad hR hu0 s.b0 s.b1 s.b2 s.a1 s.a2 s.p s.q g.sum g.prod g.p g.q g.room x M hx w1 hw1
    have l1 := Biquad.secondOrder_le _ _ _ _ _ s.p s.q g.sum g.prod g.p g.q _ _ M hx hw1
    have hb : ∀ n, |val (stream Biquad.call s.filter x n)| ≤ (s.gain val + s.noise val u) * M := by
      intro n
      calc |val (stream Biquad.call s.filter x n)| = |w1 n + (val (stream Biquad.call s.filter x n) - w1 n)| := by congr 1; ring
        _ ≤ _ := abs_add_le _ _
        _ ≤ _ := add_le_add (l1 n) (e1 n)
        _ = _ := by unfold Section.gain Section.noise; ring
    obtain ⟨v, hv⟩ := chain_exists (val := val) ss fun n => val (stream Biquad.call s.filter x n)
    have h1 := ih (fun s h => hg s (by simp [h])) (stream Biquad.call s.filter x) _ hb v hv n
    have h2 := chain_sub ss (fun s h => hg s (by simp [h])) _ _ _ _ _ hv hw2 e1 n
    refine (abs_sub_le _ _ _).trans ((add_le_add h1 h2).trans (le_of_eq ?_))
    rw [List.map_cons, List.prod_cons, List.map_cons, List.prod_cons]
    unfold Section.noise
    ring

end BiquadCascade

/-! ### Floating point -/

namespace EMA

/-- **C74** The error is real: an average over `2^k` samples that has come to rest at `3 * 2^(p-2)` does not follow an input that differs by up to `2^(k-1)`, two thirds of
`u / alpha` of it, never. -/
theorem C74_dead_band (p k : ℕ) [NeZero p] (hp : 3 ≤ p) (hk : 1 ≤ k) (hkp : k + 2 ≤ p) (d : ℤ) (hd : |d| ≤ 2 ^ (k - 1)) (n : ℕ) :
    (stream call ((init ((3 * 2 ^ (p - 2) : ℤ) : Binary p) (1 : Binary p)).samples (2 ^ k)) (fun _ => ((3 * 2 ^ (p - 2) + d : ℤ) : Binary p)) n).val = 3 * 2 ^ (p - 2) ∧
    ((3 * 2 ^ (p - 2) + d : ℤ) : Binary p).val = 3 * 2 ^ (p - 2) + d := by
  obtain ⟨r, rfl⟩ : ∃ r, p = k + 2 + r := ⟨p - (k + 2), by omega⟩
  obtain ⟨j, rfl⟩ : ∃ j, k = j + 1 := ⟨k - 1, by omega⟩
  rw [show j + 1 - 1 = j by omega] at hd
  rw [show j + 1 + 2 + r - 2 = j + 1 + r by omega]
  rw [abs_le] at hd
  have hj : (0 : ℤ) < 2 ^ j := by positivity
  have hr : (1 : ℤ) ≤ 2 ^ r := one_le_pow₀ (by norm_num)
  have e1 : (2 : ℤ) ^ (j + 1 + r) = 2 * (2 ^ j * 2 ^ r) := by rw [pow_add, pow_succ]; ring
  have hjr : (2 : ℤ) ^ j ≤ 2 ^ j * 2 ^ r := by nlinarith
  have ep : (2 : ℤ) ^ (j + 1 + 2 + r) = 8 * (2 ^ j * 2 ^ r) := by rw [show j + 1 + 2 + r = j + r + 3 by omega, pow_succ, pow_succ, pow_succ, pow_add]; ring
  have exact : ∀ (m : ℤ) (e : ℤ), |m| < 2 ^ (j + 1 + 2 + r) → Binary.round (j + 1 + 2 + r) (m * 2 ^ e) = m * 2 ^ e := fun m e h => Binary.round_of_representable _ _ ⟨m, e, h, rfl⟩
  have exactInt : ∀ (m : ℤ), |m| < 2 ^ (j + 1 + 2 + r) → Binary.round (j + 1 + 2 + r) m = m := by
    intro m h
    have := exact m 0 h
    rwa [zpow_zero, mul_one] at this
  have hy : ((3 * 2 ^ (j + 1 + r) : ℤ) : Binary (j + 1 + 2 + r)).val = 3 * 2 ^ (j + 1 + r) := by
    have := exactInt (3 * 2 ^ (j + 1 + r)) (by rw [ep, e1, abs_of_nonneg (by positivity)]; nlinarith)
    show Binary.round _ ((3 * 2 ^ (j + 1 + r) : ℤ) : ℚ) = _
    rw [this]
    push_cast
    rfl
  have hx : ((3 * 2 ^ (j + 1 + r) + d : ℤ) : Binary (j + 1 + 2 + r)).val = 3 * 2 ^ (j + 1 + r) + d := by
    have := exactInt (3 * 2 ^ (j + 1 + r) + d) (by rw [ep, e1, abs_of_nonneg (by nlinarith)]; nlinarith)
    show Binary.round _ ((3 * 2 ^ (j + 1 + r) + d : ℤ) : ℚ) = _
    rw [this]
    push_cast
    rfl
  refine ⟨?_, hx⟩
  have hone : (1 : Binary (j + 1 + 2 + r)).val = 1 := by
    show Binary.round _ ((1 : ℤ) : ℚ) = 1
    rw [exactInt 1 (by rw [ep, abs_one]; nlinarith)]
    norm_num
  have hs : (((2 : ℤ) ^ (j + 1) : ℤ) : Binary (j + 1 + 2 + r)).val = 2 ^ (j + 1) := by
    show Binary.round _ (((2 : ℤ) ^ (j + 1) : ℤ) : ℚ) = _
    rw [exactInt _ (by rw [ep, abs_of_nonneg (by positivity), pow_succ]; nlinarith)]
    push_cast
    rfl
  have ha : ((1 : Binary (j + 1 + 2 + r)) / (((2 : ℤ) ^ (j + 1) : ℤ) : Binary (j + 1 + 2 + r))).val = 1 / 2 ^ (j + 1) := by
    show Binary.round _ ((1 : Binary (j + 1 + 2 + r)).val / (((2 : ℤ) ^ (j + 1) : ℤ) : Binary (j + 1 + 2 + r)).val) = _
    rw [hone, hs]
    have := exact 1 (-((j + 1 : ℕ) : ℤ)) (by rw [ep, abs_one]; nlinarith)
    rw [Int.cast_one, one_mul, zpow_neg, zpow_natCast] at this
    rw [one_div]
    exact this
  have step : (lerp ((3 * 2 ^ (j + 1 + r) : ℤ) : Binary (j + 1 + 2 + r)) ((3 * 2 ^ (j + 1 + r) + d : ℤ) : Binary (j + 1 + 2 + r))
      ((1 : Binary (j + 1 + 2 + r)) / (((2 : ℤ) ^ (j + 1) : ℤ) : Binary (j + 1 + 2 + r)))).val = 3 * 2 ^ (j + 1 + r) := by
    show Binary.round _ (Binary.round _ (Binary.round _ ((1 : Binary (j + 1 + 2 + r)).val - ((1 : Binary (j + 1 + 2 + r)) / (((2 : ℤ) ^ (j + 1) : ℤ) : Binary (j + 1 + 2 + r))).val) *
      ((3 * 2 ^ (j + 1 + r) : ℤ) : Binary (j + 1 + 2 + r)).val) +
      Binary.round _ (((1 : Binary (j + 1 + 2 + r)) / (((2 : ℤ) ^ (j + 1) : ℤ) : Binary (j + 1 + 2 + r))).val * ((3 * 2 ^ (j + 1 + r) + d : ℤ) : Binary (j + 1 + 2 + r)).val)) = _
    rw [ha, hone, hy, hx]
    have c : Binary.round (j + 1 + 2 + r) (1 - 1 / 2 ^ (j + 1)) = 1 - 1 / 2 ^ (j + 1) := by
      have := exact (2 ^ (j + 1) - 1) (-((j + 1 : ℕ) : ℤ)) (by rw [ep, pow_succ, abs_of_nonneg (by linarith)]; nlinarith)
      rw [zpow_neg, zpow_natCast] at this
      push_cast at this
      rw [show (1 : ℚ) - 1 / 2 ^ (j + 1) = (2 ^ (j + 1) - 1) * (2 ^ (j + 1))⁻¹ by field_simp]
      exact this
    have c2 : Binary.round (j + 1 + 2 + r) ((1 - 1 / 2 ^ (j + 1)) * (3 * 2 ^ (j + 1 + r))) = 3 * 2 ^ (j + 1 + r) - 3 * 2 ^ r := by
      have := exactInt (3 * 2 ^ (j + 1 + r) - 3 * 2 ^ r) (by rw [ep, e1, abs_of_nonneg (by nlinarith)]; nlinarith)
      push_cast at this
      rw [show (1 - 1 / (2 : ℚ) ^ (j + 1)) * (3 * 2 ^ (j + 1 + r)) = 3 * 2 ^ (j + 1 + r) - 3 * 2 ^ r by rw [pow_add 2 (j + 1) r]; field_simp]
      exact this
    have c3 : Binary.round (j + 1 + 2 + r) (1 / 2 ^ (j + 1) * (3 * 2 ^ (j + 1 + r) + d)) = 3 * 2 ^ r + d / 2 ^ (j + 1) := by
      have := exact (3 * 2 ^ (j + 1 + r) + d) (-((j + 1 : ℕ) : ℤ)) (by rw [ep, e1, abs_of_nonneg (by nlinarith)]; nlinarith)
      rw [zpow_neg, zpow_natCast] at this
      push_cast at this
      rw [show (1 / (2 : ℚ) ^ (j + 1) * (3 * 2 ^ (j + 1 + r) + d)) = (3 * 2 ^ (j + 1 + r) + d) * (2 ^ (j + 1))⁻¹ by ring, this, pow_add 2 (j + 1) r]
      field_simp
    rw [c, c2, c3, show (3 * 2 ^ (j + 1 + r) - 3 * 2 ^ r + (3 * 2 ^ r + (d : ℚ) / 2 ^ (j + 1)) : ℚ) = 3 * 2 ^ (j + 1 + r) + d / 2 ^ (j + 1) by ring]
    -- the sum is within half a unit of an even number
    have hd1 : |(d : ℚ) / 2 ^ (j + 1)| ≤ 1 / 2 := by
      have h1 : |(d : ℚ)| ≤ 2 ^ j := by
        rw [abs_le]
        exact ⟨by exact_mod_cast hd.1, by exact_mod_cast hd.2⟩
      rw [abs_div, abs_of_pos (by positivity : (0 : ℚ) < 2 ^ (j + 1)), div_le_iff₀ (by positivity), pow_succ]
      linarith
    generalize (d : ℚ) / 2 ^ (j + 1) = t at hd1
    rw [abs_le] at hd1
    have hpos : (1 : ℚ) ≤ 2 ^ (j + r) := one_le_pow₀ (by norm_num)
    have eY : (3 : ℚ) * 2 ^ (j + 1 + r) = 6 * 2 ^ (j + r) := by rw [show j + 1 + r = j + r + 1 by omega, pow_succ]; ring
    have hl : Int.log 2 |3 * 2 ^ (j + 1 + r) + t| = ((j + r + 2 : ℕ) : ℤ) := by
      rw [eY, abs_of_pos (by linarith)]
      have hne : (0 : ℚ) < 6 * 2 ^ (j + r) + t := by linarith
      apply le_antisymm
      · rw [← Int.lt_add_one_iff, ← Int.lt_zpow_iff_log_lt (by norm_num) hne]
        rw [show (((j + r + 2 : ℕ) : ℤ) + 1) = ((j + r + 3 : ℕ) : ℤ) by push_cast; ring, zpow_natCast, pow_add _ (j + r) 3]
        push_cast
        linarith
      · rw [← Int.zpow_le_iff_le_log (by norm_num) hne, zpow_natCast, pow_add _ (j + r) 2]
        push_cast
        linarith
    unfold Binary.round
    simp only []
    rw [hl, show ((j + r + 2 : ℕ) : ℤ) + 1 - ((j + 1 + 2 + r : ℕ) : ℤ) = 0 by push_cast; ring, zpow_zero, div_one, mul_one]
    have hn : Binary.nearest (3 * 2 ^ (j + 1 + r) + t) = 3 * 2 ^ (j + 1 + r) := by
      have hev : (3 * 2 ^ (j + 1 + r) : ℤ) % 2 = 0 := by rw [e1]; omega
      unfold Binary.nearest
      simp only []
      by_cases h0 : 0 ≤ t
      · have hf : ⌊3 * 2 ^ (j + 1 + r) + t⌋ = (3 * 2 ^ (j + 1 + r) : ℤ) := by
          rw [Int.floor_eq_iff]
          push_cast
          constructor <;> linarith
        rw [hf]
        push_cast
        split_ifs <;> linarith
      · have hf : ⌊3 * 2 ^ (j + 1 + r) + t⌋ = (3 * 2 ^ (j + 1 + r) - 1 : ℤ) := by
          rw [Int.floor_eq_iff]
          push_cast
          constructor <;> linarith
        rw [hf]
        push_cast
        split_ifs with h1 h2 h3
        · exfalso; linarith
        · ring
        · exfalso; omega
        · ring
    rw [hn]
    push_cast
    rfl
  have ext : ∀ a b : Binary (j + 1 + 2 + r), a.val = b.val → a = b := by
    rintro ⟨a, ha⟩ ⟨b, hb⟩ h
    simp only at h
    subst h
    rfl
  have inv : ∀ n, (states call ((init ((3 * 2 ^ (j + 1 + r) : ℤ) : Binary (j + 1 + 2 + r)) (1 : Binary (j + 1 + 2 + r))).samples (2 ^ (j + 1)))
      (fun _ => ((3 * 2 ^ (j + 1 + r) + d : ℤ) : Binary (j + 1 + 2 + r))) n).prev = ((3 * 2 ^ (j + 1 + r) : ℤ) : Binary (j + 1 + 2 + r)) := by
    intro n
    induction n with
    | zero => rfl
    | succ n ih =>
      rw [prev_succ, ih]
      apply ext
      rw [hy]
      exact step
  rw [stream_eq, inv, hy]

/-- For `float` and 4096 samples: an average at 12582912 stays there for an input of 12584960. -/
example (n : ℕ) : (stream call ((init ((12582912 : ℤ) : Binary 24) (1 : Binary 24)).samples 4096) (fun _ => ((12584960 : ℤ) : Binary 24)) n).val = 12582912 := by
  have := (C74_dead_band 24 12 (by norm_num) (by norm_num) (by norm_num) 2048 (by norm_num) n).1
  norm_num at this
  exact this

/-- **C74** It does not even keep a constant: in `float` an average over three samples at 8388609 that is fed with nothing but 8388609 moves to 8388608, outside of the hull of its
inputs, and stays there. -/
theorem C74_outside (n : ℕ) : (stream call ((init ((8388609 : ℤ) : Binary 24) (1 : Binary 24)).samples 3) (fun _ => ((8388609 : ℤ) : Binary 24)) n).val = 8388608 ∧
    ((8388609 : ℤ) : Binary 24).val = 8388609 := by
  refine ⟨?_, by decide +kernel⟩
  have ext : ∀ a b : Binary 24, a.val = b.val → a = b := by
    rintro ⟨a, ha⟩ ⟨b, hb⟩ h
    simp only at h
    subst h
    rfl
  have inv : ∀ n, (states call ((init ((8388609 : ℤ) : Binary 24) (1 : Binary 24)).samples 3) (fun _ => ((8388609 : ℤ) : Binary 24)) (n + 1)).prev = ((8388608 : ℤ) : Binary 24) := by
    intro n
    induction n with
    | zero => exact ext _ _ (by decide +kernel)
    | succ n ih =>
      rw [prev_succ, ih]
      exact ext _ _ (by decide +kernel)
  rw [stream_eq, inv]
  decide +kernel

theorem binary_one (p : ℕ) [NeZero p] : (((1 : Binary p).val : ℚ) : ℝ) = 1 := (binary_roundedMul p).one

/-- The hypotheses of `C74_ema` for `float` and a thousand samples; the error is below two parts in ten thousand. -/
example : ((1 + 1 / 2 ^ 24 : ℝ) ^ 3 - 1) * (1 - 1 / 1000) < 1 / 1000 ∧ relError (1 / 2 ^ 24) (1 / 1000) < 2 / 10 ^ 4 := by
  unfold relError
  norm_num

end EMA

/-- The hypotheses of `C74_blockdc` for `float` and a thousand samples. -/
example : (1 + 1 / 2 ^ 24 : ℝ) ^ 3 * (999 / 1000) < 1 := by norm_num

/-- The hypotheses of `C74_biquad` for `float`, with a double pole at `3 / 4`: the coefficients are exact, there is room, and the error is below `10^-4`. -/
example : let s : BiquadCascade.Section (Binary 24) := ⟨Binary.literal 53 24 (1 / 64), Binary.literal 53 24 (1 / 32), Binary.literal 53 24 (1 / 64), Binary.literal 53 24 (-3 / 2), Binary.literal 53 24 (9 / 16), 3 / 4, 3 / 4⟩
    s.Good (fun a => (a.val : ℝ)) (1 / 2 ^ 24) ∧ s.noise (fun a => (a.val : ℝ)) (1 / 2 ^ 24) < 1 / 10 ^ 4 := by
  have l : ∀ x : ℚ, Binary.round 24 (Binary.round 53 x) = x → ((Binary.literal 53 24 x).val : ℝ) = x := by
    intro x h
    show ((Binary.round 24 (Binary.round 53 x) : ℚ) : ℝ) = x
    rw [h]
  have h0 := l (1 / 64) (by decide +kernel)
  have h1 := l (1 / 32) (by decide +kernel)
  have h3 := l (-3 / 2) (by decide +kernel)
  have h4 := l (9 / 16) (by decide +kernel)
  refine ⟨⟨?_, ?_, ?_, ?_, ?_⟩, ?_⟩
  · simp only [h3]; push_cast; ring
  · simp only [h4]; push_cast; ring
  · norm_num
  · norm_num
  · simp only [h3, h4]; norm_num [abs_of_pos, abs_of_neg]
  · simp only [BiquadCascade.Section.noise, Biquad.noise, Biquad.gain, h0, h1, h3, h4]
    norm_num [abs_of_pos, abs_of_neg]

end DSP
