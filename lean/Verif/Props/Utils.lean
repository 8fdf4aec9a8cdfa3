import Verif.Model.Utils
import Verif.Model.Filters
import Verif.Lemmas.Loops
import Verif.Props.Phasor
import Mathlib.Analysis.SpecialFunctions.Trigonometric.Sinc
import Mathlib.Probability.Distributions.Gaussian.Real

/-!
# Utility functions and coefficient tables (C65, C66)
-/

namespace DSP

/-! ### utils.hh -/

/-- `lerp` is the affine function that is `a` at 0 and `b` at 1. -/
theorem C66_lerp {K E : Type} [Field K] [AddCommGroup E] [Module K E] (a b : E) (x : K) :
    lerp a b (0 : K) = a ∧ lerp a b (1 : K) = b ∧ lerp a b x = a + x • (b - a) := by
  refine ⟨by simp [lerp], by simp [lerp], ?_⟩
  simp only [lerp]; module

/-- Between 0 and 1 it stays between its ends. -/
theorem C66_lerp_between (a b x : ℝ) (h0 : 0 ≤ x) (h1 : x ≤ 1) : min a b ≤ lerp a b x ∧ lerp a b x ≤ max a b := by
  simp only [lerp, smul_eq_mul]
  have e : (1 - x) * min a b + x * min a b = min a b := by ring
  have e' : (1 - x) * max a b + x * max a b = max a b := by ring
  constructor
  · rw [← e]
    exact add_le_add (mul_le_mul_of_nonneg_left (min_le_left _ _) (by linarith)) (mul_le_mul_of_nonneg_left (min_le_right _ _) h0)
  · rw [← e']
    exact add_le_add (mul_le_mul_of_nonneg_left (le_max_left _ _) (by linarith)) (mul_le_mul_of_nonneg_left (le_max_right _ _) h0)

example : (0 : ℝ) ≤ 1 / 3 ∧ (1 / 3 : ℝ) ≤ 1 := by norm_num

/-- `clamp` leaves what is in the interval and moves everything else to the nearer end. -/
theorem C66_clamp {T : Type} [LinearOrder T] (x a b : T) (h : a ≤ b) :
    a ≤ clamp x a b ∧ clamp x a b ≤ b ∧ (a ≤ x → x ≤ b → clamp x a b = x) ∧ (x ≤ a → clamp x a b = a) ∧ (b ≤ x → clamp x a b = b) := by
  unfold clamp
  rcases lt_trichotomy x a with h1 | h1 | h1
  · rw [if_pos h1]
    exact ⟨le_rfl, h, fun h2 => absurd h1 (not_lt.mpr h2), fun _ => rfl, fun h2 => absurd h1 (not_lt.mpr (h.trans h2))⟩
  · subst h1
    rw [if_neg (lt_irrefl _), if_neg (not_lt.mpr h)]
    exact ⟨le_rfl, h, fun _ _ => rfl, fun _ => rfl, fun h2 => le_antisymm h h2⟩
  · rw [if_neg (not_lt.mpr h1.le)]
    by_cases h2 : x > b
    · rw [if_pos h2]
      exact ⟨h, le_rfl, fun _ h3 => absurd h2 (not_lt.mpr h3), fun h3 => absurd h1 (not_lt.mpr h3), fun _ => rfl⟩
    · rw [if_neg h2]
      have h2 := not_lt.mp h2
      exact ⟨h1.le, h2, fun _ _ => rfl, fun h3 => absurd h1 (not_lt.mpr h3), fun h3 => le_antisymm h2 h3⟩

example : clamp (5 : ℤ) (-2) 3 = 3 ∧ (-2 : ℤ) ≤ 3 := by decide

/-- `signum` is -1, 0 or 1 as the argument is negative, zero or positive. -/
theorem C66_signum {T : Type} [LinearOrder T] [Zero T] (v : T) :
    (signum v = -1 ↔ v < 0) ∧ (signum v = 0 ↔ v = 0) ∧ (signum v = 1 ↔ 0 < v) := by
  unfold signum
  rcases lt_trichotomy v 0 with h | h | h
  · simp [h, h.ne, not_lt.mpr h.le]
  · subst h; simp
  · simp [h, h.ne', not_lt.mpr h.le]

/-- Multiplying with the magnitude gives the number back. -/
theorem C66_signum_abs (v : ℝ) : (signum v : ℝ) * |v| = v := by
  obtain ⟨h1, h2, h3⟩ := C66_signum v
  rcases lt_trichotomy v 0 with h | h | h
  · rw [h1.mpr h, abs_of_neg h]; simp
  · rw [h]; simp
  · rw [h3.mpr h, abs_of_pos h]; simp

/-- `sinc` is 1 at zero, solves `π x sinc(x) = sin(π x)`, is even, bounded by one, continuous, and vanishes exactly at the other integers. -/
theorem C66_sinc : sinc 0 = 1 ∧ (∀ x, Real.pi * x * sinc x = Real.sin (Real.pi * x)) ∧ (∀ x, sinc (-x) = sinc x) ∧
    (∀ x, |sinc x| ≤ 1) ∧ Continuous sinc ∧ (∀ x, sinc x = 0 ↔ x ≠ 0 ∧ ∃ n : ℤ, x = n) := by
  have e : ∀ x, sinc x = Real.sinc (Real.pi * x) := by
    intro x
    unfold sinc Real.sinc
    by_cases h : x = 0
    · subst h; simp
    · rw [if_neg (Ne.symm h), if_neg (mul_ne_zero Real.pi_ne_zero h)]
  refine ⟨by simp [sinc], ?_, ?_, ?_, ?_, ?_⟩
  · intro x
    unfold sinc
    by_cases h : x = 0
    · subst h; simp
    · rw [if_neg (Ne.symm h)]
      have := Real.pi_ne_zero
      field_simp
  · intro x; rw [e, e, mul_neg, Real.sinc_neg]
  · intro x; rw [e]; exact Real.abs_sinc_le_one _
  · have : sinc = fun x => Real.sinc (Real.pi * x) := funext e
    rw [this]
    exact Real.continuous_sinc.comp (continuous_const.mul continuous_id)
  · intro x
    unfold sinc
    by_cases h : x = 0
    · subst h; simp
    · rw [if_neg (Ne.symm h), div_eq_zero_iff]
      have h2 : Real.pi * x ≠ 0 := mul_ne_zero Real.pi_ne_zero h
      simp only [h2, or_false, ne_eq, h, not_false_eq_true, true_and]
      rw [Real.sin_eq_zero_iff]
      constructor
      · rintro ⟨n, hn⟩
        exact ⟨n, by have := Real.pi_ne_zero; apply mul_left_cancel₀ this; rw [← hn]; ring⟩
      · rintro ⟨n, rfl⟩; exact ⟨n, by ring⟩

/-- `delta` is the indicator of zero. -/
theorem C66_delta (x : ℝ) : (x = 0 → delta x = 1) ∧ (x ≠ 0 → delta x = 0) := by
  constructor
  · rintro rfl; simp [delta]
  · intro h; simp [delta, Ne.symm h]

/-- `normal_pdf` is the density of the normal distribution with mean `m` and standard deviation `s`: it integrates to one over the whole line, is symmetric around
`m` and largest there. -/
theorem C66_normal_pdf (m s : ℝ) (hs : 0 < s) :
    ∃ p : ℝ → ℝ, (∀ x, normalPdf x m s = .ok (p x)) ∧ (∀ x, p x = (1 / (s * Real.sqrt (2 * Real.pi))) * Real.exp (-(x - m) ^ 2 / (2 * s ^ 2))) ∧
      (∫ x, p x = 1) ∧ (∀ x, p (m + x) = p (m - x)) ∧ (∀ x, 0 < p x ∧ p x ≤ p m) := by
  have hq : 0 < Real.sqrt (2 * Real.pi) := Real.sqrt_pos.mpr (by positivity)
  refine ⟨fun x => (1 / (s * Real.sqrt (2 * Real.pi))) * Real.exp (-(x - m) ^ 2 / (2 * s ^ 2)), ?_, fun x => rfl, ?_, ?_, ?_⟩
  · intro x
    simp only [normalPdf, bind, Except.bind]
    rw [fdiv_ok hs.ne']
    simp only []
    rw [fdiv_ok (mul_pos hq hs).ne', Real.rpow_two]
    congr 1
    have : -((x - m) / s) ^ 2 / 2 = -(x - m) ^ 2 / (2 * s ^ 2) := by field_simp
    rw [this]; field_simp
  · have hv : ((s ^ 2).toNNReal : ℝ) = s ^ 2 := Real.coe_toNNReal _ (by positivity)
    have h := ProbabilityTheory.integral_gaussianPDFReal_eq_one m (v := (s ^ 2).toNNReal)
      (by rw [Ne, Real.toNNReal_eq_zero, not_le]; positivity)
    have e : (fun x => (1 / (s * Real.sqrt (2 * Real.pi))) * Real.exp (-(x - m) ^ 2 / (2 * s ^ 2))) =
        ProbabilityTheory.gaussianPDFReal m (s ^ 2).toNNReal := by
      funext x
      rw [ProbabilityTheory.gaussianPDFReal, hv, Real.sqrt_mul (by positivity : 0 ≤ 2 * Real.pi) (s ^ 2), Real.sqrt_sq hs.le]
      congr 1
      field_simp
    rw [e]; exact h
  · intro x; simp
  · intro x
    refine ⟨by positivity, ?_⟩
    apply mul_le_mul_of_nonneg_left _ (by positivity)
    apply Real.exp_le_exp.mpr
    rw [div_le_div_iff_of_pos_right (by positivity)]
    nlinarith [sq_nonneg (x - m)]

example : (0 : ℝ) < 3 / 2 := by norm_num

/-! ### coeffs.hh -/

namespace Coeffs

theorem fill_ok (TAPS : ℕ) (g : ℕ → ℝ) (w : List ℝ) (hw : w.length = TAPS) :
    (List.range TAPS).foldlM (fun w (n : ℕ) => wr w n (g n)) w = .ok ((List.range TAPS).map g) := by
  apply update_loop _ _ _ _ hw (by simp)
  intro b i u v hi hb _ _ hv
  rw [wr_nat (by omega)]
  simp [hi] at hv
  rw [hv]

theorem normalize_ok (w : List ℝ) (d : ℝ) (h : w.sum ≠ 0) (hd : d ≠ 0) :
    normalize ⟨w⟩ d = .ok ⟨w.map (fun v => v / (d * |w.sum|))⟩ := by
  have hne : d * |w.sum| ≠ 0 := mul_ne_zero hd (abs_ne_zero.mpr h)
  have l1 : (List.range w.length).foldlM (fun sum (n : ℕ) => do
      let v ← rd w n
      return sum + v) (0 : ℝ) = .ok w.sum := by
    apply sum_loop _ _ _ rfl
    intro acc i v hv
    rw [rd_of_getElem? (by omega) (by simpa using hv)]
    simp only [bind, Except.bind, pure, Except.pure]
  have l2 : (List.range w.length).foldlM (fun a (n : ℕ) => do
      let v ← rd a n
      let v ← fdiv v (d * |w.sum|)
      wr a n v) w = .ok (w.map (fun v => v / (d * |w.sum|))) := by
    apply update_loop _ _ _ _ rfl (by simp)
    intro b i u v hi hb hu hu2 hv
    rw [rd_of_getElem? (by omega) (by simpa using hu)]
    simp only [bind, Except.bind]
    rw [fdiv_ok hne]
    simp only []
    rw [wr_nat (by omega)]
    rw [List.getElem?_map, hu2] at hv
    simp only [Option.map_some, Option.some.injEq] at hv
    rw [hv]
  simp only [bind, Except.bind, pure, Except.pure] at l1 l2
  simp only [normalize, bind, Except.bind, pure, Except.pure, l1, l2]

/-- The value at `n` of a table with entries `g 0, ..., g (TAPS-1)`, zero outside. -/
noncomputable def tableAt (TAPS : ℕ) (g : ℤ → ℝ) (n : ℤ) : ℝ := if 0 ≤ n ∧ n < TAPS then g n else 0

theorem get_ok (TAPS : ℕ) (g : ℤ → ℝ) (n : ℤ) : get ⟨(List.range TAPS).map (fun (k : ℕ) => g k)⟩ n = .ok (tableAt TAPS g n) := by
  unfold get tableAt
  simp only [List.length_map, List.length_range]
  by_cases h : 0 ≤ n ∧ n < TAPS
  · rw [if_pos h, if_pos h, rd_of_getElem? h.1]
    rw [List.getElem?_map, List.getElem?_range (by omega)]
    simp only [Option.map_some, Option.some.injEq]
    congr 1; omega
  · rw [if_neg h, if_neg h]

/-- Without normalisation the table holds `func(n, TAPS)` (or the product of two functions), and every other index reads zero. -/
theorem C65_table (TAPS : ℕ) (f g : ℤ → ℤ → ℝ) (w : List ℝ) (hw : w.length = TAPS) :
    (∃ c, make TAPS false f w = .ok c ∧ ∀ n, c.get n = .ok (tableAt TAPS (fun n => f n TAPS) n)) ∧
    (∃ c, make2 TAPS false f g w = .ok c ∧ ∀ n, c.get n = .ok (tableAt TAPS (fun n => f n TAPS * g n TAPS) n)) := by
  constructor
  · refine ⟨⟨(List.range TAPS).map (fun (k : ℕ) => f k TAPS)⟩, ?_, fun n => get_ok TAPS (fun n => f n TAPS) n⟩
    simp only [make, bind, Except.bind, pure, Except.pure]
    rw [fill_ok TAPS (fun (k : ℕ) => f k TAPS) w hw]
    simp
  · refine ⟨⟨(List.range TAPS).map (fun (k : ℕ) => f k TAPS * g k TAPS)⟩, ?_, fun n => get_ok TAPS (fun n => f n TAPS * g n TAPS) n⟩
    simp only [make2, bind, Except.bind, pure, Except.pure]
    rw [fill_ok TAPS (fun (k : ℕ) => f k TAPS * g k TAPS) w hw]
    simp

/-- The sum of all entries of a table of `TAPS` functions values. -/
noncomputable def total (TAPS : ℕ) (g : ℤ → ℝ) : ℝ := ((List.range TAPS).map (fun (k : ℕ) => g k)).sum

/-- With normalisation every entry is divided by the magnitude of the sum. -/
theorem C65_normalized (TAPS : ℕ) (f g : ℤ → ℤ → ℝ) (w : List ℝ) (hw : w.length = TAPS) :
    (total TAPS (fun n => f n TAPS) ≠ 0 →
      ∃ c, make TAPS true f w = .ok c ∧ ∀ n, c.get n = .ok (tableAt TAPS (fun n => f n TAPS / |total TAPS (fun n => f n TAPS)|) n)) ∧
    (total TAPS (fun n => f n TAPS * g n TAPS) ≠ 0 →
      ∃ c, make2 TAPS true f g w = .ok c ∧
        ∀ n, c.get n = .ok (tableAt TAPS (fun n => f n TAPS * g n TAPS / |total TAPS (fun n => f n TAPS * g n TAPS)|) n)) := by
  have main : ∀ h : ℤ → ℝ, total TAPS h ≠ 0 → ∃ c, normalize ⟨(List.range TAPS).map (fun (k : ℕ) => h k)⟩ 1 = .ok c ∧
      ∀ n, c.get n = .ok (tableAt TAPS (fun n => h n / |total TAPS h|) n) := by
    intro h h0
    refine ⟨_, normalize_ok _ 1 h0 one_ne_zero, fun n => ?_⟩
    rw [List.map_map, one_mul]
    exact get_ok TAPS (fun n => h n / |total TAPS h|) n
  constructor
  · intro h
    obtain ⟨c, e, hc⟩ := main _ h
    refine ⟨c, ?_, hc⟩
    simp only [make, bind, Except.bind, pure, Except.pure]
    rw [fill_ok TAPS (fun (k : ℕ) => f k TAPS) w hw]
    simpa using e
  · intro h
    obtain ⟨c, e, hc⟩ := main _ h
    refine ⟨c, ?_, hc⟩
    simp only [make2, bind, Except.bind, pure, Except.pure]
    rw [fill_ok TAPS (fun (k : ℕ) => f k TAPS * g k TAPS) w hw]
    simpa using e

/-- After `normalize(d)` the entries keep their ratios and their sum has magnitude `1 / d`. -/
theorem C65_normalize (c : Coeffs) (d : ℝ) (hd : 0 < d) (hs : c.w.sum ≠ 0) :
    ∃ c', c.normalize d = .ok c' ∧ |c'.w.sum| = 1 / d ∧ ∃ k, 0 < k ∧ c'.w = c.w.map (fun v => k * v) := by
  obtain ⟨w⟩ := c
  refine ⟨_, normalize_ok w d hs hd.ne', ?_, 1 / (d * |w.sum|), by positivity, ?_⟩
  · have e : (w.map (fun v => v / (d * |w.sum|))) = w.map (fun v => v * (1 / (d * |w.sum|))) := by
      apply List.map_congr_left; intro v _; ring
    simp only [e]
    rw [List.sum_map_mul_right, List.map_id', abs_mul, abs_of_pos (by positivity : 0 < 1 / (d * |w.sum|))]
    have : |w.sum| ≠ 0 := abs_ne_zero.mpr hs
    field_simp
  · apply List.map_congr_left; intro v _; ring

/-- A table whose sum is zero cannot be normalised: every entry is divided by zero. -/
theorem C65_zero_sum : normalize ⟨[1, -1]⟩ 1 = .error .divZero := by
  simp [normalize, List.range_succ, rd, bind, Except.bind, pure, Except.pure, fdiv]

example : (Coeffs.mk [1, 2, -5]).w.sum ≠ 0 := by norm_num
example : total 3 (fun n => (n : ℝ) * (fun m : ℤ => (m : ℝ)) 3) ≠ 0 := by simp [total, List.range_succ]; norm_num

end Coeffs
end DSP
