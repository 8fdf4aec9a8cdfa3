import Verif.Model.Elementary
import Verif.Lemmas.PolyDeriv
import Verif.Props.Phasor
import Mathlib.Analysis.SpecialFunctions.Trigonometric.ArctanDeriv
import Mathlib.Analysis.SpecialFunctions.Complex.Arg
import Mathlib.Analysis.SpecialFunctions.Complex.Arctan
import Mathlib.Analysis.Calculus.MeanValue
import Mathlib.Analysis.Real.Pi.Bounds

/-!
# C37: atan and atan2
-/

namespace DSP.Atan
open PolyBound

/-- The numerator, lowest power first. -/
def P : List ℚ := [-6.485021904942025371773E1, -1.228866684490136173410E2, -7.500855792314704667340E1, -1.615753718733365076637E1, -8.750608600031904122785E-1]

/-- The denominator. -/
def Q : List ℚ := [1.945506571482613964425E2, 4.853903996359136964868E2, 4.328810604912902668951E2, 1.650270098316988542046E2, 2.485846490142306297962E1, 1]

/-- The derivative of the error times `(1+u)*Q^2`. -/
def N : List ℚ := mul [0, -1] (add (mul Q Q) (mul [1, 1] (add (smul 3 (mul P Q)) (mul [0, 2] (add (mul (deriv P) Q) (neg (mul P (deriv Q))))))))

def W : List ℚ := mul [1, 1] (mul Q Q)

theorem checkWide : check (add (smul (1 / 10 ^ 15) W) N) 0 0.4356132001 32 = true ∧ check (add (smul (1 / 10 ^ 15) W) (neg N)) 0 0.4356132001 32 = true := by
  constructor <;> decide +kernel

theorem checkNarrow : check (add (smul (15 / 10 ^ 17) W) N) 0 0.4 32 = true ∧ check (add (smul (15 / 10 ^ 17) W) (neg N)) 0 0.4 32 = true := by
  constructor <;> decide +kernel

theorem checkPositive : check (add [-1] (add Q (mul [0, 1] P))) 0 0.4356132001 4 = true := by decide +kernel

/-- What the kernel computes. -/
noncomputable def K (x : ℝ) : ℝ := x + x * (x * x) * eval P (x * x) / eval Q (x * x)

theorem Q_pos (u : ℝ) (hu : 0 ≤ u) : 0 < eval Q u := by
  simp only [Q, eval_cons, eval_nil]
  push_cast
  positivity

theorem kernel_ok (x : ℝ) : kernel x = .ok (K x) := by
  have hQ := (Q_pos (x * x) (mul_self_nonneg x)).ne'
  have e : x * x * (x * x * (x * x * (x * x * (x * x + 2.485846490142306297962E1) + 1.650270098316988542046E2) + 4.328810604912902668951E2) + 4.853903996359136964868E2) +
      1.945506571482613964425E2 = eval Q (x * x) := by
    simp only [Q, eval_cons, eval_nil]
    push_cast
    ring
  have e2 : x * x * (x * x * (x * x * (x * x * (-8.750608600031904122785E-1) + (-1.615753718733365076637E1)) + (-7.500855792314704667340E1)) +
      (-1.228866684490136173410E2)) + (-6.485021904942025371773E1) = eval P (x * x) := by
    simp only [P, eval_cons, eval_nil]
    push_cast
    ring
  simp only [kernel, bind, Except.bind]
  rw [e, e2, fdiv_ok hQ]
  rfl

theorem K_neg (x : ℝ) : K (-x) = -K x := by
  simp only [K, neg_mul_neg]
  ring

theorem K_pos (x : ℝ) (h0 : 0 < x) (h1 : x ≤ 0.66001) : 0 < K x := by
  have hQ := Q_pos (x * x) (mul_self_nonneg x)
  have h := check_sound _ 0 0.4356132001 4 checkPositive (x * x) (by push_cast; positivity) (by push_cast; nlinarith) (by norm_num) (by norm_num)
  simp only [eval_add, eval_mul, eval_cons, eval_nil] at h
  push_cast at h
  have e : K x = x * ((eval Q (x * x) + x * x * eval P (x * x)) / eval Q (x * x)) := by
    rw [K, add_div, div_self hQ.ne']; ring
  rw [e]
  have : 0 < eval Q (x * x) + x * x * eval P (x * x) := by linarith
  positivity

/-- The error and its derivative. -/
theorem error_deriv (x : ℝ) : ∃ d, HasDerivAt (fun x => Real.arctan x - K x) d x ∧ d * eval W (x * x) = eval N (x * x) := by
  have hQ := (Q_pos (x * x) (mul_self_nonneg x)).ne'
  have hu : HasDerivAt (fun x : ℝ => x * x) (1 * x + x * 1) x := (hasDerivAt_id x).mul (hasDerivAt_id x)
  have hP : HasDerivAt (fun x => eval P (x * x)) (eval (deriv P) (x * x) * (1 * x + x * 1)) x := HasDerivAt.comp x (h₂ := eval P) (h := fun x => x * x) (hasDerivAt_eval P (x * x)) hu
  have hQ' : HasDerivAt (fun x => eval Q (x * x)) (eval (deriv Q) (x * x) * (1 * x + x * 1)) x := HasDerivAt.comp x (h₂ := eval Q) (h := fun x => x * x) (hasDerivAt_eval Q (x * x)) hu
  have hx3 : HasDerivAt (fun x : ℝ => x * (x * x)) (1 * (x * x) + x * (1 * x + x * 1)) x := (hasDerivAt_id x).mul hu
  have hK : HasDerivAt K _ x := (hasDerivAt_id x).add ((hx3.mul hP).div hQ' hQ)
  refine ⟨_, (Real.hasDerivAt_arctan x).sub hK, ?_⟩
  have h1 : (1 + x ^ 2) ≠ 0 := by positivity
  simp only [Pi.mul_apply, W, N, eval_mul, eval_add, eval_smul, eval_neg, eval_cons, eval_nil]
  push_cast
  have hs : x * x = x ^ 2 := by ring
  rw [hs] at hQ ⊢
  field_simp
  ring

theorem W_pos (u : ℝ) (hu : 0 ≤ u) : 0 < eval W u := by
  have := Q_pos u hu
  simp only [W, eval_mul, eval_cons, eval_nil]
  push_cast
  positivity

theorem abs_deriv_le (x d : ℝ) (ε hi : ℚ) (n : ℕ) (hn : 0 < n) (hhi : 0 < hi) (h : check (add (smul ε W) N) 0 hi n = true ∧ check (add (smul ε W) (neg N)) 0 hi n = true)
    (hx : x * x ≤ hi) (hd : d * eval W (x * x) = eval N (x * x)) : |d| ≤ ε := by
  have hW := W_pos (x * x) (mul_self_nonneg x)
  have a := check_sound _ 0 hi n h.1 (x * x) (by rw [Rat.cast_zero]; exact mul_self_nonneg x) hx hhi hn
  have b := check_sound _ 0 hi n h.2 (x * x) (by rw [Rat.cast_zero]; exact mul_self_nonneg x) hx hhi hn
  simp only [eval_add, eval_smul, eval_neg] at a b
  rw [← hd] at a b
  rw [abs_le]
  constructor
  · by_contra c
    push Not at c
    nlinarith
  · by_contra c
    push Not at c
    nlinarith

/-- The error grows by at most `ε` times the distance. -/
theorem error_lipschitz (ε hi : ℚ) (b : ℝ) (n : ℕ) (hn : 0 < n) (hhi : 0 < hi) (h : check (add (smul ε W) N) 0 hi n = true ∧ check (add (smul ε W) (neg N)) 0 hi n = true)
    (hb : b * b ≤ hi) (x y : ℝ) (hx : |x| ≤ b) (hy : |y| ≤ b) : |(Real.arctan y - K y) - (Real.arctan x - K x)| ≤ ε * |y - x| := by
  have := Convex.norm_image_sub_le_of_norm_hasDerivWithin_le (f := fun x => Real.arctan x - K x) (f' := fun x => (error_deriv x).choose) (C := ε) (s := Set.Icc (-b) b)
    (fun z _ => (error_deriv z).choose_spec.1.hasDerivWithinAt) (fun z hz => by
      rw [Real.norm_eq_abs]
      refine abs_deriv_le z _ ε hi n hn hhi h ?_ (error_deriv z).choose_spec.2
      have : z * z ≤ b * b := by rw [Set.mem_Icc] at hz; nlinarith
      linarith) (convex_Icc _ _) (abs_le.mp hx) (abs_le.mp hy)
  simpa only [Real.norm_eq_abs] using this

theorem error_zero : Real.arctan 0 - K 0 = 0 := by simp [K]

theorem kernel_relative (x : ℝ) (hx : |x| ≤ 0.66001) : |K x - Real.arctan x| ≤ 1 / 10 ^ 15 * |x| := by
  have h := error_lipschitz _ _ 0.66001 32 (by norm_num) (by norm_num) checkWide (by norm_num) 0 x (by norm_num) hx
  rw [error_zero, sub_zero, sub_zero, abs_sub_comm] at h
  push_cast at h
  exact h

theorem kernel_absolute (x : ℝ) (hx : |x| ≤ 0.66001) : |K x - Real.arctan x| ≤ 1.24 / 10 ^ 16 := by
  have key : ∀ x : ℝ, 0 ≤ x → x ≤ 0.66001 → |K x - Real.arctan x| ≤ 1.24 / 10 ^ 16 := by
    intro x h0 h1
    rw [abs_sub_comm]
    by_cases c : x ≤ 0.632
    · have h := error_lipschitz _ _ 0.632 32 (by norm_num) (by norm_num) checkNarrow (by norm_num) 0 x (by norm_num) (by rw [abs_of_nonneg h0]; exact c)
      rw [error_zero, sub_zero, sub_zero, abs_of_nonneg h0] at h
      push_cast at h
      nlinarith
    · push Not at c
      have h := error_lipschitz _ _ 0.632 32 (by norm_num) (by norm_num) checkNarrow (by norm_num) 0 0.632 (by norm_num) (by norm_num [abs_le])
      have h' := error_lipschitz _ _ 0.66001 32 (by norm_num) (by norm_num) checkWide (by norm_num) 0.632 x (by norm_num [abs_le]) (by rw [abs_of_nonneg h0]; exact h1)
      rw [error_zero, sub_zero, sub_zero, abs_of_nonneg (by norm_num : (0 : ℝ) ≤ 0.632)] at h
      rw [abs_of_nonneg (by linarith : 0 ≤ x - 0.632)] at h'
      push_cast at h h'
      have := abs_add_le (Real.arctan x - K x - (Real.arctan 0.632 - K 0.632)) (Real.arctan 0.632 - K 0.632)
      rw [sub_add_cancel] at this
      linarith
  rcases le_total 0 x with h | h
  · exact key x h (by rwa [abs_of_nonneg h] at hx)
  · have := key (-x) (by linarith) (by rwa [abs_of_nonpos h] at hx)
    rwa [K_neg, Real.arctan_neg, show -K x - -Real.arctan x = -(K x - Real.arctan x) by ring, abs_neg] at this

theorem pi_const : |Const.pi - Real.pi| ≤ 1 / 10 ^ 19 ∧ |Const.halfPi - Real.pi / 2| ≤ 1 / 10 ^ 19 ∧ |Const.fourthPi - Real.pi / 4| ≤ 1 / 10 ^ 19 := by
  have h1 := Real.pi_gt_d20
  have h2 := Real.pi_lt_d20
  simp only [Const.pi, Const.halfPi, Const.fourthPi, abs_le]
  norm_num at h1 h2 ⊢
  refine ⟨⟨?_, ?_⟩, ⟨?_, ?_⟩, ?_, ?_⟩ <;> linarith

/-- The value for a number that is not negative. -/
theorem approx_ok (x : ℝ) (hx : 0 ≤ x) : ∃ v, approx x = .ok v ∧ |v - Real.arctan x| ≤ 1.86 / 10 ^ 16 ∧ (0 < x → 0 < v) ∧ (x = 0 → v = 0) ∧
    (x ≤ 0.66 → |v - Real.arctan x| ≤ 1 / 10 ^ 15 * |x|) := by
  obtain ⟨-, hh, hf⟩ := pi_const
  have hm : (0 : ℝ) ≤ morebits ∧ morebits ≤ 0.613 / 10 ^ 16 := by unfold morebits; norm_num
  have hpi := Real.pi_gt_d2
  unfold approx
  by_cases c1 : x ≤ 0.66
  · rw [if_pos c1, kernel_ok]
    have hx' : |x| ≤ 0.66 := by rwa [abs_of_nonneg hx]
    have hx2 : |x| ≤ 0.66001 := hx'.trans (by norm_num)
    refine ⟨_, rfl, (kernel_absolute x hx2).trans (by norm_num), fun h => K_pos x h (by linarith), fun h => by subst h; simp [K], fun _ => kernel_relative x hx2⟩
  rw [if_neg c1]
  push Not at c1
  have hx0 : 0 < x := by linarith
  by_cases c2 : x > 2.41421356237309504880
  · rw [if_pos c2, fdiv_ok hx0.ne']
    simp only [bind, Except.bind, kernel_ok, pure, Except.pure]
    have ht : 0 < 1 / x := by positivity
    have ht2 : 1 / x ≤ 0.66 := by rw [div_le_iff₀ hx0]; linarith
    have hk := kernel_absolute (1 / x) (by rw [abs_of_pos ht]; linarith)
    have ha : Real.arctan x = Real.pi / 2 - Real.arctan (1 / x) := by rw [one_div, Real.arctan_inv_of_pos hx0]; ring
    have hu : Real.arctan (1 / x) ≤ 1 := (Real.arctan_strictMono.monotone (by linarith : 1 / x ≤ 1)).trans (by rw [Real.arctan_one]; linarith [Real.pi_lt_d2])
    rw [abs_le] at hk hh
    refine ⟨_, rfl, ?_, fun _ => by linarith [hk.1, hk.2, hh.1, hh.2, hm.1, hm.2], fun h => by linarith, fun h => by linarith⟩
    rw [ha, abs_le]
    constructor <;> linarith [hk.1, hk.2, hh.1, hh.2, hm.1, hm.2]
  · rw [if_neg c2]
    push Not at c2
    have hx1 : x + 1 ≠ 0 := by linarith
    rw [fdiv_ok hx1]
    simp only [bind, Except.bind, kernel_ok, pure, Except.pure]
    have ht : -0.66 ≤ (x - 1) / (x + 1) := by rw [le_div_iff₀ (by linarith)]; linarith
    have ht2 : (x - 1) / (x + 1) ≤ 0.66 := by rw [div_le_iff₀ (by linarith)]; linarith
    have hk := kernel_absolute ((x - 1) / (x + 1)) (by rw [abs_le]; constructor <;> linarith)
    have ha : Real.arctan x = Real.pi / 4 + Real.arctan ((x - 1) / (x + 1)) := by
      have h := Real.arctan_add (x := 1) (y := (x - 1) / (x + 1)) (by linarith)
      rw [Real.arctan_one] at h
      rw [h]
      congr 1
      have : 1 - (x - 1) / (x + 1) ≠ 0 := by linarith
      field_simp
      ring
    have hpos : 0 ≤ Real.arctan x - 0.66 / 2 := by
      have h1 := Real.arctan_strictMono.monotone c1.le
      have h2 := kernel_absolute 0.66 (by norm_num [abs_le])
      have h3 : 0.4 ≤ K 0.66 := by
        simp only [K, P, Q, eval_cons, eval_nil]
        push_cast
        norm_num
      rw [abs_le] at h2
      linarith [h2.1, h2.2]
    rw [abs_le] at hk hf
    refine ⟨_, rfl, ?_, fun _ => by linarith [hk.1, hk.2, hf.1, hf.2, hm.1, hm.2], fun h => by linarith, fun h => by linarith⟩
    rw [ha, abs_le]
    constructor <;> linarith [hk.1, hk.2, hf.1, hf.2, hm.1, hm.2]

theorem atan_fine : ∃ f : ℝ → ℝ, (∀ x, atan x = .ok (f x)) ∧ (∀ x, f (-x) = -f x) ∧ (∀ x, 0 < x → 0 < f x) ∧ (∀ x, |f x - Real.arctan x| ≤ 1.86 / 10 ^ 16) ∧
    ∀ x, |x| ≤ 0.66 → |f x - Real.arctan x| ≤ 1 / 10 ^ 15 * |x| := by
  have h : ∀ x, ∃ v, 0 ≤ x → approx x = .ok v ∧ |v - Real.arctan x| ≤ 1.86 / 10 ^ 16 ∧ (0 < x → 0 < v) ∧ (x = 0 → v = 0) ∧
      (x ≤ 0.66 → |v - Real.arctan x| ≤ 1 / 10 ^ 15 * |x|) := fun x => by
    by_cases c : 0 ≤ x
    · obtain ⟨v, hv⟩ := approx_ok x c
      exact ⟨v, fun _ => hv⟩
    · exact ⟨0, fun h => absurd h c⟩
  choose g hg using h
  have hneg : ∀ x, |(-g (-x)) - Real.arctan x| = |g (-x) - Real.arctan (-x)| := fun x => by
    rw [Real.arctan_neg, show -g (-x) - Real.arctan x = -(g (-x) - -Real.arctan x) by ring, abs_neg]
  refine ⟨fun x => if x ≥ 0 then g x else -g (-x), fun x => ?_, fun x => ?_, fun x hx => ?_, fun x => ?_, fun x hx => ?_⟩
  · show atan x = .ok (if x ≥ 0 then g x else -g (-x))
    unfold atan
    by_cases c : x ≥ 0
    · rw [if_pos c, if_pos c, (hg x c).1]
    · rw [if_neg c, if_neg c, (hg (-x) (by linarith)).1]
      rfl
  · show (if -x ≥ 0 then g (-x) else -g (- -x)) = -(if x ≥ 0 then g x else -g (-x))
    rcases lt_trichotomy x 0 with c | c | c
    · rw [if_pos (by linarith), if_neg (by linarith), neg_neg]
    · subst c
      have := (hg 0 le_rfl).2.2.2.1 rfl
      simp [this]
    · rw [if_neg (by linarith), if_pos (by linarith), neg_neg]
  · show 0 < if x ≥ 0 then g x else -g (-x)
    rw [if_pos hx.le]
    exact (hg x hx.le).2.2.1 hx
  · show |(if x ≥ 0 then g x else -g (-x)) - Real.arctan x| ≤ _
    by_cases c : x ≥ 0
    · rw [if_pos c]
      exact (hg x c).2.1
    · rw [if_neg c, hneg]
      exact (hg (-x) (by linarith)).2.1
  · show |(if x ≥ 0 then g x else -g (-x)) - Real.arctan x| ≤ _
    by_cases c : x ≥ 0
    · rw [if_pos c]
      exact (hg x c).2.2.2.2 (by rwa [abs_of_nonneg c] at hx)
    · rw [if_neg c, hneg, ← abs_neg x]
      rw [← abs_neg, abs_of_nonneg (by linarith)] at hx
      exact (hg (-x) (by linarith)).2.2.2.2 hx

/-- `atan` is defined everywhere, odd, has the right sign, and differs from the arcus tangent by at most `2^-52`; near zero the error is relative. -/
theorem C37_atan : ∃ f : ℝ → ℝ, (∀ x, atan x = .ok (f x)) ∧ (∀ x, f (-x) = -f x) ∧ (∀ x, 0 < x → 0 < f x) ∧ (∀ x, |f x - Real.arctan x| ≤ 1 / 2 ^ 52) ∧
    ∀ x, |x| ≤ 0.66 → |f x - Real.arctan x| ≤ 1 / 10 ^ 15 * |x| := by
  obtain ⟨f, h1, h2, h3, h4, h5⟩ := atan_fine
  exact ⟨f, h1, h2, h3, fun x => (h4 x).trans (by norm_num), h5⟩

theorem arg_right (y x : ℝ) (h : 0 < x) : Complex.arg ⟨x, y⟩ = Real.arctan (y / x) := by
  have h1 := Complex.abs_arg_lt_pi_div_two_iff (z := ⟨x, y⟩) |>.mpr (Or.inl h)
  rw [abs_lt] at h1
  have h2 := Complex.tan_arg ⟨x, y⟩
  rw [← show Real.tan (Complex.arg ⟨x, y⟩) = y / x from h2, Real.arctan_tan h1.1 h1.2]

/-- `atan2` gives the argument of the complex number up to `2^-52`, exactly zero for positive real numbers, and the printed constants on the other half-axes. -/
theorem C37_atan2 (y x : ℝ) (h : x ≠ 0 ∨ y ≠ 0) : ∃ v, atan2 (decide (y < 0)) y x = .ok v ∧ |v - Complex.arg ⟨x, y⟩| ≤ 1 / 2 ^ 52 := by
  obtain ⟨hp, hh, -⟩ := pi_const
  obtain ⟨f, hf, hodd, hpos, hfine, -⟩ := atan_fine
  have hacc : ∀ x, |f x - Real.arctan x| ≤ 1 / 2 ^ 52 := fun x => (hfine x).trans (by norm_num)
  unfold atan2
  by_cases cy : y = 0
  · rw [if_pos cy]
    subst cy
    have hx : x ≠ 0 := by simpa using h
    have e : (⟨x, 0⟩ : ℂ) = (x : ℂ) := rfl
    refine ⟨_, rfl, ?_⟩
    rw [e]
    by_cases c : x ≥ 0
    · rw [if_pos c, Complex.arg_ofReal_of_nonneg c]
      simp [copysign]
    · rw [if_neg c, Complex.arg_ofReal_of_neg (by linarith)]
      simp only [copysign, lt_irrefl, decide_false, Bool.false_eq_true, if_false]
      exact hp.trans (by norm_num)
  rw [if_neg cy]
  by_cases cx : x = 0
  · rw [if_pos cx]
    subst cx
    have e : (⟨0, y⟩ : ℂ) = (y : ℂ) * Complex.I := by apply Complex.ext <;> simp
    refine ⟨_, rfl, ?_⟩
    rw [e]
    by_cases c : y < 0
    · have e2 : (y : ℂ) * Complex.I = ((-y : ℝ) : ℂ) * -Complex.I := by push_cast; ring
      rw [e2, Complex.arg_real_mul _ (by linarith), Complex.arg_neg_I]
      simp only [copysign, c, decide_true, if_true]
      rw [show -Const.halfPi - -(Real.pi / 2) = -(Const.halfPi - Real.pi / 2) by ring, abs_neg]
      exact hh.trans (by norm_num)
    · have : 0 < y := lt_of_le_of_ne (not_lt.mp c) (Ne.symm cy)
      rw [Complex.arg_real_mul _ this, Complex.arg_I]
      simp only [copysign, c, decide_false, Bool.false_eq_true, if_false]
      exact hh.trans (by norm_num)
  rw [if_neg cx, fdiv_ok cx]
  simp only [bind, Except.bind, hf, pure, Except.pure]
  by_cases c : x < 0
  · rw [if_pos c]
    have hw := arg_right (-y) (-x) (by linarith)
    rw [neg_div_neg_eq] at hw
    have hz : (⟨x, y⟩ : ℂ) = -⟨-x, -y⟩ := by apply Complex.ext <;> simp
    rw [hz]
    rw [abs_le] at hp
    by_cases cp : y < 0
    · have h1 : 0 < y / x := div_pos_of_neg_of_neg cp c
      refine ⟨_, rfl, ?_⟩
      rw [if_pos (hpos _ h1), Complex.arg_neg_eq_arg_sub_pi_of_im_pos (by show 0 < -y; linarith), hw]
      have := hfine (y / x)
      rw [abs_le] at this ⊢
      constructor <;> linarith [this.1, this.2, hp.1, hp.2]
    · have hy : 0 < y := lt_of_le_of_ne (not_lt.mp cp) (Ne.symm cy)
      have h1 : 0 < -(y / x) := by rw [neg_pos]; exact div_neg_of_pos_of_neg hy c
      have h2 := hpos _ h1
      rw [hodd] at h2
      refine ⟨_, rfl, ?_⟩
      rw [if_neg (by linarith), Complex.arg_neg_eq_arg_add_pi_of_im_neg (by show -y < 0; linarith), hw]
      have := hfine (y / x)
      rw [abs_le] at this ⊢
      constructor <;> linarith [this.1, this.2, hp.1, hp.2]
  · rw [if_neg c]
    refine ⟨_, rfl, ?_⟩
    rw [arg_right y x (lt_of_le_of_ne (not_lt.mp c) (Ne.symm cx))]
    exact hacc _

/-- With a negative zero for `y` the half-axis of negative numbers is approached from below. -/
theorem C37_negative_zero (x : ℝ) (h : x < 0) : ∃ v, atan2 true 0 x = .ok v ∧ |v + Real.pi| ≤ 1 / 10 ^ 19 := by
  refine ⟨-Const.pi, by simp [atan2, not_le.mpr h, copysign, pure, Except.pure], ?_⟩
  rw [show -Const.pi + Real.pi = -(Const.pi - Real.pi) by ring, abs_neg]
  exact pi_const.1

/-- All three ranges, both signs and the second quadrant. -/
example : ∃ f : ℝ → ℝ, (∀ x, atan x = .ok (f x)) ∧ |f 0.5 - Real.arctan 0.5| ≤ 1 / 2 ^ 52 ∧ |f 1 - Real.pi / 4| ≤ 1 / 2 ^ 52 ∧ |f (-3) - Real.arctan (-3)| ≤ 1 / 2 ^ 52 := by
  obtain ⟨f, h, -, -, h2, -⟩ := C37_atan
  exact ⟨f, h, h2 _, by rw [← Real.arctan_one]; exact h2 1, h2 _⟩

example : ∃ v, atan2 (decide ((1 : ℝ) < 0)) 1 (-1) = .ok v ∧ |v - Complex.arg ⟨-1, 1⟩| ≤ 1 / 2 ^ 52 := C37_atan2 1 (-1) (by norm_num)

end DSP.Atan
