import Verif.Props.Phasor

/-!
# Frequency demodulators (C51)
-/

namespace DSP
namespace FM

/-- What a user can do to a demodulator. -/
inductive Op
  | bandwidth (bw : ℝ)
  | input (x : ℂ)

/-- Bandwidths and samples are not zero. -/
def Op.Good : Op → Prop
  | .bandwidth bw => bw ≠ 0
  | .input x => x ≠ 0

/-- The specification. The state is the previous sample (one in the beginning) and the bandwidth (if set); the output is `f prev x`
divided by the bandwidth, zero before a bandwidth is set. -/
noncomputable def demod (f : ℂ → ℂ → ℝ) (s : ℂ × Option ℝ) : Op → (ℂ × Option ℝ) × Option ℝ
  | .bandwidth bw => ((s.1, some bw), none)
  | .input x => ((x, s.2), some (match s.2 with | some bw => f s.1 x / bw | none => 0))

/-- The principal phase increment in units of half a turn. -/
noncomputable def increment (p x : ℂ) : ℝ := Complex.arg (x / p) / Real.pi

/-- `FMD1` cannot tell `π` from `-π`: when the phase jumps by exactly half a turn the sign depends on the phases themselves. -/
noncomputable def incrementTie (p x : ℂ) : ℝ :=
  (if Complex.arg (x / p) = Real.pi ∧ Complex.arg x < Complex.arg p then -Real.pi else Complex.arg (x / p)) / Real.pi

/-- The sine of the increment, weighted with the quotient of the magnitudes. -/
noncomputable def sine (p x : ℂ) : ℝ := ‖p‖ / ‖x‖ * Real.sin (Complex.arg (x / p)) / Real.pi

section Machines

variable {S : Type}

/-- Runs a demodulator. -/
noncomputable def step (bandwidth : S → ℝ → M S) (call : S → ℂ → M (S × ℝ)) (s : S) : Op → M (S × Option ℝ)
  | .bandwidth bw => do
    let s ← bandwidth s bw
    return (s, none)
  | .input x => do
    let (s, y) ← call s x
    return (s, some y)

end Machines

/-- The scale that belongs to a bandwidth. -/
noncomputable def scaleOf : Option ℝ → ℝ
  | none => 0
  | some bw => 1 / (bw * Real.pi)

theorem scale_mul (b : Option ℝ) (a : ℝ) : scaleOf b * a = match b with | some bw => a / Real.pi / bw | none => 0 := by
  cases b with
  | none => simp [scaleOf]
  | some bw => simp only [scaleOf]; rw [div_div, mul_comm Real.pi bw, one_div_mul_eq_div]

theorem wrap_eq (p x : ℂ) (hp : p ≠ 0) (hx : x ≠ 0) : FMD1.wrapAround (Complex.arg x - Complex.arg p) / Real.pi = incrementTie p x := by
  unfold incrementTie
  congr 1
  have hq : Complex.arg (x / p) = FMD1.wrapAround (Complex.arg x - Complex.arg p) ∨
      (Complex.arg (x / p) = Real.pi ∧ Complex.arg x - Complex.arg p = -Real.pi) := by
    have h1 := Complex.neg_pi_lt_arg x
    have h2 := Complex.arg_le_pi x
    have h3 := Complex.neg_pi_lt_arg p
    have h4 := Complex.arg_le_pi p
    have hpi := Real.pi_pos
    have key : ∀ t : ℝ, -Real.pi < t → t ≤ Real.pi → (∃ k : ℤ, t = Complex.arg x - Complex.arg p + k * (2 * Real.pi)) →
        Complex.arg (x / p) = t := by
      rintro t ht0 ht1 ⟨k, hk⟩
      have e : x / p = (‖x‖ / ‖p‖ : ℝ) * (Complex.cos t + Complex.sin t * Complex.I) := by
        rw [← Complex.exp_mul_I, hk]
        conv_lhs => rw [← Complex.norm_mul_exp_arg_mul_I x, ← Complex.norm_mul_exp_arg_mul_I p]
        push_cast
        rw [mul_div_mul_comm, ← Complex.exp_sub]
        congr 1
        have := Complex.exp_int_mul_two_pi_mul_I k
        rw [show ((Complex.arg x : ℂ) - Complex.arg p + k * (2 * Real.pi)) * Complex.I =
          (Complex.arg x * Complex.I - Complex.arg p * Complex.I) + k * (2 * Real.pi * Complex.I) from by ring, Complex.exp_add,
          this, mul_one]
      rw [e]
      exact Complex.arg_mul_cos_add_sin_mul_I (div_pos (norm_pos_iff.mpr hx) (norm_pos_iff.mpr hp)) ⟨ht0, ht1⟩
    unfold FMD1.wrapAround
    split_ifs with c1 c2
    · left; exact key _ (by linarith) (by linarith) ⟨1, by push_cast; ring⟩
    · left; exact key _ (by linarith) (by linarith) ⟨-1, by push_cast; ring⟩
    · rcases eq_or_lt_of_le (not_lt.mp c1) with c3 | c3
      · right; exact ⟨key _ (by linarith) le_rfl ⟨1, by push_cast; linarith⟩, c3.symm⟩
      · left; exact key _ c3 (not_lt.mp c2) ⟨0, by push_cast; ring⟩
  have hpi := Real.pi_pos
  rcases hq with h | ⟨h, h2⟩
  · by_cases c : Complex.arg (x / p) = Real.pi ∧ Complex.arg x < Complex.arg p
    · exfalso
      obtain ⟨c1, c2⟩ := c
      rw [c1] at h
      have h1 := Complex.neg_pi_lt_arg x
      have h4 := Complex.arg_le_pi p
      unfold FMD1.wrapAround at h
      split_ifs at h <;> linarith
    · rw [if_neg c, h]
  · rw [if_pos ⟨h, by linarith⟩, h2]
    unfold FMD1.wrapAround
    rw [if_neg (lt_irrefl _), if_neg (by linarith)]

theorem bw_ok (bw : ℝ) (h : bw ≠ 0) : fdiv 1 (bw * Real.pi) = .ok (scaleOf (some bw)) := fdiv_ok (mul_ne_zero h Real.pi_ne_zero)

/-- `FMD1` gives the phase increment, with the sign of half a turn explained above. -/
theorem C51_fmd1 (ops : List Op) (hg : ∀ o ∈ ops, o.Good) :
    trace (step FMD1.bandwidth FMD1.call) FMD1.init ops = (outputs (demod incrementTie) (1, none) ops, none) := by
  refine trace_eq_outputs_good (fun (f : FMD1) (s : ℂ × Option ℝ) => s.1 ≠ 0 ∧ f.prev = Complex.arg s.1 ∧ f.scale = scaleOf s.2)
    Op.Good ?_ (by simp [FMD1.init, scaleOf]) ops hg
  rintro f ⟨p, b⟩ o ⟨hp, h1, h2⟩ ho
  cases o with
  | bandwidth bw =>
    refine ⟨{ f with scale := scaleOf (some bw) }, ?_, hp, h1, rfl⟩
    simp only [step, FMD1.bandwidth, bw_ok bw ho, bind, Except.bind, pure, Except.pure, demod]
  | input x =>
    refine ⟨{ f with prev := Complex.arg x }, ?_, ho, rfl, h2⟩
    simp only [step, FMD1.call, bind, Except.bind, pure, Except.pure, demod, h1, h2, scale_mul, wrap_eq p x hp ho]

theorem fmd_sim (call : FMD → ℂ → M (FMD × ℝ)) (g : ℂ → ℂ → ℝ)
    (h : ∀ (f : FMD) x, f.prev ≠ 0 → x ≠ 0 → call f x = .ok ({ f with prev := x }, f.scale * (g f.prev x * Real.pi)))
    (ops : List Op) (hg : ∀ o ∈ ops, o.Good) :
    trace (step FMD.bandwidth call) FMD.init ops = (outputs (demod g) (1, none) ops, none) := by
  refine trace_eq_outputs_good (fun (f : FMD) (s : ℂ × Option ℝ) => s.1 ≠ 0 ∧ f.prev = s.1 ∧ f.scale = scaleOf s.2)
    Op.Good ?_ (by simp [FMD.init, scaleOf]) ops hg
  rintro f ⟨p, b⟩ o ⟨hp, h1, h2⟩ ho
  cases o with
  | bandwidth bw =>
    refine ⟨{ f with scale := scaleOf (some bw) }, ?_, hp, h1, rfl⟩
    simp only [step, FMD.bandwidth, bw_ok bw ho, bind, Except.bind, pure, Except.pure, demod]
  | input x =>
    simp only at h1 hp
    refine ⟨{ f with prev := x }, ?_, ho, rfl, h2⟩
    simp only [step, h f x (h1 ▸ hp) ho, bind, Except.bind, pure, Except.pure, demod, h1, h2, scale_mul,
      mul_div_cancel_right₀ _ Real.pi_ne_zero]

/-- `FMD2` gives the principal phase increment. -/
theorem C51_fmd2 (ops : List Op) (hg : ∀ o ∈ ops, o.Good) :
    trace (step FMD.bandwidth FMD.call2) FMD.init ops = (outputs (demod increment) (1, none) ops, none) := by
  refine fmd_sim _ _ (fun f x hp hx => ?_) ops hg
  simp only [FMD.call2, cdiv_ok hp, bind, Except.bind, pure, Except.pure, increment, div_mul_cancel₀ _ Real.pi_ne_zero]

theorem mul_conj_eq (x p : ℂ) (hp : p ≠ 0) : x * (starRingEnd ℂ) p = (Complex.normSq p : ℝ) * (x / p) := by
  have h := Complex.mul_conj p
  rw [← h]; field_simp

/-- `FMD3` gives the principal phase increment. -/
theorem C51_fmd3 (ops : List Op) (hg : ∀ o ∈ ops, o.Good) :
    trace (step FMD.bandwidth FMD.call3) FMD.init ops = (outputs (demod increment) (1, none) ops, none) := by
  refine fmd_sim _ _ (fun f x hp hx => ?_) ops hg
  simp only [FMD.call3, pure, Except.pure, increment, div_mul_cancel₀ _ Real.pi_ne_zero]
  rw [mul_conj_eq x f.prev hp, Complex.arg_real_mul _ (Complex.normSq_pos.mpr hp)]

theorem cross_eq (p x : ℂ) (hp : p ≠ 0) : p.re * x.im - p.im * x.re = ‖p‖ * ‖x‖ * Real.sin (Complex.arg (x / p)) := by
  have h1 : p.re * x.im - p.im * x.re = (x * (starRingEnd ℂ) p).im := by simp; ring
  have hn : (‖p‖ : ℝ) ≠ 0 := norm_ne_zero_iff.mpr hp
  rw [h1, mul_conj_eq x p hp, Complex.im_ofReal_mul, Complex.sin_arg, norm_div, Complex.normSq_eq_norm_sq]
  by_cases hx : x = 0
  · simp [hx]
  · have hx' : (‖x‖ : ℝ) ≠ 0 := norm_ne_zero_iff.mpr hx
    field_simp

/-- `FMD4` gives the sine of the increment, weighted with the quotient of the magnitudes. -/
theorem C51_fmd4 (ops : List Op) (hg : ∀ o ∈ ops, o.Good) :
    trace (step FMD.bandwidth FMD.call4) FMD.init ops = (outputs (demod sine) (1, none) ops, none) := by
  refine fmd_sim _ _ (fun f x hp hx => ?_) ops hg
  have hx' : (‖x‖ : ℝ) ≠ 0 := norm_ne_zero_iff.mpr hx
  simp only [FMD.call4, Complex.normSq_eq_norm_sq, fdiv_ok (pow_ne_zero 2 hx'), bind, Except.bind, pure, Except.pure, sine,
    div_mul_cancel₀ _ Real.pi_ne_zero, cross_eq f.prev x hp]
  congr 3
  field_simp

/-- The specification of `FMD5`: the mean of the sines of the last two increments, weighted with the quotients of the
magnitudes to that of the sample between them. -/
noncomputable def demod5 (s : (ℂ × ℂ) × Option ℝ) : Op → ((ℂ × ℂ) × Option ℝ) × Option ℝ
  | .bandwidth bw => ((s.1, some bw), none)
  | .input x => (((x, s.1.1), s.2), some (match s.2 with
    | some bw => (‖x‖ / ‖s.1.1‖ * Real.sin (Complex.arg (x / s.1.1)) +
        ‖s.1.2‖ / ‖s.1.1‖ * Real.sin (Complex.arg (s.1.1 / s.1.2))) / 2 / Real.pi / bw
    | none => 0))

theorem C51_fmd5 (ops : List Op) (hg : ∀ o ∈ ops, o.Good) :
    trace (step FMD5.bandwidth FMD5.call) FMD5.init ops = (outputs demod5 ((1, 1), none) ops, none) := by
  refine trace_eq_outputs_good (fun (f : FMD5) (s : (ℂ × ℂ) × Option ℝ) => s.1.1 ≠ 0 ∧ s.1.2 ≠ 0 ∧ f.prev1 = s.1.1 ∧
    f.prev2 = s.1.2 ∧ f.scale = scaleOf s.2 / 2) Op.Good ?_ (by simp [FMD5.init, scaleOf]) ops hg
  rintro f ⟨⟨p, r⟩, b⟩ o ⟨hp, hr, h1, h2, h3⟩ ho
  simp only at hp hr h1 h2 h3
  cases o with
  | bandwidth bw =>
    have hb : bw ≠ 0 := ho
    have hpi := Real.pi_ne_zero
    refine ⟨{ f with scale := scaleOf (some bw) / 2 }, ?_, hp, hr, h1, h2, rfl⟩
    simp only [step, FMD5.bandwidth, bind, Except.bind, pure, Except.pure, demod5]
    rw [fdiv_ok (by simp [hb, hpi])]
    simp only [scaleOf]
    congr 3
    field_simp
  | input x =>
    refine ⟨{ f with prev1 := x, prev2 := f.prev1 }, ?_, ho, hp, rfl, h1, h3⟩
    have hp' : (‖p‖ : ℝ) ≠ 0 := norm_ne_zero_iff.mpr hp
    simp only [step, FMD5.call, bind, Except.bind, pure, Except.pure, demod5, h1, h2, h3]
    rw [fdiv_ok (Complex.normSq_pos.mpr hp).ne']
    have e : p.re * (x - r).im - p.im * (x - r).re = ‖p‖ * ‖x‖ * Real.sin (Complex.arg (x / p)) +
        ‖r‖ * ‖p‖ * Real.sin (Complex.arg (p / r)) := by
      rw [← cross_eq p x hp, ← cross_eq r p hr]; simp; ring
    simp only [e, Complex.normSq_eq_norm_sq]
    congr 3
    rw [show scaleOf b / 2 * ((‖p‖ * ‖x‖ * Real.sin (Complex.arg (x / p)) + ‖r‖ * ‖p‖ * Real.sin (Complex.arg (p / r))) / ‖p‖ ^ 2) =
      scaleOf b * ((‖x‖ / ‖p‖ * Real.sin (Complex.arg (x / p)) + ‖r‖ / ‖p‖ * Real.sin (Complex.arg (p / r))) / 2) from by
        field_simp, scale_mul]

/-- Away from jumps by exactly half a turn `FMD1` agrees with the others. -/
theorem C51_tie (p x : ℂ) (h : Complex.arg (x / p) ≠ Real.pi) : incrementTie p x = increment p x := by
  rw [incrementTie, if_neg (fun c => h c.1), increment]

/-- At a constant frequency below half the sampling rate all increments are that frequency: `FMD1`, `FMD2` and `FMD3` give
`w / (π bw)`, `FMD4` gives `sin w / (π bw)`. -/
theorem C51_constant (A φ w : ℝ) (hA : 0 < A) (hw : |w| < Real.pi) (k : ℕ) :
    increment (A * Complex.exp ((φ + w * k) * Complex.I)) (A * Complex.exp ((φ + w * (k + 1 : ℕ)) * Complex.I)) = w / Real.pi ∧
    incrementTie (A * Complex.exp ((φ + w * k) * Complex.I)) (A * Complex.exp ((φ + w * (k + 1 : ℕ)) * Complex.I)) = w / Real.pi ∧
    sine (A * Complex.exp ((φ + w * k) * Complex.I)) (A * Complex.exp ((φ + w * (k + 1 : ℕ)) * Complex.I)) = Real.sin w / Real.pi := by
  have hA' : (A : ℂ) ≠ 0 := by exact_mod_cast hA.ne'
  obtain ⟨h1, h2⟩ := abs_lt.mp hw
  have e : (A * Complex.exp ((φ + w * (k + 1 : ℕ)) * Complex.I)) / (A * Complex.exp ((φ + w * k) * Complex.I)) =
      Complex.exp (w * Complex.I) := by
    rw [mul_div_mul_left _ _ hA', ← Complex.exp_sub]; congr 1; push_cast; ring
  have ha : Complex.arg (Complex.exp (w * Complex.I)) = w := by
    rw [Complex.exp_mul_I, Complex.arg_cos_add_sin_mul_I ⟨h1, h2.le⟩]
  have hn : ∀ j : ℕ, ‖(A * Complex.exp ((φ + w * j) * Complex.I) : ℂ)‖ = A := by
    intro j
    rw [norm_mul, Complex.norm_real, Real.norm_eq_abs, abs_of_pos hA,
      show ((φ + w * j) * Complex.I : ℂ) = ((φ + w * j : ℝ) : ℂ) * Complex.I from by push_cast; rfl,
      Complex.norm_exp_ofReal_mul_I, mul_one]
  refine ⟨?_, ?_, ?_⟩
  · rw [increment, e, ha]
  · rw [C51_tie _ _ (by rw [e, ha]; exact h2.ne), increment, e, ha]
  · rw [sine, e, ha, hn, hn, div_self hA.ne', one_mul]

/-- The same for `FMD5`: both weights are one, both sines are `sin w`. -/
theorem C51_constant5 (A φ w bw : ℝ) (hA : 0 < A) (hw : |w| < Real.pi) (k : ℕ) :
    (demod5 ((A * Complex.exp ((φ + w * (k + 1 : ℕ)) * Complex.I), A * Complex.exp ((φ + w * k) * Complex.I)), some bw)
      (.input (A * Complex.exp ((φ + w * (k + 2 : ℕ)) * Complex.I)))).2 = some (Real.sin w / Real.pi / bw) := by
  obtain ⟨-, -, h1⟩ := C51_constant A φ w hA hw k
  obtain ⟨-, -, h2⟩ := C51_constant A φ w hA hw (k + 1)
  have hn : ∀ j : ℕ, ‖(A * Complex.exp ((φ + w * j) * Complex.I) : ℂ)‖ = A := by
    intro j
    rw [norm_mul, Complex.norm_real, Real.norm_eq_abs, abs_of_pos hA,
      show ((φ + w * j) * Complex.I : ℂ) = ((φ + w * j : ℝ) : ℂ) * Complex.I from by push_cast; rfl,
      Complex.norm_exp_ofReal_mul_I, mul_one]
  have hpi := Real.pi_ne_zero
  simp only [sine, hn, div_self hA.ne', one_mul, show k + 1 + 1 = k + 2 from rfl] at h1 h2
  simp only [demod5, hn, div_self hA.ne', one_mul]
  rw [div_left_inj' hpi] at h1 h2
  rw [h1, h2]
  congr 3; ring

/-- A quarter turn at bandwidth one half: output 1. -/
example : (outputs (demod increment) (1, none) [.bandwidth (1 / 2), .input Complex.I] = [none, some 1]) ∧
    ∀ o ∈ ([.bandwidth (1 / 2), .input Complex.I] : List Op), o.Good := by
  constructor
  · simp only [outputs, demod, increment, div_one, Complex.arg_I]
    have := Real.pi_ne_zero
    congr 3; field_simp
  · simp [Op.Good]

/-- From -i to i: `FMD1` does see the tie, with phases -π/2 and π/2 it gives +1 as the others. From i to -i it gives -1. -/
example : incrementTie Complex.I (-Complex.I) = -1 ∧ increment Complex.I (-Complex.I) = 1 := by
  have h : -Complex.I / Complex.I = -1 := by rw [neg_div, div_self Complex.I_ne_zero]
  have hpi := Real.pi_pos
  refine ⟨?_, ?_⟩
  · rw [incrementTie, h, Complex.arg_neg_one, Complex.arg_neg_I, Complex.arg_I, if_pos ⟨rfl, by linarith⟩, neg_div, div_self hpi.ne']
  · rw [increment, h, Complex.arg_neg_one, div_self hpi.ne']

end FM
end DSP
