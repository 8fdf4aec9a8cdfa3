import Verif.Props.AMD
import Verif.Props.FMD
import Verif.Props.EMA
import Verif.Props.Responses
import Mathlib.Analysis.Calculus.Deriv.MeanValue
import Mathlib.Analysis.SpecialFunctions.Trigonometric.Deriv
import Mathlib.Analysis.SpecialFunctions.Trigonometric.Bounds
import Mathlib.Analysis.SpecialFunctions.Sqrt

/-!
# C116: what the demodulators and the normaliser make of the signals they are meant for
-/

namespace DSP

open Filter Topology

namespace Spec

/-- A carrier with amplitude `A n` and phase `φ n` at sample `n`. -/
noncomputable def carrier (A φ : ℕ → ℝ) (n : ℕ) : ℂ := A n * Complex.exp (φ n * Complex.I)

/-- The phase follows the modulating signal `m`: a sample of one turns it by `bw` half turns. -/
def Modulates (bw : ℝ) (m φ : ℕ → ℝ) : Prop := ∀ n, φ (n + 1) = φ n + Real.pi * bw * m (n + 1)

/-- A machine that can fail, fed with `x 0`, `x 1`, ... never fails and gives `y 0`, `y 1`, ... -/
def Gives {σ ι ω : Type} (step : σ → ι → M (σ × ω)) (s : σ) (x : ℕ → ι) (y : ℕ → ω) : Prop :=
  ∀ N, trace step s ((List.range N).map x) = ((List.range N).map y, none)

end Spec

open Spec

namespace Modulation

theorem gives_of_states {σ ι ω : Type} (step : σ → ι → M (σ × ω)) (st : ℕ → σ) (x : ℕ → ι) (y : ℕ → ω)
    (h : ∀ n, step (st n) (x n) = .ok (st (n + 1), y n)) : Gives step (st 0) x y := by
  intro N
  have key : ∀ N k, trace step (st k) ((List.range N).map fun n => x (k + n)) = ((List.range N).map (fun n => y (k + n)), none) := by
    intro N
    induction N with
    | zero => intro k; simp [trace]
    | succ N ih =>
      intro k
      have := ih (k + 1)
      rw [List.range_succ_eq_map]
      simp only [List.map_cons, List.map_map, add_zero, trace, h k]
      have e1 : ((fun n => x (k + n)) ∘ Nat.succ) = fun n => x (k + 1 + n) := by
        funext n; simp only [Function.comp, Nat.succ_eq_add_one]; congr 1; omega
      have e2 : ((fun n => y (k + n)) ∘ Nat.succ) = fun n => y (k + 1 + n) := by
        funext n; simp only [Function.comp, Nat.succ_eq_add_one]; congr 1; omega
      rw [e1, e2, this]
  have := key N 0
  simpa using this

/-- For every machine that never fails on its inputs there is the stream of its outputs. -/
theorem outputs_map {σ ι ω : Type} (step : σ → ι → σ × ω) (s : σ) (x : ℕ → ι) (N : ℕ) :
    outputs step s ((List.range N).map x) = (List.range N).map (stream step s x) := by
  have key : ∀ N (k : ℕ), outputs step (states step s x k) ((List.range N).map fun n => x (k + n)) =
      (List.range N).map fun n => stream step s x (k + n) := by
    intro N
    induction N with
    | zero => intro k; simp [outputs]
    | succ N ih =>
      intro k
      rw [List.range_succ_eq_map]
      simp only [List.map_cons, List.map_map, add_zero, outputs]
      have e1 : ((fun n => x (k + n)) ∘ Nat.succ) = fun n => x (k + 1 + n) := by
        funext n; simp only [Function.comp, Nat.succ_eq_add_one]; congr 1; omega
      have e2 : ((fun n => stream step s x (k + n)) ∘ Nat.succ) = fun n => stream step s x (k + 1 + n) := by
        funext n; simp only [Function.comp, Nat.succ_eq_add_one]; congr 1; omega
      have := ih (k + 1)
      rw [e1, e2, ← this]
      rfl
  simpa [states] using key N 0

/-- The sine of an angle is the angle but for a sixth of its cube. -/
theorem sin_cube (t : ℝ) : |Real.sin t - t| ≤ |t| ^ 3 / 6 := by
  have mono : Monotone fun t : ℝ => Real.sin t - t + t ^ 3 / 6 := by
    apply monotone_of_deriv_nonneg
    · fun_prop
    · intro t
      have : HasDerivAt (fun t : ℝ => Real.sin t - t + t ^ 3 / 6) (Real.cos t - 1 + (3 * t ^ 2) / 6) t := by
        have h3 := (hasDerivAt_pow 3 t).div_const 6
        have e : ((3 : ℕ) : ℝ) * t ^ (3 - 1) / 6 = 3 * t ^ 2 / 6 := by norm_num
        rw [e] at h3
        exact ((Real.hasDerivAt_sin t).sub (hasDerivAt_id t)).add h3
      rw [this.deriv]
      have := Real.one_sub_sq_div_two_le_cos (x := t)
      linarith
  have pos : ∀ t : ℝ, 0 ≤ t → |Real.sin t - t| ≤ |t| ^ 3 / 6 := by
    intro t ht
    have h1 := mono ht
    simp only [Real.sin_zero] at h1
    have h2 := Real.sin_le ht
    rw [abs_of_nonneg ht, abs_le]
    have : 0 ≤ t ^ 3 / 6 := by positivity
    constructor <;> linarith
  rcases le_total 0 t with ht | ht
  · exact pos t ht
  · have := pos (-t) (by linarith)
    rw [Real.sin_neg, abs_neg] at this
    rw [show Real.sin t - t = -(-Real.sin t - -t) from by ring, abs_neg]
    exact this

theorem carrier_ne (A φ : ℕ → ℝ) (hA : ∀ n, 0 < A n) (n : ℕ) : carrier A φ n ≠ 0 :=
  mul_ne_zero (by exact_mod_cast (hA n).ne') (Complex.exp_ne_zero _)

theorem carrier_norm (A φ : ℕ → ℝ) (hA : ∀ n, 0 < A n) (n : ℕ) : ‖carrier A φ n‖ = A n := by
  rw [carrier, norm_mul, Complex.norm_real, Real.norm_eq_abs, abs_of_pos (hA n), Complex.norm_exp_ofReal_mul_I, mul_one]

theorem carrier_arg (A φ : ℕ → ℝ) (hA : ∀ n, 0 < A n) (n : ℕ) (w : ℝ) (h : φ (n + 1) = φ n + w) (hw : |w| < Real.pi) :
    Complex.arg (carrier A φ (n + 1) / carrier A φ n) = w := by
  obtain ⟨h1, h2⟩ := abs_lt.mp hw
  have e : carrier A φ (n + 1) / carrier A φ n = ((A (n + 1) / A n : ℝ) : ℂ) * (Complex.cos w + Complex.sin w * Complex.I) := by
    rw [carrier, carrier, mul_div_mul_comm, ← Complex.exp_sub, ← Complex.exp_mul_I, h]
    push_cast
    congr 2; ring
  rw [e, Complex.arg_mul_cos_add_sin_mul_I (div_pos (hA _) (hA _)) ⟨h1, h2.le⟩]

theorem turn (bw : ℝ) (m : ℕ → ℝ) (hm : ∀ n, |bw * m n| < 1) (n : ℕ) : |Real.pi * bw * m n| < Real.pi := by
  rw [mul_assoc, abs_mul, abs_of_pos Real.pi_pos]
  nlinarith [hm n, Real.pi_pos]

theorem demod_bandwidth (f : ℂ → ℂ → ℝ) (bw : ℝ) (x : ℕ → ℂ) (N : ℕ) :
    outputs (FM.demod f) (1, none) (.bandwidth bw :: (List.range (N + 1)).map fun n => FM.Op.input (x n)) =
    none :: some (f 1 (x 0) / bw) :: (List.range N).map fun n => some (f (x n) (x (n + 1)) / bw) := by
  have key : ∀ N (k : ℕ), outputs (FM.demod f) (x k, some bw) ((List.range N).map fun n => FM.Op.input (x (k + n + 1))) =
      (List.range N).map fun n => some (f (x (k + n)) (x (k + n + 1)) / bw) := by
    intro N
    induction N with
    | zero => intro k; simp [outputs]
    | succ N ih =>
      intro k
      have := ih (k + 1)
      rw [List.range_succ_eq_map]
      simp only [List.map_cons, List.map_map, add_zero, outputs, FM.demod]
      have e1 : ((fun n => FM.Op.input (x (k + n + 1))) ∘ Nat.succ) = fun n => FM.Op.input (x (k + 1 + n + 1)) := by
        funext n; simp only [Function.comp, Nat.succ_eq_add_one]; congr 2; omega
      have e2 : ((fun n => some (f (x (k + n)) (x (k + n + 1)) / bw)) ∘ Nat.succ) = fun n => some (f (x (k + 1 + n)) (x (k + 1 + n + 1)) / bw) := by
        funext n; simp only [Function.comp, Nat.succ_eq_add_one]; rw [show k + (n + 1) = k + 1 + n from by omega]
      rw [e1, e2, this]
  have h := key N 0
  simp only [zero_add] at h
  rw [List.range_succ_eq_map]
  simp only [List.map_cons, List.map_map, outputs, FM.demod, List.cons.injEq, true_and]
  exact h

theorem demod5_bandwidth (bw : ℝ) (x : ℕ → ℂ) (N : ℕ) :
    ∃ y0 y1, outputs FM.demod5 ((1, 1), none) (.bandwidth bw :: (List.range (N + 2)).map fun n => FM.Op.input (x n)) =
    none :: some y0 :: some y1 :: (List.range N).map fun n => (FM.demod5 ((x (n + 1), x n), some bw) (.input (x (n + 2)))).2 := by
  have key : ∀ N (k : ℕ), outputs FM.demod5 ((x (k + 1), x k), some bw) ((List.range N).map fun n => FM.Op.input (x (k + n + 2))) =
      (List.range N).map fun n => (FM.demod5 ((x (k + n + 1), x (k + n)), some bw) (.input (x (k + n + 2)))).2 := by
    intro N
    induction N with
    | zero => intro k; simp [outputs]
    | succ N ih =>
      intro k
      have := ih (k + 1)
      rw [List.range_succ_eq_map]
      simp only [List.map_cons, List.map_map, add_zero, outputs]
      have e1 : ((fun n => FM.Op.input (x (k + n + 2))) ∘ Nat.succ) = fun n => FM.Op.input (x (k + 1 + n + 2)) := by
        funext n; simp only [Function.comp, Nat.succ_eq_add_one]; congr 2; omega
      have e2 : ((fun n => (FM.demod5 ((x (k + n + 1), x (k + n)), some bw) (.input (x (k + n + 2)))).2) ∘ Nat.succ) =
          fun n => (FM.demod5 ((x (k + 1 + n + 1), x (k + 1 + n)), some bw) (.input (x (k + 1 + n + 2)))).2 := by
        funext n; simp only [Function.comp, Nat.succ_eq_add_one]; rw [show k + (n + 1) = k + 1 + n from by omega]
      rw [e1, e2, ← this]
      rfl
  have h := key N 0
  simp only [zero_add] at h
  refine ⟨(‖x 0‖ / ‖(1 : ℂ)‖ * Real.sin (Complex.arg (x 0 / 1)) + ‖(1 : ℂ)‖ / ‖(1 : ℂ)‖ * Real.sin (Complex.arg (1 / 1))) / 2 / Real.pi / bw,
    (‖x 1‖ / ‖x 0‖ * Real.sin (Complex.arg (x 1 / x 0)) + ‖(1 : ℂ)‖ / ‖x 0‖ * Real.sin (Complex.arg (x 0 / 1))) / 2 / Real.pi / bw, ?_⟩
  rw [show (List.range (N + 2)).map (fun n => FM.Op.input (x n)) = .input (x 0) :: .input (x 1) :: (List.range N).map fun n => FM.Op.input (x (n + 2)) from by
    rw [List.range_succ_eq_map, List.map_cons, List.map_map, List.range_succ_eq_map, List.map_cons, List.map_map]; rfl]
  simp only [outputs]
  rw [← h]
  rfl

theorem good (bw : ℝ) (hbw : bw ≠ 0) (A φ : ℕ → ℝ) (hA : ∀ n, 0 < A n) (N : ℕ) :
    ∀ o ∈ FM.Op.bandwidth bw :: (List.range N).map (fun n => FM.Op.input (carrier A φ n)), o.Good := by
  intro o ho
  rcases List.mem_cons.mp ho with rfl | ho
  · exact hbw
  · obtain ⟨n, -, rfl⟩ := List.mem_map.mp ho
    exact carrier_ne A φ hA n

end Modulation

open Modulation

/-! ### Frequency modulation -/

namespace FM

/-- **C116** The demodulators that take the angle (`FMD1`, `FMD2`, `FMD3`) give back the modulating signal, whatever the amplitude does. -/
theorem C116_fm (bw : ℝ) (hbw : bw ≠ 0) (m φ A : ℕ → ℝ) (hA : ∀ n, 0 < A n) (hφ : Modulates bw m φ) (hm : ∀ n, |bw * m n| < 1) (N : ℕ) :
    let ops := Op.bandwidth bw :: (List.range (N + 1)).map fun n => Op.input (carrier A φ n)
    ∃ y z : ℝ, trace (step FMD1.bandwidth FMD1.call) FMD1.init ops = (none :: some y :: (List.range N).map (fun n => some (m (n + 1))), none) ∧
      trace (step FMD.bandwidth FMD.call2) FMD.init ops = (none :: some z :: (List.range N).map (fun n => some (m (n + 1))), none) ∧
      trace (step FMD.bandwidth FMD.call3) FMD.init ops = (none :: some z :: (List.range N).map (fun n => some (m (n + 1))), none) := by
  intro ops
  have hg := good bw hbw A φ hA (N + 1)
  have hpi := Real.pi_pos
  have ha : ∀ n, Complex.arg (carrier A φ (n + 1) / carrier A φ n) = Real.pi * bw * m (n + 1) := fun n =>
    carrier_arg A φ hA n _ (hφ n) (turn bw m hm _)
  have hi : ∀ n, increment (carrier A φ n) (carrier A φ (n + 1)) / bw = m (n + 1) := by
    intro n; rw [increment, ha]; field_simp
  have ht : ∀ n, incrementTie (carrier A φ n) (carrier A φ (n + 1)) / bw = m (n + 1) := by
    intro n
    rw [C51_tie _ _ (by rw [ha]; exact ((abs_lt.mp (turn bw m hm (n + 1))).2).ne), hi]
  refine ⟨incrementTie 1 (carrier A φ 0) / bw, increment 1 (carrier A φ 0) / bw, ?_, ?_, ?_⟩
  · rw [C51_fmd1 ops hg, demod_bandwidth]; simp only [ht]
  · rw [C51_fmd2 ops hg, demod_bandwidth]; simp only [hi]
  · rw [C51_fmd3 ops hg, demod_bandwidth]; simp only [hi]

/-- **C116** `FMD4` gives the sine of the turn in place of the turn, times the quotient of the amplitudes; at a constant amplitude it is off by at most `(π bw)² |m|³ / 6`. -/
theorem C116_fm4 (bw : ℝ) (hbw : bw ≠ 0) (m φ A : ℕ → ℝ) (hA : ∀ n, 0 < A n) (hφ : Modulates bw m φ) (hm : ∀ n, |bw * m n| < 1) (N : ℕ) :
    ∃ y : ℝ, ∃ out : ℕ → ℝ, trace (step FMD.bandwidth FMD.call4) FMD.init (.bandwidth bw :: (List.range (N + 1)).map fun n => .input (carrier A φ n)) =
        (none :: some y :: (List.range N).map (fun n => some (out (n + 1))), none) ∧
      (∀ n, out (n + 1) = A n / A (n + 1) * (Real.sin (Real.pi * bw * m (n + 1)) / (Real.pi * bw))) ∧
      ∀ n, A (n + 1) = A n → |out (n + 1) - m (n + 1)| ≤ (Real.pi * bw) ^ 2 * |m (n + 1)| ^ 3 / 6 := by
  have hg := good bw hbw A φ hA (N + 1)
  have hpi := Real.pi_pos
  refine ⟨sine 1 (carrier A φ 0) / bw, fun n => A (n - 1) / A n * (Real.sin (Real.pi * bw * m n) / (Real.pi * bw)), ?_, fun n => rfl, fun n hn => ?_⟩
  rotate_left
  · simp only [Nat.add_sub_cancel]
    rw [hn, div_self (hA n).ne', one_mul]
    set t := Real.pi * bw * m (n + 1) with ht
    have h0 : Real.pi * bw ≠ 0 := mul_ne_zero hpi.ne' hbw
    have e : Real.sin t / (Real.pi * bw) - m (n + 1) = (Real.sin t - t) / (Real.pi * bw) := by
      rw [ht]; field_simp
    rw [e, abs_div, div_le_iff₀ (abs_pos.mpr h0)]
    have h1 := sin_cube t
    have h2 : |t| ^ 3 = (Real.pi * bw) ^ 2 * |m (n + 1)| ^ 3 * |Real.pi * bw| := by
      rw [ht, abs_mul, mul_pow, ← sq_abs (Real.pi * bw)]; ring
    rw [h2] at h1
    linarith
  · rw [C51_fmd4 _ hg, demod_bandwidth]
    refine congrArg₂ Prod.mk (congrArg₂ List.cons rfl (congrArg₂ List.cons rfl (List.map_congr_left fun n _ => ?_))) rfl
    simp only [sine, carrier_arg A φ hA n _ (hφ n) (turn bw m hm _), carrier_norm A φ hA, Nat.add_sub_cancel]
    congr 1
    have := (hA (n + 1)).ne'
    field_simp

/-- **C116** `FMD5` gives the mean of the last two sines at a constant amplitude: it is late by half a sample and smooths. -/
theorem C116_fm5 (bw : ℝ) (hbw : bw ≠ 0) (m φ : ℕ → ℝ) (A : ℝ) (hA : 0 < A) (hφ : Modulates bw m φ) (hm : ∀ n, |bw * m n| < 1) (N : ℕ) :
    ∃ y z : ℝ, ∃ out : ℕ → ℝ, trace (step FMD5.bandwidth FMD5.call) FMD5.init (.bandwidth bw :: (List.range (N + 2)).map fun n => .input (carrier (fun _ => A) φ n)) =
        (none :: some y :: some z :: (List.range N).map (fun n => some (out (n + 2))), none) ∧
      (∀ n, out (n + 2) = (Real.sin (Real.pi * bw * m (n + 2)) + Real.sin (Real.pi * bw * m (n + 1))) / 2 / (Real.pi * bw)) ∧
      ∀ n, |out (n + 2) - (m (n + 2) + m (n + 1)) / 2| ≤ (Real.pi * bw) ^ 2 * (|m (n + 2)| ^ 3 + |m (n + 1)| ^ 3) / 12 := by
  have hg := good bw hbw (fun _ => A) φ (fun _ => hA) (N + 2)
  have hpi := Real.pi_pos
  obtain ⟨y, z, h⟩ := demod5_bandwidth bw (carrier (fun _ => A) φ) N
  refine ⟨y, z, fun n => (Real.sin (Real.pi * bw * m n) + Real.sin (Real.pi * bw * m (n - 1))) / 2 / (Real.pi * bw), ?_, fun n => rfl, fun n => ?_⟩
  · rw [C51_fmd5 _ hg, h]
    refine congrArg₂ Prod.mk (congrArg₂ List.cons rfl (congrArg₂ List.cons rfl (congrArg₂ List.cons rfl (List.map_congr_left fun n _ => ?_)))) rfl
    have a1 := carrier_arg (fun _ => A) φ (fun _ => hA) n _ (hφ n) (turn bw m hm _)
    have a2 := carrier_arg (fun _ => A) φ (fun _ => hA) (n + 1) _ (hφ (n + 1)) (turn bw m hm _)
    simp only [demod5, a1, show n + 2 = n + 1 + 1 from rfl, a2, carrier_norm (fun _ => A) φ (fun _ => hA), div_self hA.ne', one_mul, Nat.add_sub_cancel]
    congr 1
    field_simp
  · simp only [show n + 2 - 1 = n + 1 from rfl]
    set t := Real.pi * bw * m (n + 2) with ht
    set u := Real.pi * bw * m (n + 1) with hu
    have h0 : Real.pi * bw ≠ 0 := mul_ne_zero hpi.ne' hbw
    have e : (Real.sin t + Real.sin u) / 2 / (Real.pi * bw) - (m (n + 2) + m (n + 1)) / 2 = ((Real.sin t - t) + (Real.sin u - u)) / 2 / (Real.pi * bw) := by
      rw [ht, hu]; field_simp; ring
    rw [e, abs_div, div_le_iff₀ (abs_pos.mpr h0), abs_div, abs_two]
    have h1 := sin_cube t
    have h2 := sin_cube u
    have h3 : |t| ^ 3 = (Real.pi * bw) ^ 2 * |m (n + 2)| ^ 3 * |Real.pi * bw| := by
      rw [ht, abs_mul, mul_pow, ← sq_abs (Real.pi * bw)]; ring
    have h4 : |u| ^ 3 = (Real.pi * bw) ^ 2 * |m (n + 1)| ^ 3 * |Real.pi * bw| := by
      rw [hu, abs_mul, mul_pow, ← sq_abs (Real.pi * bw)]; ring
    have h5 := abs_add_le (Real.sin t - t) (Real.sin u - u)
    rw [h3] at h1
    rw [h4] at h2
    linarith

/-- A modulating signal that alternates between 1 and -1, a quarter of the band, and an amplitude that doubles with every sample. -/
example : Modulates (1 / 4) (fun n => (-1) ^ n) (fun n => if n % 2 = 0 then 0 else -(Real.pi / 4)) ∧ (∀ n : ℕ, |1 / 4 * (-1 : ℝ) ^ n| < 1) ∧
    ∀ n : ℕ, (0 : ℝ) < 2 ^ n := by
  refine ⟨fun n => ?_, fun n => ?_, fun n => by positivity⟩
  · rcases Nat.even_or_odd n with h | h
    · have h1 := Nat.even_iff.mp h
      simp only [h1, if_true, pow_succ, h.neg_one_pow, show (n + 1) % 2 ≠ 0 from by omega, if_false]; ring
    · have h1 := Nat.odd_iff.mp h
      simp only [h1, pow_succ, h.neg_one_pow, show (n + 1) % 2 = 0 from by omega, if_true]; norm_num; ring
  · rw [abs_mul, abs_pow, abs_neg, abs_one, one_pow]; norm_num

end FM

/-! ### Amplitude modulation -/

namespace AMD

theorem level_step (f : AMD) (A mu : ℝ) (h0 : 0 ≤ mu) (ha : mu ≤ f.att) (hd : mu ≤ f.dec) (ha1 : f.att ≤ 1) (hd1 : f.dec ≤ 1) (hl : f.lo ≤ A) (hh : A ≤ f.hi) :
    |min (max (lerp f.avg A (if A < f.avg then f.dec else f.att)) f.lo) f.hi - A| ≤ (1 - mu) * |f.avg - A| := by
  have key : ∀ t : ℝ, mu ≤ t → t ≤ 1 → |min (max (lerp f.avg A t) f.lo) f.hi - A| ≤ (1 - mu) * |f.avg - A| := by
    intro t h1 h2
    have e : lerp f.avg A t - A = (1 - t) * (f.avg - A) := by simp only [lerp, smul_eq_mul]; ring
    have h3 : |lerp f.avg A t - A| ≤ (1 - mu) * |f.avg - A| := by
      rw [e, abs_mul, abs_of_nonneg (by linarith : 0 ≤ 1 - t)]
      exact mul_le_mul_of_nonneg_right (by linarith) (abs_nonneg _)
    generalize (1 - mu) * |f.avg - A| = B at h3 ⊢
    rw [abs_le] at h3 ⊢
    have hB : 0 ≤ B := by linarith
    constructor
    · have : A - B ≤ min (max (lerp f.avg A t) f.lo) f.hi := le_min (le_max_of_le_left (by linarith)) (by linarith)
      linarith
    · have : min (max (lerp f.avg A t) f.lo) f.hi ≤ A + B := min_le_of_left_le (max_le (by linarith) (by linarith))
      linarith
  split_ifs
  · exact key _ hd hd1
  · exact key _ ha ha1

/-- The levels of a demodulator. -/
noncomputable def levels (f : AMD) (x : ℕ → ℂ) : ℕ → ℝ
  | 0 => f.avg
  | n + 1 => min (max (lerp (levels f x n) ‖x n‖ (if ‖x n‖ < levels f x n then f.dec else f.att)) f.lo) f.hi

theorem gives (f : AMD) (x : ℕ → ℂ) (h0 : 0 < f.lo) (h1 : f.lo ≤ f.hi) (h2 : f.idx ≠ 0) :
    Gives call f x (fun n => (‖x n‖ / levels f x (n + 1) * (1 + f.idx) - 1) / f.idx) ∧ ∀ n, f.lo ≤ levels f x (n + 1) := by
  refine ⟨?_, fun n => le_min (le_max_right _ _) h1⟩
  refine gives_of_states call (fun n => { f with avg := levels f x n }) x _ fun n => ?_
  obtain ⟨lv, -, -, e1, e2⟩ := call_ok { f with avg := levels f x n } (x n) h0 h1 h2
  rw [e2, e1]
  rfl

/-- **C116** On a carrier of constant amplitude the level goes to the amplitude and the output to one, geometrically with the slower of the two rates. -/
theorem C116_am (att dec lo hi idx A : ℝ) (ha : 0 < att) (ha1 : att ≤ 1) (hd : 0 < dec) (hd1 : dec ≤ 1) (hlo : 0 < lo) (hl : lo ≤ A) (hh : A ≤ hi)
    (hidx : 0 < idx) (x : ℕ → ℂ) (hx : ∀ n, ‖x n‖ = A) :
    ∃ out, Gives call ((init.index idx).agc att dec lo hi) x out ∧
      (∀ n, |out n - 1| ≤ (1 + idx) / idx * (A / lo) * (1 - min att dec) ^ (n + 1)) ∧ Tendsto out atTop (𝓝 1) := by
  set f := (init.index idx).agc att dec lo hi with hf
  have hA : 0 < A := lt_of_lt_of_le hlo hl
  obtain ⟨h1, h2⟩ := gives f x hlo (by linarith : lo ≤ hi) hidx.ne'
  have hmu : 0 < min att dec := lt_min ha hd
  have hmu1 : min att dec ≤ 1 := min_le_of_left_le ha1
  have hlev : ∀ n, |levels f x n - A| ≤ (1 - min att dec) ^ n * A := by
    intro n
    induction n with
    | zero => simp [levels, hf, init, index, agc, abs_of_pos hA]
    | succ n ih =>
      have := level_step { f with avg := levels f x n } A (min att dec) hmu.le (min_le_left _ _) (min_le_right _ _) ha1 hd1 hl hh
      simp only [levels, hx]
      refine this.trans ?_
      rw [pow_succ', mul_assoc]
      exact mul_le_mul_of_nonneg_left ih (by linarith)
  have hb : ∀ n, |(‖x n‖ / levels f x (n + 1) * (1 + f.idx) - 1) / f.idx - 1| ≤ (1 + idx) / idx * (A / lo) * (1 - min att dec) ^ (n + 1) := by
    intro n
    have hL := h2 n
    have hi' : f.idx = idx := rfl
    have hlo' : f.lo = lo := rfl
    rw [hlo'] at hL
    have hL0 : 0 < levels f x (n + 1) := lt_of_lt_of_le hlo hL
    rw [hx, hi']
    have e : (A / levels f x (n + 1) * (1 + idx) - 1) / idx - 1 = (1 + idx) / idx * (A - levels f x (n + 1)) / levels f x (n + 1) := by field_simp; ring
    rw [e, abs_div, abs_of_pos hL0, abs_mul, abs_of_pos (by positivity : 0 < (1 + idx) / idx), abs_sub_comm, div_le_iff₀ hL0]
    have h3 := hlev (n + 1)
    have h4 : 0 ≤ (1 - min att dec) ^ (n + 1) := pow_nonneg (by linarith) _
    calc (1 + idx) / idx * |levels f x (n + 1) - A| ≤ (1 + idx) / idx * ((1 - min att dec) ^ (n + 1) * A) := mul_le_mul_of_nonneg_left h3 (by positivity)
      _ = (1 + idx) / idx * (A / lo) * (1 - min att dec) ^ (n + 1) * lo := by field_simp
      _ ≤ _ := mul_le_mul_of_nonneg_left hL (by positivity)
  refine ⟨_, h1, hb, ?_⟩
  rw [tendsto_iff_norm_sub_tendsto_zero]
  refine squeeze_zero (fun _ => norm_nonneg _) hb ?_
  have h5 := ((tendsto_pow_atTop_nhds_zero_of_lt_one (by linarith : 0 ≤ 1 - min att dec) (by linarith)).comp (tendsto_add_atTop_nat 1)).const_mul ((1 + idx) / idx * (A / lo))
  simpa using h5

/-- **C116** A carrier that is modulated with no more than the index never gives an output below minus one, whatever attack and decay between zero and one are. -/
theorem C116_am_floor (att dec lo hi idx A : ℝ) (ha : 0 ≤ att) (ha1 : att ≤ 1) (hd : 0 ≤ dec) (hd1 : dec ≤ 1) (hlo : 0 < lo) (hlh : lo ≤ hi) (hl : lo ≤ A * (1 + idx))
    (hidx : 0 < idx) (hidx1 : idx ≤ 1) (hA : 0 < A) (x : ℕ → ℂ) (hx : ∀ n, A * (1 - idx) ≤ ‖x n‖ ∧ ‖x n‖ ≤ A * (1 + idx)) :
    ∃ out, Gives call ((init.index idx).agc att dec lo hi) x out ∧ ∀ n, -1 ≤ out n := by
  set f := (init.index idx).agc att dec lo hi with hf
  obtain ⟨h1, h2⟩ := gives f x hlo hlh hidx.ne'
  refine ⟨_, h1, fun n => ?_⟩
  have hlev : ∀ n, levels f x n ≤ A * (1 + idx) := by
    intro n
    induction n with
    | zero => simp only [levels, hf, init, index, agc]; positivity
    | succ n ih =>
      simp only [levels]
      refine min_le_of_left_le (max_le ?_ hl)
      have key : ∀ t : ℝ, 0 ≤ t → t ≤ 1 → lerp (levels f x n) ‖x n‖ t ≤ A * (1 + idx) := by
        intro t t0 t1
        simp only [lerp, smul_eq_mul]
        have := mul_le_mul_of_nonneg_left ih (by linarith : 0 ≤ 1 - t)
        have := mul_le_mul_of_nonneg_left (hx n).2 t0
        linarith
      split_ifs
      · exact key _ hd hd1
      · exact key _ ha ha1
  have hL0 : 0 < levels f x (n + 1) := lt_of_lt_of_le hlo (h2 n)
  have hi' : f.idx = idx := rfl
  rw [hi', le_div_iff₀ hidx]
  have h3 : (1 - idx) / (1 + idx) ≤ ‖x n‖ / levels f x (n + 1) := by
    rw [div_le_div_iff₀ (by linarith) hL0]
    calc (1 - idx) * levels f x (n + 1) ≤ (1 - idx) * (A * (1 + idx)) := mul_le_mul_of_nonneg_left (hlev _) (by linarith)
      _ = A * (1 - idx) * (1 + idx) := by ring
      _ ≤ _ := mul_le_mul_of_nonneg_right (hx n).1 (by linarith)
  have h4 := mul_le_mul_of_nonneg_right h3 (by linarith : 0 ≤ 1 + idx)
  rw [div_mul_cancel₀ _ (by linarith)] at h4
  linarith

/-- **C116** The scale of the signal does not matter as long as the limits scale with it. -/
theorem C116_am_scale (att dec lo hi idx k : ℝ) (hk : 0 < k) (x : List ℂ) :
    trace call ((init.index idx).agc att dec (k * lo) (k * hi)) (x.map fun z => k * z) = trace call ((init.index idx).agc att dec lo hi) x := by
  have key : ∀ (x : List ℂ) (f g : AMD), g.avg = k * f.avg → g.lo = k * f.lo → g.hi = k * f.hi → g.att = f.att → g.dec = f.dec → g.idx = f.idx →
      trace call g (x.map fun z => (k : ℂ) * z) = trace call f x := by
    intro x
    induction x with
    | nil => intros; rfl
    | cons z x ih =>
      intro f g h1 h2 h3 h4 h5 h6
      have hn : ‖(k : ℂ) * z‖ = k * ‖z‖ := by rw [norm_mul, Complex.norm_real, Real.norm_eq_abs, abs_of_pos hk]
      have hl : min (max (lerp g.avg (k * ‖z‖) (if k * ‖z‖ < g.avg then g.dec else g.att)) g.lo) g.hi =
          k * min (max (lerp f.avg ‖z‖ (if ‖z‖ < f.avg then f.dec else f.att)) f.lo) f.hi := by
        rw [h1, h2, h3, h4, h5, mul_min_of_nonneg _ _ hk.le, mul_max_of_nonneg _ _ hk.le]
        simp only [mul_lt_mul_iff_right₀ hk]
        simp only [lerp, smul_eq_mul]
        congr 2; ring
      simp only [List.map_cons, trace, call, hn, hl, h6, Bind.bind, Except.bind, pure, Except.pure]
      generalize min (max (lerp f.avg ‖z‖ (if ‖z‖ < f.avg then f.dec else f.att)) f.lo) f.hi = L
      by_cases hL : L = 0
      · simp [hL, fdiv]
      · rw [fdiv_ok (mul_ne_zero hk.ne' hL), fdiv_ok hL, mul_div_mul_left _ _ hk.ne']
        simp only []
        by_cases hi : f.idx = 0
        · simp [hi, fdiv]
        · rw [fdiv_ok hi]
          simp only []
          rw [ih { f with avg := L } { g with avg := k * L, idx := f.idx } rfl h2 h3 h4 h5 rfl]
  exact key x _ _ (by simp [init, index, agc]) rfl rfl rfl rfl rfl

/-- A carrier of amplitude one half, slow attack and slower decay. -/
example : (0 : ℝ) < 1 / 100 ∧ (0 : ℝ) < 1 / 1000 ∧ (0 : ℝ) < 1 / 10 ∧ (1 / 10 : ℝ) ≤ 1 / 2 ∧ (1 / 2 : ℝ) ≤ 1 ∧ ∀ n : ℕ, ‖(1 / 2 : ℂ) * Complex.I ^ n‖ = 1 / 2 := by
  refine ⟨by norm_num, by norm_num, by norm_num, by norm_num, by norm_num, fun n => ?_⟩
  rw [norm_mul, norm_pow, Complex.norm_I, one_pow]; norm_num

end AMD

/-! ### The normaliser -/

namespace NormalizeSine

theorem gives (s : ℤ) (hs : 2 ≤ s) (x : ℕ → ℝ) :
    let f := init.samples s
    let u := stream BlockDC.call f.hpf x
    Gives call f x (fun n => u n / Real.sqrt (2 * stream EMA.call f.lpf (fun n => u n * u n) n)) ∧ ∀ n, 0 < stream EMA.call f.lpf (fun n => u n * u n) n := by
  intro f u
  have hs' : (2 : ℝ) ≤ s := by exact_mod_cast hs
  have ha : f.lpf.alpha = 1 / s := rfl
  have ha0 : 0 < f.lpf.alpha ∧ f.lpf.alpha < 1 := by
    rw [ha]; exact ⟨by positivity, by rw [div_lt_one (by linarith)]; linarith⟩
  have hpos : ∀ n, 0 < (states EMA.call f.lpf (fun n => u n * u n) n).prev := by
    intro n
    induction n with
    | zero => simp only [states, f, samples, init, EMA.samples, EMA.init]; norm_num
    | succ n ih =>
      rw [EMA.prev_succ]
      simp only [lerp, smul_eq_mul]
      have h1 := mul_pos (by linarith : 0 < 1 - f.lpf.alpha) ih
      have h2 := mul_nonneg ha0.1.le (mul_self_nonneg (u n))
      linarith
  refine ⟨?_, fun n => hpos (n + 1)⟩
  refine gives_of_states call (fun n => ⟨states BlockDC.call f.hpf x n, states EMA.call f.lpf (fun n => u n * u n) n⟩) x _ fun n => ?_
  have hq : Real.sqrt (2 * stream EMA.call f.lpf (fun n => u n * u n) n) ≠ 0 := (Real.sqrt_pos.mpr (by have := hpos (n + 1); rw [EMA.stream_eq]; linarith)).ne'
  simp only [call, Bind.bind, Except.bind, pure, Except.pure]
  rw [fdiv_ok (by exact hq)]
  rfl

theorem re_exp (g a : ℝ) : ((g : ℂ) * Complex.exp (a * Complex.I)).re = g * Real.cos a := by
  rw [Complex.re_ofReal_mul, Complex.exp_ofReal_mul_I_re]

theorem polar_mul (R : ℂ) (t : ℝ) : (R * Complex.exp (t * Complex.I)).re = ‖R‖ * Real.cos (t + R.arg) := by
  conv_lhs => rw [← Complex.norm_mul_exp_arg_mul_I R]
  rw [mul_assoc, ← Complex.exp_add, ← re_exp]
  congr 3; push_cast; ring

/-- The DC blocker removes the offset and answers the sinusoid with its response. -/
theorem blocked_tendsto (s : ℤ) (hs : 2 ≤ s) (c A w φ : ℝ) :
    let R := BlockDC.response (((s - 1 : ℤ) : ℝ) / s) ((1 + ((s - 1 : ℤ) : ℝ) / s) / 2) w
    Tendsto (fun n => stream BlockDC.call (init.samples s).hpf (fun n : ℕ => c + sinusoid A w φ n) n - A * ‖R‖ * Real.cos (w * n + φ + R.arg)) atTop (𝓝 0) := by
  intro R
  obtain ⟨h0, h1⟩ := BlockDC.pole s (by omega)
  set a : ℝ := ((s - 1 : ℤ) : ℝ) / s with ha
  have hR : R * (Complex.exp (w * Complex.I) - a) = ((1 + a) / 2 : ℝ) * (Complex.exp (w * Complex.I) - 1) := by
    have hden : Complex.exp (w * Complex.I) - a ≠ 0 := by
      intro h
      have := BlockDC.normSq_sub a w
      rw [h, map_zero] at this
      have := Real.cos_le_one w
      nlinarith
    simp only [R, BlockDC.response]
    rw [div_mul_cancel₀ _ hden]
  have hv : ∀ n : ℕ, ‖R‖ * Real.cos (w * n + φ + R.arg) = (R * Complex.exp ((w * n + φ : ℝ) * Complex.I)).re := fun n => (polar_mul R _).symm
  have hstep : ∀ n : ℕ, ‖R‖ * Real.cos (w * (n + 1 : ℕ) + φ + R.arg) = (1 + a) / 2 * (Real.cos (w * (n + 1 : ℕ) + φ) - Real.cos (w * n + φ)) + a * (‖R‖ * Real.cos (w * n + φ + R.arg)) := by
    intro n
    have e : Complex.exp ((w * (n + 1 : ℕ) + φ : ℝ) * Complex.I) = Complex.exp ((w * n + φ : ℝ) * Complex.I) * Complex.exp (w * Complex.I) := by
      rw [← Complex.exp_add]; congr 1; push_cast; ring
    have key : R * Complex.exp ((w * (n + 1 : ℕ) + φ : ℝ) * Complex.I) = ((1 + a) / 2 : ℝ) * (Complex.exp ((w * (n + 1 : ℕ) + φ : ℝ) * Complex.I) - Complex.exp ((w * n + φ : ℝ) * Complex.I)) +
        a * (R * Complex.exp ((w * n + φ : ℝ) * Complex.I)) := by
      rw [e]; linear_combination Complex.exp ((w * n + φ : ℝ) * Complex.I) * hR
    have := congrArg Complex.re key
    rw [Complex.add_re, Complex.re_ofReal_mul, Complex.re_ofReal_mul, Complex.sub_re, Complex.exp_ofReal_mul_I_re, Complex.exp_ofReal_mul_I_re, ← hv, ← hv] at this
    exact this
  refine recursion_tendsto _ (fun _ => 0) a (by rw [Real.norm_eq_abs, abs_of_nonneg h0]; exact h1) (fun n => ?_) tendsto_const_nhds
  rw [BlockDC.stream_succ]
  have e1 : (init.samples s).hpf.b = (1 + a) / 2 := rfl
  have e2 : (init.samples s).hpf.a = a := rfl
  rw [e1, e2]
  simp only [smul_eq_mul, sinusoid]
  linear_combination -A * hstep n

/-- A power that ripples at twice the frequency is smoothed to a ripple that the averager lets through. -/
theorem smoothed_tendsto (s : ℤ) (hs : 2 ≤ s) (G w ψ : ℝ) (u : ℕ → ℝ) (hu : Tendsto (fun n : ℕ => u n - G * Real.cos (w * n + ψ)) atTop (𝓝 0)) :
    let E := EMA.response (1 / s) (2 * w)
    Tendsto (fun n : ℕ => 2 * stream EMA.call (init.samples s).lpf (fun n => u n * u n) n - G ^ 2 * (1 + ‖E‖ * Real.cos (2 * w * n + (2 * ψ + E.arg)))) atTop (𝓝 0) := by
  intro E
  have hs' : (2 : ℝ) ≤ s := by exact_mod_cast hs
  set al : ℝ := 1 / s with hal
  have h0 : 0 < al := by positivity
  have h1 : al ≤ 1 := by rw [hal, div_le_one (by linarith)]; linarith
  have hE : E * (1 - (1 - al) * Complex.exp (-((2 * w : ℝ) * Complex.I))) = al := by
    have hden : (1 - (1 - al) * Complex.exp (-((2 * w : ℝ) * Complex.I)) : ℂ) ≠ 0 := by
      intro h
      have h2 := EMA.normSq_den al (2 * w)
      rw [h, map_zero] at h2
      have := Real.cos_le_one (2 * w)
      nlinarith [mul_nonneg (by linarith : 0 ≤ 1 - al) (by linarith : 0 ≤ 1 - Real.cos (2 * w))]
    simp only [E, EMA.response]
    rw [div_mul_cancel₀ _ hden]
  -- the ripple
  have hr : ∀ n : ℕ, ‖E‖ * Real.cos (2 * w * (n + 1 : ℕ) + (2 * ψ + E.arg)) = al * Real.cos (2 * w * (n + 1 : ℕ) + 2 * ψ) + (1 - al) * (‖E‖ * Real.cos (2 * w * n + (2 * ψ + E.arg))) := by
    intro n
    have e : Complex.exp ((2 * w * n + 2 * ψ : ℝ) * Complex.I) = Complex.exp ((2 * w * (n + 1 : ℕ) + 2 * ψ : ℝ) * Complex.I) * Complex.exp (-((2 * w : ℝ) * Complex.I)) := by
      rw [← Complex.exp_add]; congr 1; push_cast; ring
    have key : E * Complex.exp ((2 * w * (n + 1 : ℕ) + 2 * ψ : ℝ) * Complex.I) = al * Complex.exp ((2 * w * (n + 1 : ℕ) + 2 * ψ : ℝ) * Complex.I) +
        (1 - al : ℝ) * (E * Complex.exp ((2 * w * n + 2 * ψ : ℝ) * Complex.I)) := by
      rw [e]; push_cast; push_cast at hE; linear_combination Complex.exp ((2 * w * (n + 1) + 2 * ψ) * Complex.I) * hE
    have := congrArg Complex.re key
    rw [Complex.add_re, Complex.re_ofReal_mul, Complex.re_ofReal_mul, Complex.exp_ofReal_mul_I_re, polar_mul, polar_mul] at this
    simpa only [add_assoc] using this
  have hsq : Tendsto (fun n : ℕ => al * (2 * (u (n + 1) * u (n + 1)) - 2 * (G * Real.cos (w * (n + 1 : ℕ) + ψ)) ^ 2)) atTop (𝓝 0) := by
    have hb : Tendsto (fun n : ℕ => (u n - G * Real.cos (w * n + ψ)) * (u n - G * Real.cos (w * n + ψ)) + 2 * ((u n - G * Real.cos (w * n + ψ)) * (G * Real.cos (w * n + ψ)))) atTop (𝓝 (0 * 0 + 2 * 0)) := by
      refine (hu.mul hu).add (Tendsto.const_mul 2 ?_)
      refine squeeze_zero_norm (a := fun n : ℕ => |u n - G * Real.cos (w * n + ψ)| * |G|) (fun n => ?_) ?_
      · rw [Real.norm_eq_abs, abs_mul, abs_mul G]
        refine mul_le_mul_of_nonneg_left ?_ (abs_nonneg _)
        have := Real.abs_cos_le_one (w * n + ψ)
        nlinarith [abs_nonneg G]
      · simpa using (hu.abs).mul_const |G|
    have h2 := (hb.comp (tendsto_add_atTop_nat 1)).const_mul (2 * al)
    simp only [mul_zero, add_zero] at h2
    refine h2.congr fun n => ?_
    simp only [Function.comp]
    ring
  refine recursion_tendsto _ _ (1 - al) (by rw [Real.norm_eq_abs, abs_of_nonneg (by linarith)]; linarith) (fun n => ?_) hsq
  rw [EMA.stream_eq, EMA.stream_eq, EMA.prev_succ]
  have e1 : (init.samples s).lpf.alpha = al := rfl
  rw [e1]
  simp only [lerp, smul_eq_mul]
  have hc := Real.cos_sq (w * (n + 1 : ℕ) + ψ)
  rw [show 2 * (w * (n + 1 : ℕ) + ψ) = 2 * w * (n + 1 : ℕ) + 2 * ψ from by ring] at hc
  linear_combination -G ^ 2 * hr n + al * 2 * G ^ 2 * hc

/-- What the average leaves of the ripple of the power: the gain of an exponential average over `s` samples at twice the frequency `w`. -/
noncomputable def ripple (s : ℤ) (w : ℝ) : ℝ := 1 / Real.sqrt (1 + 4 * (s * (s - 1)) * Real.sin w ^ 2)

theorem norm_response (s : ℤ) (hs : 2 ≤ s) (w : ℝ) : ‖EMA.response (1 / s) (2 * w)‖ = ripple s w := by
  have hs' : (2 : ℝ) ≤ s := by exact_mod_cast hs
  have hp : 0 ≤ 4 * ((s : ℝ) * (s - 1)) * Real.sin w ^ 2 := by
    have : 0 ≤ (s : ℝ) * (s - 1) := mul_nonneg (by linarith) (by linarith)
    positivity
  have h1 : ‖EMA.response (1 / s) (2 * w)‖ ^ 2 = ripple s w ^ 2 := by
    rw [ripple, div_pow, Real.sq_sqrt (by linarith), EMA.response, norm_div, div_pow]
    have h2 := EMA.normSq_den (1 / s) (2 * w)
    rw [Complex.normSq_eq_norm_sq] at h2
    push_cast at h2 ⊢
    rw [h2, norm_div, norm_one, Complex.norm_intCast, abs_of_nonneg (by linarith)]
    have hc := Real.cos_two_mul w
    have hsc := Real.sin_sq_add_cos_sq w
    rw [hc]
    have hd : 1 + (1 - 1 / (s : ℝ)) ^ 2 - 2 * (1 - 1 / s) * (2 * Real.cos w ^ 2 - 1) = (1 + 4 * (s * (s - 1)) * Real.sin w ^ 2) / (s : ℝ) ^ 2 := by
      have : Real.cos w ^ 2 = 1 - Real.sin w ^ 2 := by linarith
      rw [this]; field_simp; ring
    rw [hd]
    have : (s : ℝ) ≠ 0 := by linarith
    field_simp
  have h3 : 0 ≤ ripple s w := by rw [ripple]; positivity
  exact (pow_left_inj₀ (norm_nonneg _) h3 two_ne_zero).mp h1

/-- **C116** The ripple is less than `1/(2 (s - 1) |sin w|)`: it vanishes as the window grows. -/
theorem C116_ripple (s : ℤ) (hs : 2 ≤ s) (w : ℝ) (hw : Real.sin w ≠ 0) : 0 < ripple s w ∧ ripple s w < 1 ∧ ripple s w < 1 / (2 * (s - 1) * |Real.sin w|) := by
  have hs' : (2 : ℝ) ≤ s := by exact_mod_cast hs
  have h1 : 0 < (s : ℝ) * (s - 1) := mul_pos (by linarith) (by linarith)
  have h2 : 0 < Real.sin w ^ 2 := by positivity
  have h3 : 0 < 4 * ((s : ℝ) * (s - 1)) * Real.sin w ^ 2 := by positivity
  have ha : 0 < |Real.sin w| := abs_pos.mpr hw
  have h4 : 1 < Real.sqrt (1 + 4 * ((s : ℝ) * (s - 1)) * Real.sin w ^ 2) := by
    rw [Real.lt_sqrt (by norm_num)]; linarith
  refine ⟨by rw [ripple]; positivity, by rw [ripple, div_lt_one (by linarith)]; exact h4, ?_⟩
  have h5 : 0 < 2 * ((s : ℝ) - 1) * |Real.sin w| := mul_pos (by linarith) ha
  rw [ripple]
  refine one_div_lt_one_div_of_lt h5 ?_
  rw [Real.lt_sqrt h5.le, mul_pow, sq_abs]
  nlinarith

theorem quotient_tendsto (u v P Q : ℕ → ℝ) (d V : ℝ) (hd : 0 < d) (hu : Tendsto (fun n => u n - v n) atTop (𝓝 0)) (hP : Tendsto (fun n => P n - Q n) atTop (𝓝 0))
    (hP0 : ∀ n, 0 < P n) (hQ : ∀ n, d ≤ Q n) (hv : ∀ n, |v n| ≤ V) :
    Tendsto (fun n => u n / Real.sqrt (P n) - v n / Real.sqrt (Q n)) atTop (𝓝 0) := by
  have hr : 0 < Real.sqrt d := Real.sqrt_pos.mpr hd
  have hq : ∀ n, Real.sqrt d ≤ Real.sqrt (Q n) := fun n => Real.sqrt_le_sqrt (hQ n)
  have hV : 0 ≤ V := (abs_nonneg _).trans (hv 0)
  have hs : Tendsto (fun n => Real.sqrt (P n) - Real.sqrt (Q n)) atTop (𝓝 0) := by
    refine squeeze_zero_norm (a := fun n => |P n - Q n| / Real.sqrt d) (fun n => ?_) (by simpa using hP.abs.div_const (Real.sqrt d))
    have e : (Real.sqrt (P n) - Real.sqrt (Q n)) * (Real.sqrt (P n) + Real.sqrt (Q n)) = P n - Q n := by
      have h1 := Real.mul_self_sqrt (hP0 n).le
      have h2 := Real.mul_self_sqrt (hd.le.trans (hQ n))
      linear_combination h1 - h2
    rw [Real.norm_eq_abs, le_div_iff₀ hr, ← e, abs_mul]
    refine mul_le_mul_of_nonneg_left ?_ (abs_nonneg _)
    exact le_abs.mpr (Or.inl (by have := Real.sqrt_nonneg (P n); linarith [hq n]))
  have hev : ∀ᶠ n in atTop, Real.sqrt d / 2 ≤ Real.sqrt (P n) := by
    filter_upwards [(Metric.tendsto_nhds.mp hs) (Real.sqrt d / 2) (by positivity)] with n hn
    rw [Real.dist_eq, sub_zero] at hn
    have := (abs_lt.mp hn).1
    linarith [hq n]
  have hlim : Tendsto (fun n => |u n - v n| / (Real.sqrt d / 2) + V * |Real.sqrt (P n) - Real.sqrt (Q n)| / (Real.sqrt d / 2 * Real.sqrt d)) atTop (𝓝 0) := by
    have := (hu.abs.div_const (Real.sqrt d / 2)).add ((hs.abs.const_mul V).div_const (Real.sqrt d / 2 * Real.sqrt d))
    simpa using this
  refine squeeze_zero_norm' ?_ hlim
  filter_upwards [hev] with n hn
  have hp0 : 0 < Real.sqrt (P n) := Real.sqrt_pos.mpr (hP0 n)
  have hq0 : 0 < Real.sqrt (Q n) := hr.trans_le (hq n)
  have e : u n / Real.sqrt (P n) - v n / Real.sqrt (Q n) = (u n - v n) / Real.sqrt (P n) - v n * (Real.sqrt (P n) - Real.sqrt (Q n)) / (Real.sqrt (P n) * Real.sqrt (Q n)) := by
    field_simp; ring
  rw [e, Real.norm_eq_abs]
  refine (abs_sub _ _).trans (add_le_add ?_ ?_)
  · rw [abs_div, abs_of_pos hp0]
    exact div_le_div_of_nonneg_left (abs_nonneg _) (by positivity) hn
  · rw [abs_div, abs_mul, abs_of_pos (mul_pos hp0 hq0)]
    refine div_le_div₀ (by positivity) (mul_le_mul_of_nonneg_right (hv n) (abs_nonneg _)) (by positivity) ?_
    exact mul_le_mul hn (hq n) hr.le hp0.le

/-- **C116** A sinusoid of any amplitude on any offset comes out as a sinusoid of amplitude one but for a ripple at twice the frequency. The phases depend on the frequency and the window only. -/
theorem C116_normalize (s : ℤ) (hs : 2 ≤ s) (w : ℝ) (hw : Real.sin w ≠ 0) :
    ∃ ψ θ : ℝ, ∀ c A φ : ℝ, 0 < A → ∃ out, Gives call (init.samples s) (fun n : ℕ => c + sinusoid A w φ n) out ∧
      Tendsto (fun n : ℕ => out n - Real.cos (w * n + φ + ψ) / Real.sqrt (1 + ripple s w * Real.cos (2 * (w * n + φ + ψ) + θ))) atTop (𝓝 0) := by
  set R := BlockDC.response (((s - 1 : ℤ) : ℝ) / s) ((1 + ((s - 1 : ℤ) : ℝ) / s) / 2) w with hR
  set E := EMA.response (1 / s) (2 * w) with hE
  refine ⟨R.arg, E.arg, fun c A φ hA => ?_⟩
  obtain ⟨hg, hpos⟩ := gives s hs (fun n : ℕ => c + sinusoid A w φ n)
  obtain ⟨hr0, hr1, -⟩ := C116_ripple s hs w hw
  have hu := blocked_tendsto s hs c A w φ
  have hRpos : 0 < ‖R‖ := by
    rw [norm_pos_iff, hR, BlockDC.response]
    obtain ⟨h0, h1⟩ := BlockDC.pole s (by omega)
    have hcos : Real.cos w < 1 := by
      refine lt_of_le_of_ne (Real.cos_le_one w) fun h => hw ?_
      have := Real.sin_sq_add_cos_sq w
      rw [h] at this
      have h2 : Real.sin w ^ 2 = 0 := by linarith
      exact pow_eq_zero_iff two_ne_zero |>.mp h2
    have n1 : Complex.exp (w * Complex.I) - 1 ≠ 0 := by
      intro h
      have := BlockDC.normSq_sub 1 w
      rw [Complex.ofReal_one, h, map_zero] at this
      linarith
    have n2 : Complex.exp (w * Complex.I) - ((((s - 1 : ℤ) : ℝ) / s : ℝ) : ℂ) ≠ 0 := by
      intro h
      have := BlockDC.normSq_sub (((s - 1 : ℤ) : ℝ) / s) w
      rw [h, map_zero] at this
      nlinarith
    have n3 : ((((1 + ((s - 1 : ℤ) : ℝ) / s) / 2 : ℝ)) : ℂ) ≠ 0 := by
      have : (0 : ℝ) < (1 + ((s - 1 : ℤ) : ℝ) / s) / 2 := by linarith
      exact Complex.ofReal_ne_zero.mpr this.ne'
    exact div_ne_zero (mul_ne_zero n3 n1) n2
  have hG : 0 < A * ‖R‖ := mul_pos hA hRpos
  have hu' : Tendsto (fun n : ℕ => stream BlockDC.call (init.samples s).hpf (fun n : ℕ => c + sinusoid A w φ n) n - A * ‖R‖ * Real.cos (w * n + (φ + R.arg))) atTop (𝓝 0) := by
    simpa only [add_assoc] using hu
  have hP := smoothed_tendsto s hs (A * ‖R‖) w (φ + R.arg) _ hu'
  simp only [norm_response s hs w] at hP
  refine ⟨_, hg, ?_⟩
  have hden : ∀ t : ℝ, 1 - ripple s w ≤ 1 + ripple s w * Real.cos t := fun t => by
    have := Real.neg_one_le_cos t
    nlinarith
  have hq := quotient_tendsto _ (fun n : ℕ => A * ‖R‖ * Real.cos (w * n + (φ + R.arg))) _
    (fun n : ℕ => (A * ‖R‖) ^ 2 * (1 + ripple s w * Real.cos (2 * w * n + (2 * (φ + R.arg) + E.arg)))) ((A * ‖R‖) ^ 2 * (1 - ripple s w)) (A * ‖R‖)
    (mul_pos (by positivity) (by linarith)) hu' hP (fun n => by have := hpos n; linarith)
    (fun n => mul_le_mul_of_nonneg_left (hden _) (by positivity))
    (fun n => by rw [abs_mul, abs_of_pos hG]; have := Real.abs_cos_le_one (w * n + (φ + R.arg)); nlinarith)
  refine hq.congr fun n => ?_
  congr 1
  rw [Real.sqrt_mul (by positivity), Real.sqrt_sq hG.le, mul_div_mul_left _ _ hG.ne']
  congr 2
  · ring
  · congr 3; ring

/-- **C116** So the magnitude of the output is, up to an error that vanishes, between those of sinusoids of amplitudes `1/√(1+r)` and `1/√(1-r)` with the ripple `r`. -/
theorem C116_normalize_amplitude (s : ℤ) (hs : 2 ≤ s) (w : ℝ) (hw : Real.sin w ≠ 0) :
    ∃ ψ : ℝ, ∀ c A φ : ℝ, 0 < A → ∃ out, Gives call (init.samples s) (fun n : ℕ => c + sinusoid A w φ n) out ∧
      ∀ ε > 0, ∀ᶠ n : ℕ in atTop, |Real.cos (w * n + φ + ψ)| / Real.sqrt (1 + ripple s w) - ε ≤ |out n| ∧ |out n| ≤ |Real.cos (w * n + φ + ψ)| / Real.sqrt (1 - ripple s w) + ε := by
  obtain ⟨ψ, θ, h⟩ := C116_normalize s hs w hw
  obtain ⟨hr0, hr1, -⟩ := C116_ripple s hs w hw
  refine ⟨ψ, fun c A φ hA => ?_⟩
  obtain ⟨out, hg, ht⟩ := h c A φ hA
  refine ⟨out, hg, fun ε hε => ?_⟩
  filter_upwards [(Metric.tendsto_nhds.mp ht) ε hε] with n hn
  rw [Real.dist_eq, sub_zero] at hn
  set C := Real.cos (w * n + φ + ψ)
  set D := 1 + ripple s w * Real.cos (2 * (w * n + φ + ψ) + θ) with hD
  have c1 := Real.cos_le_one (2 * (w * n + φ + ψ) + θ)
  have c2 := Real.neg_one_le_cos (2 * (w * n + φ + ψ) + θ)
  have d1 : D ≤ 1 + ripple s w := by rw [hD]; nlinarith
  have d2 : 1 - ripple s w ≤ D := by rw [hD]; nlinarith
  have hD0 : 0 < D := by linarith
  have e : |C / Real.sqrt D| = |C| / Real.sqrt D := by rw [abs_div, abs_of_nonneg (Real.sqrt_nonneg D)]
  have l1 : |C| / Real.sqrt (1 + ripple s w) ≤ |C| / Real.sqrt D := div_le_div_of_nonneg_left (abs_nonneg _) (Real.sqrt_pos.mpr hD0) (Real.sqrt_le_sqrt d1)
  have l2 : |C| / Real.sqrt D ≤ |C| / Real.sqrt (1 - ripple s w) := div_le_div_of_nonneg_left (abs_nonneg _) (Real.sqrt_pos.mpr (by linarith)) (Real.sqrt_le_sqrt d2)
  have t1 := abs_sub_abs_le_abs_sub (out n) (C / Real.sqrt D)
  have t2 := abs_sub_abs_le_abs_sub (C / Real.sqrt D) (out n)
  rw [abs_sub_comm] at t2
  rw [e] at t1 t2
  constructor <;> linarith

/-- A window of 100 samples and a quarter of the rate: the ripple is below a half percent. -/
example : (2 : ℤ) ≤ 100 ∧ Real.sin (Real.pi / 2) ≠ 0 ∧ ripple 100 (Real.pi / 2) < 0.0051 := by
  have h : Real.sin (Real.pi / 2) ≠ 0 := by rw [Real.sin_pi_div_two]; norm_num
  refine ⟨by norm_num, h, (C116_ripple 100 (by norm_num) _ h).2.2.trans_le ?_⟩
  rw [Real.sin_pi_div_two]; norm_num

end NormalizeSine
end DSP
