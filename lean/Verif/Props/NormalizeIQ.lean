import Verif.Props.NormalizeError
import Verif.Props.DemodSpecial
import Verif.Props.ExactComplex
import Mathlib.Analysis.Complex.Norm

/-!
# The normaliser for complex samples in floating point (C124)
-/

namespace DSP
namespace NormalizeIQRounded

open Spec

/-- One object for each component. -/
theorem run_pair {V : Type} [Zero V] [One V] [OfNat V 2] [Add V] [Sub V] [Mul V] [Div V] [BEq V] (sqrt : V → V) (xs : List (Cplx V)) :
    ∀ (f : NormalizeIQRounded V) (f1 f2 : NormalizeRounded V) (ys1 ys2 : List V), run (NormalizeRounded.call sqrt) f.ni (xs.map Cplx.re) = .ok (f1, ys1) → run (NormalizeRounded.call sqrt) f.nq (xs.map Cplx.im) = .ok (f2, ys2) →
      run (call sqrt) f xs = .ok (⟨f1, f2⟩, List.zipWith Cplx.mk ys1 ys2) := by
  induction xs with
  | nil =>
    intro f f1 f2 ys1 ys2 h1 h2
    simp only [run, List.map_nil, Except.ok.injEq, Prod.mk.injEq] at h1 h2
    obtain ⟨rfl, rfl⟩ := h1
    obtain ⟨rfl, rfl⟩ := h2
    rfl
  | cons x xs ih =>
    intro f f1 f2 ys1 ys2 h1 h2
    simp only [run, List.map_cons] at h1 h2
    cases e1 : NormalizeRounded.call sqrt f.ni x.re with
    | error e => rw [e1] at h1; cases h1
    | ok r1 =>
      obtain ⟨g1, y1⟩ := r1
      rw [e1] at h1
      simp only at h1
      cases e1' : run (NormalizeRounded.call sqrt) g1 (xs.map Cplx.re) with
      | error e => rw [e1'] at h1; cases h1
      | ok t1 =>
        rw [e1'] at h1
        simp only [Except.ok.injEq, Prod.mk.injEq] at h1
        cases e2 : NormalizeRounded.call sqrt f.nq x.im with
        | error e => rw [e2] at h2; cases h2
        | ok r2 =>
          obtain ⟨g2, y2⟩ := r2
          rw [e2] at h2
          simp only at h2
          cases e2' : run (NormalizeRounded.call sqrt) g2 (xs.map Cplx.im) with
          | error e => rw [e2'] at h2; cases h2
          | ok t2 =>
            rw [e2'] at h2
            simp only [Except.ok.injEq, Prod.mk.injEq] at h2
            obtain ⟨rfl, rfl⟩ := h1
            obtain ⟨rfl, rfl⟩ := h2
            have hc : call sqrt f x = .ok (⟨g1, g2⟩, ⟨y1, y2⟩) := by
              unfold call
              rw [e1, e2]
              rfl
            have := ih ⟨g1, g2⟩ t1.1 t2.1 t1.2 t2.2 e1' e2'
            simp only [run, hc, this, List.zipWith_cons_cons]

/-- What C92 says of an output: the quotient of what the DC blocker gives and of the root of twice the mean square, in one component `xs` of the input, up to 2.1 units of rounding. -/
def Near {p : ℕ} [NeZero p] (half : Binary p) (s : ℤ) (xs : List (Binary p)) (n : ℕ) (y : Binary p) : Prop :=
  ∃ t v : Binary p, (outputs BlockDC.call (BlockDC.samples ⟨0, 0, 0, half⟩ s) xs)[n]? = some t ∧
    (outputs EMA.call (EMA.init half (1 / (s : Binary p))) ((outputs BlockDC.call (BlockDC.samples ⟨0, 0, 0, half⟩ s) xs).map fun t => t * t))[n]? = some v ∧ 0 < (v.val : ℝ) ∧
    |(y.val : ℝ) - t.val / √(2 * v.val)| ≤ 2.1 / 2 ^ p * |(t.val : ℝ) / √(2 * v.val)|

/-- **C124** Complex samples in floating point, for every number of samples of at least two: the normaliser never divides by zero, each component of an output is that of its own component of the input alone, as in C92, and
the absolute value of an output exceeds √s by no more than five units of rounding. -/
theorem C124_round {p : ℕ} [NeZero p] (hp : 10 ≤ p) (half : Binary p) (hh : half.val = 1 / 2) (s : ℤ) (hs : 2 ≤ s) (xs : List (Cplx (Binary p))) :
    ∃ f' ys, run (call Binary.sqrt) ((init half).samples s) xs = .ok (f', ys) ∧ ys.length = xs.length ∧
      ∀ n < xs.length, ∃ y, ys[n]? = some y ∧ Near half s (xs.map Cplx.re) n y.re ∧ Near half s (xs.map Cplx.im) n y.im ∧ ‖(⟨y.re.val, y.im.val⟩ : ℂ)‖ ≤ (1 + 5 / 2 ^ p) * √s := by
  obtain ⟨f1, ys1, r1, l1, h1⟩ := NormalizeRounded.C92_normalize p hp half hh s hs (xs.map Cplx.re)
  obtain ⟨f2, ys2, r2, l2, h2⟩ := NormalizeRounded.C92_normalize p hp half hh s hs (xs.map Cplx.im)
  rw [List.length_map] at l1 l2 h1 h2
  refine ⟨_, _, run_pair Binary.sqrt xs ((init half).samples s) f1 f2 ys1 ys2 r1 r2, by rw [List.length_zipWith, l1, l2, min_self], fun n hn => ?_⟩
  obtain ⟨t1, v1, y1, a1, a2, a3, a4, a5, a6⟩ := h1 n hn
  obtain ⟨t2, v2, y2, b1, b2, b3, b4, b5, b6⟩ := h2 n hn
  refine ⟨⟨y1, y2⟩, ?_, ⟨t1, v1, a1, a2, a4, a6⟩, ⟨t2, v2, b1, b2, b4, b6⟩, ?_⟩
  · rw [List.getElem?_zipWith, a3, b3]
  · have hs' : (2 : ℝ) ≤ s := by exact_mod_cast hs
    have hc : (0 : ℝ) ≤ 1 + 5 / 2 ^ p := by positivity
    rw [Complex.norm_def, Complex.normSq_mk]
    refine Real.sqrt_le_iff.mpr ⟨by positivity, ?_⟩
    have q : √((s : ℝ) / 2) ^ 2 = s / 2 := Real.sq_sqrt (by linarith)
    have q' : √(s : ℝ) ^ 2 = s := Real.sq_sqrt (by linarith)
    have c1 : (y1.val : ℝ) * y1.val ≤ ((1 + 5 / 2 ^ p) * √((s : ℝ) / 2)) ^ 2 := by
      rw [← abs_mul_abs_self, ← sq]; exact pow_le_pow_left₀ (abs_nonneg _) a5 2
    have c2 : (y2.val : ℝ) * y2.val ≤ ((1 + 5 / 2 ^ p) * √((s : ℝ) / 2)) ^ 2 := by
      rw [← abs_mul_abs_self, ← sq]; exact pow_le_pow_left₀ (abs_nonneg _) b5 2
    rw [mul_pow, q] at c1 c2
    rw [mul_pow, q']
    linarith

/-- Single precision, 200 samples. -/
example (xs : List (Cplx (Binary 24))) : ∃ f' ys, run (call Binary.sqrt) ((init (⟨1 / 2, 1, -1, by decide, by norm_num⟩ : Binary 24)).samples 200) xs = .ok (f', ys) ∧ ys.length = xs.length := by
  obtain ⟨f', ys, h1, h2, -⟩ := C124_round (p := 24) (by norm_num) ⟨1 / 2, 1, -1, by decide, by norm_num⟩ rfl 200 (by norm_num) xs
  exact ⟨f', ys, h1, h2⟩

/-- The members. -/
def plain (f : NormalizeIQRounded ℝ) : NormalizeIQ := ⟨f.ni.plain, f.nq.plain⟩

theorem call_real (f : NormalizeIQRounded ℝ) (z : Cplx ℝ) : f.plain.call z.plain = (fun r => (r.1.plain, r.2.plain)) <$> call Real.sqrt f z := by
  unfold call NormalizeIQ.call
  have e1 : f.plain.ni.call z.plain.re = _ := normalize_call_real f.ni z.re
  have e2 : f.plain.nq.call z.plain.im = _ := normalize_call_real f.nq z.im
  rw [e1, e2]
  cases NormalizeRounded.call Real.sqrt f.ni z.re with
  | error e => rfl
  | ok r =>
    cases NormalizeRounded.call Real.sqrt f.nq z.im with
    | error e => rfl
    | ok r' => rfl

/-- **C124** Without rounding this is the normaliser of C53. -/
theorem C124_exact (s : ℤ) (xs : List (Cplx ℝ)) :
    run NormalizeIQ.call (NormalizeIQ.init.samples s) (xs.map Cplx.plain) = (fun r => (r.1.plain, r.2.map Cplx.plain)) <$> run (call Real.sqrt) ((init 0.5).samples s) xs := by
  have := run_hom plain Cplx.plain Cplx.plain (call Real.sqrt) NormalizeIQ.call (fun s i => call_real s i) xs ((init 0.5).samples s)
  rw [← this]
  congr 1

/-! ### Infinities and NaN -/

variable {F : Format}

open Ieee

theorem states_pair (f : NormalizeIQRounded (Ieee F)) (x : ℕ → Cplx (Ieee F)) (n : ℕ) :
    states callIeee f x n = ⟨states NormalizeRounded.callIeee f.ni (fun n => (x n).re) n, states NormalizeRounded.callIeee f.nq (fun n => (x n).im) n⟩ := by
  induction n with
  | zero => rfl
  | succ n ih =>
    show (callIeee (states callIeee f x n) (x n)).1 = _
    rw [ih]
    rfl

theorem stream_pair (f : NormalizeIQRounded (Ieee F)) (x : ℕ → Cplx (Ieee F)) (n : ℕ) :
    stream callIeee f x n = ⟨stream NormalizeRounded.callIeee f.ni (fun n => (x n).re) n, stream NormalizeRounded.callIeee f.nq (fun n => (x n).im) n⟩ := by
  show (callIeee (states callIeee f x n) (x n)).2 = _
  rw [states_pair]
  rfl

/-- **C124** Whatever one component holds, infinities and NaN included, the other component of the output does not depend on it. -/
theorem C124_separate (f : NormalizeIQRounded (Ieee F)) (x x' : ℕ → Cplx (Ieee F)) (n : ℕ) :
    ((∀ i ≤ n, (x i).re = (x' i).re) → (stream callIeee f x n).re = (stream callIeee f x' n).re) ∧ ((∀ i ≤ n, (x i).im = (x' i).im) → (stream callIeee f x n).im = (stream callIeee f x' n).im) := by
  have key : ∀ (g : NormalizeRounded (Ieee F)) (a b : ℕ → Ieee F), (∀ i ≤ n, a i = b i) → stream NormalizeRounded.callIeee g a n = stream NormalizeRounded.callIeee g b n := by
    intro g a b h
    have hs : ∀ i ≤ n, states NormalizeRounded.callIeee g a i = states NormalizeRounded.callIeee g b i := by
      intro i
      induction i with
      | zero => exact fun _ => rfl
      | succ i ih =>
        intro hi
        show (NormalizeRounded.callIeee (states NormalizeRounded.callIeee g a i) (a i)).1 = _
        rw [ih (by omega), h i (by omega)]
        rfl
    show (NormalizeRounded.callIeee (states NormalizeRounded.callIeee g a n) (a n)).2 = _
    rw [hs n le_rfl, h n le_rfl]
    rfl
  rw [stream_pair, stream_pair]
  exact ⟨key f.ni _ _, key f.nq _ _⟩

/-- **C124** A component that is infinite or NaN once never is finite again, and with `samples(s)` from three samples on the other one still is no NaN as long as the blocker of its own component has finite outputs. -/
theorem C124_damage (u : Silence.Usual F) (s : ℤ) (h3 : 3 ≤ s) (hs : s ≤ 2 ^ (F.p - 2)) (f : NormalizeIQRounded (Ieee F)) (x : ℕ → Cplx (Ieee F)) (n m : ℕ) (hm : n ≤ m) (hn : ¬(x n).re.Finite)
    (hf : Positive f.nq.lpf.prev) (hx : ∀ i ≤ m, (stream BlockDC.call (f.samples s).nq.hpf (fun n => (x n).im) i).Finite) :
    ¬(stream callIeee (f.samples s) x m).re.Finite ∧ (stream callIeee (f.samples s) x m).im ≠ nan := by
  rw [stream_pair]
  exact ⟨NormalizeRounded.C109_normalize_bad (f.samples s).ni (fun n => (x n).re) n m (.inl hn) hm, (NormalizeRounded.C109_normalize u s h3 hs f.nq hf (fun n => (x n).im) m hx).1⟩

/-- Single precision: NaN in the real part and zeros in the imaginary part. -/
example (n : ℕ) : ¬(stream callIeee ((init (num false (1 / 2)) : NormalizeIQRounded (Ieee Format.single)).samples 48) (fun _ => ⟨nan, 0⟩) n).re.Finite ∧
    (stream callIeee ((init (num false (1 / 2)) : NormalizeIQRounded (Ieee Format.single)).samples 48) (fun _ => ⟨nan, 0⟩) n).im ≠ nan := by
  refine C124_damage Silence.usual_single 48 (by norm_num) (by norm_num [Format.single]) (init (num false (1 / 2))) _ 0 n (Nat.zero_le n) (fun h => h) (.inr ⟨1 / 2, by norm_num, ?_, rfl⟩) fun i _ => ?_
  · exact Silence.usual_single.fits 1 1 (by norm_num [Format.single]) (by norm_num [Format.single])
  · obtain ⟨z, e⟩ := NormalizeRounded.blocked_zero ((NormalizeRounded.init (num false (1 / 2)) : NormalizeRounded (Ieee Format.single)).samples 48) ⟨false, rfl⟩ ⟨false, rfl⟩ (by decide +kernel) (by decide +kernel) (fun _ => 0) (fun _ => ⟨false, rfl⟩) i
    have e' : stream BlockDC.call ((init (num false (1 / 2)) : NormalizeIQRounded (Ieee Format.single)).samples 48).nq.hpf (fun _ => 0) i = num z 0 := e
    rw [e']; trivial

end NormalizeIQRounded
end DSP
