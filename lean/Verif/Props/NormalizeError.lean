import Verif.Model.DemodRounded
import Verif.Props.PhasorError
import Verif.Props.FirError
import Verif.Props.FilterError
import Verif.Lemmas.BinaryUnits
import Verif.Lemmas.BinaryMono

/-!
# The normaliser in floating point (C92)
-/

namespace DSP
namespace NormalizeRounded

open Spec

variable (p : ℕ) [NeZero p] (hp : 10 ≤ p)

theorem round_add_le (a b : Binary p) (ha : 0 ≤ a.val) : b.val ≤ (a + b).val :=
  Binary.le_round p (Nat.pos_of_ne_zero (NeZero.ne p)) _ _ b.representable (by linarith)

theorem mul_nonneg_val (a b : Binary p) (ha : 0 ≤ a.val) (hb : 0 ≤ b.val) : 0 ≤ (a * b).val :=
  Binary.le_round p (Nat.pos_of_ne_zero (NeZero.ne p)) _ _ (0 : Binary p).representable (mul_nonneg ha hb)

/-- A product of positive numbers is positive (there is no underflow here). -/
theorem mul_pos_val (hp : 1 ≤ p) (a b : Binary p) (ha : 0 < (a.val : ℝ)) (hb : 0 < (b.val : ℝ)) : 0 < ((a * b).val : ℝ) := by
  have h := abs_le.mp ((binary_roundedField p).mul a b)
  rw [abs_of_pos (mul_pos ha hb)] at h
  have hu : (1 : ℝ) / 2 ^ p < 1 := by
    rw [div_lt_one (by positivity)]
    exact one_lt_pow₀ (by norm_num) (by omega)
  nlinarith [mul_pos ha hb]

/-- What the roundings do to the bound of the output. -/
theorem bound_real (u t s α w v r y : ℝ) (hu0 : 0 ≤ u) (hu : u ≤ 1 / 1000) (hs : 2 ≤ s) (hα : (1 - 2 * u) * (1 / s) ≤ α) (hw : (1 - u) * (t * t) ≤ w) (hv : (1 - u) * (α * w) ≤ v) (hv0 : 0 < v)
    (hr : (1 - u) * √(2 * v) ≤ r) (hy : |y| ≤ (1 + u) * |t / r|) : |y| ≤ (1 + 5 * u) * √(s / 2) := by
  have hs0 : 0 < s := by linarith
  have hq : 0 < √(2 * v) := Real.sqrt_pos.mpr (by linarith)
  have hr0 : 0 < r := lt_of_lt_of_le (mul_pos (by linarith) hq) hr
  have ht : 0 ≤ t * t := mul_self_nonneg t
  have hα0 : 0 < α := lt_of_lt_of_le (mul_pos (by linarith) (by positivity)) hα
  -- the mean square against the last square
  have h1 : (1 - 4 * u) * (t * t) ≤ s * v := by
    have a1 : (1 - u) * (α * ((1 - u) * (t * t))) ≤ v := le_trans (by gcongr; linarith) hv
    have a2 : (1 - u) * (((1 - 2 * u) * (1 / s)) * ((1 - u) * (t * t))) ≤ v := by
      refine le_trans ?_ a1
      have : 0 ≤ (1 - u) * (t * t) := mul_nonneg (by linarith) ht
      have h1u : 0 ≤ 1 - u := by linarith
      gcongr
    have a3 : (1 - u) * (((1 - 2 * u) * (1 / s)) * ((1 - u) * (t * t))) * s = ((1 - u) * (1 - 2 * u) * (1 - u)) * (t * t) := by
      field_simp
    have a4 : 1 - 4 * u ≤ (1 - u) * (1 - 2 * u) * (1 - u) := by nlinarith [mul_nonneg hu0 hu0, mul_nonneg hu0 (mul_nonneg hu0 hu0)]
    calc (1 - 4 * u) * (t * t) ≤ ((1 - u) * (1 - 2 * u) * (1 - u)) * (t * t) := mul_le_mul_of_nonneg_right a4 ht
      _ = _ := a3.symm
      _ ≤ v * s := mul_le_mul_of_nonneg_right a2 hs0.le
      _ = _ := mul_comm _ _
  -- therefore the root against the last value
  have h2 : (1 - 2.01 * u) * |t| ≤ √(s / 2) * √(2 * v) := by
    rw [← Real.sqrt_mul (by positivity)]
    apply Real.le_sqrt_of_sq_le
    rw [mul_pow, sq_abs]
    have : (1 - 2.01 * u) ^ 2 ≤ 1 - 4 * u := by nlinarith [mul_nonneg hu0 hu0]
    calc (1 - 2.01 * u) ^ 2 * t ^ 2 ≤ (1 - 4 * u) * t ^ 2 := mul_le_mul_of_nonneg_right this (sq_nonneg t)
      _ = (1 - 4 * u) * (t * t) := by ring
      _ ≤ s * v := h1
      _ = _ := by ring
  have hS : 0 ≤ √(s / 2) := Real.sqrt_nonneg _
  have h3 : |t / r| * ((1 - 2.01 * u) * (1 - u)) ≤ √(s / 2) := by
    rw [abs_div, abs_of_pos hr0, div_mul_eq_mul_div, div_le_iff₀ hr0]
    calc |t| * ((1 - 2.01 * u) * (1 - u)) = (1 - u) * ((1 - 2.01 * u) * |t|) := by ring
      _ ≤ (1 - u) * (√(s / 2) * √(2 * v)) := mul_le_mul_of_nonneg_left h2 (by linarith)
      _ = √(s / 2) * ((1 - u) * √(2 * v)) := by ring
      _ ≤ _ := mul_le_mul_of_nonneg_left hr hS
  have h4 : 1 + u ≤ (1 + 5 * u) * ((1 - 2.01 * u) * (1 - u)) := by nlinarith [mul_nonneg hu0 hu0, mul_nonneg hu0 (mul_nonneg hu0 hu0)]
  calc |y| ≤ (1 + u) * |t / r| := hy
    _ ≤ (1 + 5 * u) * ((1 - 2.01 * u) * (1 - u)) * |t / r| := mul_le_mul_of_nonneg_right h4 (abs_nonneg _)
    _ = (1 + 5 * u) * (|t / r| * ((1 - 2.01 * u) * (1 - u))) := by ring
    _ ≤ _ := mul_le_mul_of_nonneg_left h3 (by linarith)

theorem reciprocal_real (u s : ℝ) (hu0 : 0 ≤ u) (hs : 0 < s) : (1 - 2 * u) * (1 / s) ≤ (1 - u) * (1 / ((1 + u) * s)) := by
  rw [mul_one_div, mul_one_div, div_le_div_iff₀ hs (by positivity)]
  nlinarith [mul_nonneg (mul_nonneg hu0 hu0) hs.le]

/-- The factor of the smoothing is the rounded reciprocal of the rounded number of samples. -/
theorem alpha_bounds (hp : 10 ≤ p) (s : ℤ) (hs : 2 ≤ s) : (1 - 2 * (1 / 2 ^ p)) * (1 / (s : ℝ)) ≤ ((1 / (s : Binary p) : Binary p).val : ℝ) ∧ ((1 / (s : Binary p) : Binary p).val : ℝ) ≤ 1 / 2 := by
  have hp0 : 0 < p := Nat.pos_of_ne_zero (NeZero.ne p)
  have hR := binary_roundedField p
  have hu := Win.unit_small p hp
  set u : ℝ := 1 / 2 ^ p with hU
  have hu0 : 0 ≤ u := by positivity
  have hs' : (2 : ℝ) ≤ s := by exact_mod_cast hs
  have hc := hR.cast s
  rw [abs_of_pos (by linarith : (0 : ℝ) < s)] at hc
  set c : ℝ := ((s : Binary p).val : ℝ) with hC
  have c2q : (2 : ℚ) ≤ (s : Binary p).val := by
    refine Binary.le_round p hp0 _ _ ⟨2, 0, ?_, by simp⟩ (by exact_mod_cast hs)
    calc |(2 : ℤ)| = 2 := rfl
      _ < 2 ^ 2 := by norm_num
      _ ≤ 2 ^ p := pow_le_pow_right₀ (by norm_num) (by omega)
  have c2 : (2 : ℝ) ≤ c := by rw [hC]; exact_mod_cast c2q
  have c1 : c ≤ (1 + u) * s := by have := (abs_le.mp hc).2; linarith
  have h1 : ((1 : Binary p).val : ℝ) = 1 := by rw [Binary.val_one]; norm_num
  have hd := hR.div 1 (s : Binary p) (by show c ≠ 0; positivity)
  rw [show (((1 : Binary p).val : ℝ) / ((s : Binary p).val : ℝ)) = 1 / c by rw [h1]] at hd
  have hc0 : 0 < c := by linarith
  rw [abs_of_pos (by positivity : 0 < 1 / c)] at hd
  constructor
  · have h2 := (abs_le.mp hd).1
    have h3 : 1 / ((1 + u) * s) ≤ 1 / c := by gcongr
    have h4 := reciprocal_real u s hu0 (by linarith)
    have h5 : (1 - u) * (1 / ((1 + u) * s)) ≤ (1 - u) * (1 / c) := mul_le_mul_of_nonneg_left h3 (by linarith)
    linarith
  · have : (1 / (s : Binary p) : Binary p).val ≤ 1 / 2 := by
      refine Binary.round_le p hp0 _ _ ⟨1, -1, ?_, by norm_num⟩ ?_
      · rw [abs_one]; exact one_lt_pow₀ (by norm_num) hp0.ne'
      · rw [Binary.val_one]
        exact one_div_le_one_div_of_le (by norm_num) c2q
    have h' : (((1 / (s : Binary p) : Binary p).val : ℚ) : ℝ) ≤ ((1 / 2 : ℚ) : ℝ) := by exact_mod_cast this
    rw [show ((1 / 2 : ℚ) : ℝ) = 1 / 2 by norm_num] at h'
    exact h'

/-- The relative error of the quotient by the rounded root. -/
theorem quotient_real (u t r q y : ℝ) (hu0 : 0 ≤ u) (hu : u ≤ 1 / 1000) (hq : 0 < q) (hr : |r - q| ≤ u * q) (hy : |y - t / r| ≤ u * |t / r|) : |y - t / q| ≤ 2.1 * u * |t / q| := by
  have hr1 := abs_le.mp hr
  have hr0 : 0 < r := by nlinarith
  have e1 : t / r - t / q = t / q * ((q - r) / r) := by field_simp
  have e2 : |(q - r) / r| ≤ 1.01 * u := by
    rw [abs_div, abs_of_pos hr0, abs_sub_comm, div_le_iff₀ hr0]
    nlinarith [mul_nonneg hu0 hq.le]
  have e3 : |t / r - t / q| ≤ 1.01 * u * |t / q| := by
    rw [e1, abs_mul, mul_comm]
    exact mul_le_mul_of_nonneg_right e2 (abs_nonneg _)
  have e4 : |t / r| ≤ (1 + 1.01 * u) * |t / q| := by
    calc |t / r| = |t / q + (t / r - t / q)| := by ring_nf
      _ ≤ |t / q| + |t / r - t / q| := abs_add_le _ _
      _ ≤ _ := by linarith
  calc |y - t / q| = |(y - t / r) + (t / r - t / q)| := by ring_nf
    _ ≤ |y - t / r| + |t / r - t / q| := abs_add_le _ _
    _ ≤ u * ((1 + 1.01 * u) * |t / q|) + 1.01 * u * |t / q| := by
      have := mul_le_mul_of_nonneg_left e4 hu0
      linarith
    _ ≤ _ := by
      have : u * (1 + 1.01 * u) + 1.01 * u ≤ 2.1 * u := by nlinarith
      nlinarith [abs_nonneg (t / q)]

include hp in
theorem call_ok (f : NormalizeRounded (Binary p)) (s : ℤ) (hs : 2 ≤ s) (h1 : 0 < (f.lpf.prev.val : ℝ)) (h2 : f.lpf.alpha = 1 / (s : Binary p)) (x : Binary p) :
    ∃ f' y, call Binary.sqrt f x = .ok (f', y) ∧ f'.hpf = (f.hpf.call x).1 ∧ f'.lpf = (f.lpf.call ((f.hpf.call x).2 * (f.hpf.call x).2)).1 ∧ 0 < (f'.lpf.prev.val : ℝ) ∧
      |(y.val : ℝ)| ≤ (1 + 5 / 2 ^ p) * √((s : ℝ) / 2) ∧
      |(y.val : ℝ) - (f.hpf.call x).2.val / √(2 * f'.lpf.prev.val)| ≤ 2.1 / 2 ^ p * |((f.hpf.call x).2.val : ℝ) / √(2 * f'.lpf.prev.val)| := by
  have hp0 : 0 < p := Nat.pos_of_ne_zero (NeZero.ne p)
  have hR := binary_roundedField p
  have hu := Win.unit_small p hp
  have hs' : (2 : ℝ) ≤ s := by exact_mod_cast hs
  obtain ⟨a1, a2⟩ := alpha_bounds p hp s hs
  rw [← h2] at a1 a2
  set t := (f.hpf.call x).2 with ht
  set v : Binary p := (1 - f.lpf.alpha) * f.lpf.prev + f.lpf.alpha * (t * t) with hv
  have hstep : f.lpf.call (t * t) = ({ f.lpf with prev := v }, v) := rfl
  have hu0 : (0 : ℝ) ≤ 1 / 2 ^ p := by positivity
  -- the weight of the old mean
  have w1 : 0 < ((1 - f.lpf.alpha : Binary p).val : ℝ) := by
    have h := abs_le.mp (hR.sub 1 f.lpf.alpha)
    have e1 : ((1 : Binary p).val : ℝ) = 1 := by rw [Binary.val_one]; norm_num
    have e2 : (((1 : Binary p).val : ℝ) - f.lpf.alpha.val) = 1 - f.lpf.alpha.val := by rw [e1]
    rw [e2, abs_of_pos (by linarith : (0 : ℝ) < 1 - f.lpf.alpha.val)] at h
    nlinarith [h.1]
  have hα0 : 0 < (f.lpf.alpha.val : ℝ) := lt_of_lt_of_le (mul_pos (by linarith) (by positivity)) a1
  have o1 := mul_pos_val p (by omega) _ _ w1 h1
  have hw0 : 0 ≤ (t * t).val := Binary.le_round p hp0 _ _ (0 : Binary p).representable (mul_self_nonneg _)
  have hα0q : 0 ≤ f.lpf.alpha.val := by exact_mod_cast hα0.le
  have n0 : 0 ≤ (f.lpf.alpha * (t * t)).val := mul_nonneg_val p _ _ hα0q hw0
  have o1q : 0 < ((1 - f.lpf.alpha) * f.lpf.prev).val := by exact_mod_cast o1
  have v1q : (f.lpf.alpha * (t * t)).val ≤ v.val := round_add_le p _ _ o1q.le
  have v1 : ((f.lpf.alpha * (t * t)).val : ℝ) ≤ v.val := by exact_mod_cast v1q
  have v0q : ((1 - f.lpf.alpha) * f.lpf.prev).val ≤ v.val :=
    Binary.le_round p hp0 _ _ (Binary.representable _) (by linarith)
  have v0 : 0 < (v.val : ℝ) := by exact_mod_cast lt_of_lt_of_le o1q v0q
  -- the square and its share
  have hw : (1 - 1 / 2 ^ p) * ((t.val : ℝ) * t.val) ≤ ((t * t).val : ℝ) := by
    have h := (abs_le.mp (hR.mul t t)).1
    rw [abs_of_nonneg (mul_self_nonneg _)] at h
    linarith
  have hv' : (1 - 1 / 2 ^ p) * ((f.lpf.alpha.val : ℝ) * (t * t).val) ≤ (v.val : ℝ) := by
    have h := (abs_le.mp (hR.mul f.lpf.alpha (t * t))).1
    have : (0 : ℝ) ≤ (t * t).val := by exact_mod_cast hw0
    rw [abs_of_nonneg (mul_nonneg hα0.le this)] at h
    linarith
  -- the root of the exact double
  have htwo : (2 : Binary p).val = 2 := by
    have := Binary.cast_exact p 2 (by
      calc |(2 : ℤ)| = 2 := rfl
        _ < 2 ^ 2 := by norm_num
        _ ≤ 2 ^ p := pow_le_pow_right₀ (by norm_num) (by omega))
    exact this
  have hdq : (2 * v : Binary p).val = 2 * v.val := by
    show Binary.round p ((2 : Binary p).val * v.val) = _
    rw [htwo, Binary.round_two_mul, Binary.round_self]
  have hd : ((2 * v : Binary p).val : ℝ) = 2 * v.val := by rw [hdq]; push_cast; ring
  have hq : 0 < √(2 * (v.val : ℝ)) := Real.sqrt_pos.mpr (by linarith)
  have hr := NCO.binary_sqrt p (2 * v) (by show (0 : ℝ) ≤ ((2 * v : Binary p).val : ℝ); rw [hd]; linarith)
  have hr' : |((Binary.sqrt (2 * v) : Binary p).val : ℝ) - √(2 * v.val)| ≤ 1 / 2 ^ p * √(2 * v.val) := by
    rw [← hd]; exact hr
  have hrl : (1 - 1 / 2 ^ p) * √(2 * (v.val : ℝ)) ≤ ((Binary.sqrt (2 * v) : Binary p).val : ℝ) := by
    have := (abs_le.mp hr').1; linarith
  have hr0 : 0 < ((Binary.sqrt (2 * v) : Binary p).val : ℝ) := lt_of_lt_of_le (mul_pos (by linarith) hq) hrl
  have hy := hR.div t (Binary.sqrt (2 * v)) hr0.ne'
  refine ⟨⟨(f.hpf.call x).1, { f.lpf with prev := v }⟩, t / Binary.sqrt (2 * v), ?_, rfl, rfl, v0, ?_, ?_⟩
  · unfold call
    simp only [← ht, hstep]
    rw [Fir.fdiv_ok' p _ _ hr0.ne']
    rfl
  · have h := bound_real (1 / 2 ^ p) t.val s f.lpf.alpha.val (t * t).val v.val (Binary.sqrt (2 * v) : Binary p).val (t / Binary.sqrt (2 * v)).val hu0 hu hs' a1 hw hv' v0 hrl (by
      have h3 := abs_sub_abs_le_abs_sub ((t / Binary.sqrt (2 * v) : Binary p).val : ℝ) (t.val / (Binary.sqrt (2 * v) : Binary p).val)
      linarith)
    calc _ ≤ _ := h
      _ = _ := by ring
  · have h := quotient_real (1 / 2 ^ p) t.val (Binary.sqrt (2 * v) : Binary p).val √(2 * v.val) (t / Binary.sqrt (2 * v)).val hu0 hu hq hr' hy
    calc _ ≤ _ := h
      _ = _ := by ring

include hp in
/-- **C92** The normaliser in floating point, for every number of samples of at least two: it never divides by zero, no output exceeds √(s/2) by more than five units of rounding, and
every output is the quotient of what the (rounded) DC blocker gives and of the root of twice the (rounded) mean square up to 2.1 units of rounding. The two filters are those of C74. -/
theorem C92_normalize (half : Binary p) (hh : half.val = 1 / 2) (s : ℤ) (hs : 2 ≤ s) (xs : List (Binary p)) :
    ∃ f' ys, run (call Binary.sqrt) ((init half).samples s) xs = .ok (f', ys) ∧ ys.length = xs.length ∧
      ∀ n < xs.length, ∃ t v y : Binary p,
        (outputs BlockDC.call ((init half).samples s).hpf xs)[n]? = some t ∧
        (outputs EMA.call (EMA.init half (1 / (s : Binary p))) ((outputs BlockDC.call ((init half).samples s).hpf xs).map fun t => t * t))[n]? = some v ∧
        ys[n]? = some y ∧ 0 < (v.val : ℝ) ∧ |(y.val : ℝ)| ≤ (1 + 5 / 2 ^ p) * √((s : ℝ) / 2) ∧ |(y.val : ℝ) - t.val / √(2 * v.val)| ≤ 2.1 / 2 ^ p * |(t.val : ℝ) / √(2 * v.val)| := by
  suffices H : ∀ (xs : List (Binary p)) (f : NormalizeRounded (Binary p)), 0 < (f.lpf.prev.val : ℝ) → f.lpf.alpha = 1 / (s : Binary p) →
      ∃ f' ys, run (call Binary.sqrt) f xs = .ok (f', ys) ∧ ys.length = xs.length ∧
      ∀ n < xs.length, ∃ t v y : Binary p,
        (outputs BlockDC.call f.hpf xs)[n]? = some t ∧
        (outputs EMA.call f.lpf ((outputs BlockDC.call f.hpf xs).map fun t => t * t))[n]? = some v ∧
        ys[n]? = some y ∧ 0 < (v.val : ℝ) ∧ |(y.val : ℝ)| ≤ (1 + 5 / 2 ^ p) * √((s : ℝ) / 2) ∧ |(y.val : ℝ) - t.val / √(2 * v.val)| ≤ 2.1 / 2 ^ p * |(t.val : ℝ) / √(2 * v.val)| by
    have h0 : 0 < ((((init half).samples s).lpf.prev).val : ℝ) := by
      show 0 < (half.val : ℝ)
      rw [hh]; norm_num
    exact H xs ((init half).samples s) h0 rfl
  intro xs
  induction xs with
  | nil => exact fun f _ _ => ⟨f, [], rfl, rfl, by simp⟩
  | cons x xs ih =>
    intro f h1 h2
    obtain ⟨f1, y, e, g1, g2, g3, g4, g5⟩ := call_ok p hp f s hs h1 h2 x
    obtain ⟨f', ys, e', l, H⟩ := ih f1 g3 (by rw [g2]; exact h2)
    refine ⟨f', y :: ys, ?_, by rw [List.length_cons, List.length_cons, l], ?_⟩
    · simp only [run, e, e']
    · intro n hn
      have o1 : outputs BlockDC.call f.hpf (x :: xs) = (f.hpf.call x).2 :: outputs BlockDC.call f1.hpf xs := by rw [g1]; rfl
      have o2 : outputs EMA.call f.lpf ((outputs BlockDC.call f.hpf (x :: xs)).map fun t => t * t) = f1.lpf.prev :: outputs EMA.call f1.lpf ((outputs BlockDC.call f1.hpf xs).map fun t => t * t) := by
        rw [o1, g2]; rfl
      rw [o2, o1]
      cases n with
      | zero => exact ⟨_, _, _, rfl, rfl, rfl, g3, g4, g5⟩
      | succ n => exact H n (by simpa using hn)

/-- The hypotheses can be met in single precision with 200 samples. -/
example : ∃ half : Binary 24, half.val = 1 / 2 ∧ 10 ≤ 24 ∧ (2 : ℤ) ≤ 200 := ⟨⟨1 / 2, 1, -1, by decide, by norm_num⟩, rfl, by norm_num, by norm_num⟩

end NormalizeRounded
end DSP
