import Verif.Model.PhasorRounded
import Verif.Props.FFTError
import Verif.Props.UnitCircleError
import Verif.Model.BinarySqrt

/-!
# C70: the oscillator in floating point
-/

namespace DSP

open Spec

namespace NCO

/-- The direction of a complex number. -/
noncomputable def dir (z : ℂ) : ℂ := z / ‖z‖

theorem norm_dir {z : ℂ} (h : z ≠ 0) : ‖dir z‖ = 1 := by
  rw [dir, norm_div, Complex.norm_real, norm_norm, div_self (norm_ne_zero_iff.mpr h)]

theorem dir_mul (z w : ℂ) : dir (z * w) = dir z * dir w := by
  rw [dir, dir, dir, norm_mul]; push_cast; rw [mul_div_mul_comm]

theorem dir_div (z : ℂ) (a : ℝ) (ha : 0 < a) : dir (z / a) = dir z := by
  have h : (a : ℂ) ≠ 0 := by exact_mod_cast ha.ne'
  by_cases hz : z = 0
  · simp [hz]
  have hz' : (‖z‖ : ℂ) ≠ 0 := by exact_mod_cast norm_ne_zero_iff.mpr hz
  rw [dir, dir, norm_div, Complex.norm_real, Real.norm_of_nonneg ha.le]
  push_cast
  field_simp

theorem dir_near (x y : ℂ) (hy : y ≠ 0) : ‖dir x - dir y‖ ≤ 2 * (‖x - y‖ / ‖y‖) := by
  have hy' : 0 < ‖y‖ := norm_pos_iff.mpr hy
  have hyc : (‖y‖ : ℂ) ≠ 0 := by exact_mod_cast hy'.ne'
  by_cases hx : x = 0
  · subst hx
    have : dir 0 = 0 := by simp [dir]
    rw [this, zero_sub, norm_neg, norm_dir hy, zero_sub, norm_neg, div_self hy'.ne']
    norm_num
  have hx' : 0 < ‖x‖ := norm_pos_iff.mpr hx
  have hxc : (‖x‖ : ℂ) ≠ 0 := by exact_mod_cast hx'.ne'
  have e : dir x - dir y = (x - y) / ‖y‖ + x * (((‖y‖ - ‖x‖ : ℝ)) : ℂ) / (‖x‖ * ‖y‖) := by
    rw [dir, dir]; push_cast; field_simp; ring
  rw [e]
  refine (norm_add_le _ _).trans ?_
  rw [norm_div, norm_div, norm_mul, norm_mul, Complex.norm_real, Complex.norm_real, Complex.norm_real, norm_norm, norm_norm, Real.norm_eq_abs]
  have h := abs_norm_sub_norm_le y x
  rw [norm_sub_rev] at h
  have e2 : ‖x‖ * |‖y‖ - ‖x‖| / (‖x‖ * ‖y‖) = |‖y‖ - ‖x‖| / ‖y‖ := by field_simp
  rw [e2, two_mul]
  gcongr

section

variable {V : Type} [Zero V] [Add V] [Sub V] [Mul V] [IntCast V] [Neg V] [Div V] [DecidableEq V] {val : V → ℝ} {u : ℝ} (hR : RoundedField V val u) (hu0 : 0 ≤ u) (hu : u ≤ 1 / 1000)
  {sqrt : V → V} (hS : RoundedSqrt val u sqrt)

omit [DecidableEq V] in
include hR hu0 hu in
/-- The rounded square of the magnitude. -/
theorem norm_near (z : Cplx V) : (1 - u) ^ 2 * ‖z.toComplex val‖ ^ 2 ≤ val z.norm ∧ val z.norm ≤ (1 + u) ^ 2 * ‖z.toComplex val‖ ^ 2 := by
  have a := abs_le.mp (hR.mul z.re z.re)
  have b := abs_le.mp (hR.mul z.im z.im)
  have c := hR.add (z.re * z.re) (z.im * z.im)
  have e : ‖z.toComplex val‖ ^ 2 = val z.re * val z.re + val z.im * val z.im := by
    rw [← Complex.normSq_eq_norm_sq, Complex.normSq_apply]; rfl
  rw [abs_of_nonneg (mul_self_nonneg _)] at a b
  have ha := mul_self_nonneg (val z.re)
  have hb := mul_self_nonneg (val z.im)
  have s0 : 0 ≤ val (z.re * z.re) + val (z.im * z.im) := by nlinarith
  rw [abs_of_nonneg s0] at c
  have c := abs_le.mp c
  show _ ≤ val (z.re * z.re + z.im * z.im) ∧ val (z.re * z.re + z.im * z.im) ≤ _
  rw [e]
  constructor
  · have : (1 - u) * (val z.re * val z.re + val z.im * val z.im) ≤ val (z.re * z.re) + val (z.im * z.im) := by linarith
    nlinarith
  · have : val (z.re * z.re) + val (z.im * z.im) ≤ (1 + u) * (val z.re * val z.re + val z.im * val z.im) := by linarith
    nlinarith

omit [DecidableEq V] in
include hR hu0 hu hS in
/-- The rounded magnitude. -/
theorem abs_near (z : Cplx V) : (1 - u) ^ 2 * ‖z.toComplex val‖ ≤ val (z.abs sqrt) ∧ val (z.abs sqrt) ≤ (1 + u) ^ 2 * ‖z.toComplex val‖ := by
  obtain ⟨h1, h2⟩ := norm_near hR hu0 hu z
  have hz := norm_nonneg (z.toComplex val)
  have h0 : 0 ≤ val z.norm := le_trans (by positivity) h1
  have h := abs_le.mp (hS z.norm h0)
  have l : (1 - u) * ‖z.toComplex val‖ ≤ √(val z.norm) := by
    apply Real.le_sqrt_of_sq_le
    rw [mul_pow]; exact h1
  have g : √(val z.norm) ≤ (1 + u) * ‖z.toComplex val‖ := by
    rw [Real.sqrt_le_left (by positivity), mul_pow]; exact h2
  show _ ≤ val (sqrt z.norm) ∧ val (sqrt z.norm) ≤ _
  constructor
  · calc (1 - u) ^ 2 * ‖z.toComplex val‖ = (1 - u) * ((1 - u) * ‖z.toComplex val‖) := by ring
      _ ≤ (1 - u) * √(val z.norm) := by gcongr; linarith
      _ ≤ _ := by linarith
  · calc val (sqrt z.norm) ≤ (1 + u) * √(val z.norm) := by linarith
      _ ≤ (1 + u) * ((1 + u) * ‖z.toComplex val‖) := by gcongr
      _ = _ := by ring

include hR hu0 hu hS in
/-- One call: the new value has magnitude one, up to four units, and its direction is off by at most eight. -/
theorem call_near (q : NCO V) (hp : q.prev.toComplex val ≠ 0) (hd : q.delta.toComplex val ≠ 0) :
    ∃ q', call sqrt q = .ok (q', q.prev) ∧ q'.delta = q.delta ∧ |‖q'.prev.toComplex val‖ - 1| ≤ 4 * u ∧
      ‖dir (q'.prev.toComplex val) - dir (q.prev.toComplex val) * dir (q.delta.toComplex val)‖ ≤ 9 * u := by
  have H := FFT.roundedComplex hR.toRoundedMul hu0 (by linarith)
  set m := q.prev.mulAssign q.delta with hm
  set P := q.prev.toComplex val with hP
  set D := q.delta.toComplex val with hD
  have hM : ‖m.toComplex val - D * P‖ ≤ 3 * u * ‖D * P‖ := H.mul q.delta q.prev
  have hDP : D * P ≠ 0 := mul_ne_zero hd hp
  have hDP' : 0 < ‖D * P‖ := norm_pos_iff.mpr hDP
  have hM0 : m.toComplex val ≠ 0 := by
    intro h
    rw [h, zero_sub, norm_neg] at hM
    nlinarith
  have hM' : 0 < ‖m.toComplex val‖ := norm_pos_iff.mpr hM0
  obtain ⟨a1, a2⟩ := abs_near hR hu0 hu hS m
  set a := m.abs sqrt with ha
  have hapos : 0 < val a := lt_of_lt_of_le (mul_pos (by nlinarith) hM') a1
  have ha0 : a ≠ 0 := fun h => by rw [h, hR.zero] at hapos; exact lt_irrefl _ hapos
  have hac : (val a : ℂ) ≠ 0 := by exact_mod_cast hapos.ne'
  have hq : ‖(m.sdivAssign a).toComplex val - m.toComplex val / (val a : ℂ)‖ ≤ u * ‖m.toComplex val / (val a : ℂ)‖ := by
    refine FFT.norm_le_of_parts _ _ u hu0 ?_ ?_
    · have := hR.div m.re a hapos.ne'
      rw [Complex.sub_re, Complex.div_ofReal_re]
      exact this
    · have := hR.div m.im a hapos.ne'
      rw [Complex.sub_im, Complex.div_ofReal_im]
      exact this
  have hn : ‖m.toComplex val / (val a : ℂ)‖ = ‖m.toComplex val‖ / val a := by rw [norm_div, Complex.norm_real, Real.norm_of_nonneg hapos.le]
  refine ⟨⟨m.sdivAssign a, q.delta⟩, ?_, rfl, ?_, ?_⟩
  · unfold call
    simp only []
    rw [if_neg ha0]
  · show |‖(m.sdivAssign a).toComplex val‖ - 1| ≤ 4 * u
    have h1 : |‖(m.sdivAssign a).toComplex val‖ - ‖m.toComplex val‖ / val a| ≤ u * (‖m.toComplex val‖ / val a) := by
      rw [← hn]
      exact (abs_norm_sub_norm_le _ _).trans hq
    have r1 : ‖m.toComplex val‖ / val a ≤ 1 + 2.1 * u := by
      rw [div_le_iff₀ hapos]
      have : 1 ≤ (1 + 2.1 * u) * (1 - u) ^ 2 := by nlinarith [mul_nonneg hu0 hu0, mul_nonneg hu0 (mul_nonneg hu0 hu0)]
      nlinarith
    have r2 : 1 - 2 * u ≤ ‖m.toComplex val‖ / val a := by
      rw [le_div_iff₀ hapos]
      have : (1 - 2 * u) * (1 + u) ^ 2 ≤ 1 := by nlinarith [mul_nonneg hu0 hu0, mul_nonneg hu0 (mul_nonneg hu0 hu0)]
      nlinarith
    have h2 := abs_le.mp h1
    rw [abs_le]
    constructor <;> nlinarith
  · show ‖dir ((m.sdivAssign a).toComplex val) - dir P * dir D‖ ≤ 9 * u
    have d1 := dir_near ((m.sdivAssign a).toComplex val) (m.toComplex val / (val a : ℂ)) (div_ne_zero hM0 hac)
    have d2 := dir_near (m.toComplex val) (D * P) hDP
    rw [dir_div _ _ hapos] at d1
    rw [dir_mul, mul_comm] at d2
    have e1 : ‖(m.sdivAssign a).toComplex val - m.toComplex val / (val a : ℂ)‖ / ‖m.toComplex val / (val a : ℂ)‖ ≤ u := by
      rw [div_le_iff₀ (norm_pos_iff.mpr (div_ne_zero hM0 hac))]; exact hq
    have e2 : ‖m.toComplex val - D * P‖ / ‖D * P‖ ≤ 3 * u := by rw [div_le_iff₀ hDP']; exact hM
    calc _ = ‖(dir ((m.sdivAssign a).toComplex val) - dir (m.toComplex val)) + (dir (m.toComplex val) - dir P * dir D)‖ := by congr 1; ring
      _ ≤ _ := norm_add_le _ _
      _ ≤ 2 * u + 2 * (3 * u) := add_le_add (d1.trans (by gcongr)) (d2.trans (by gcongr))
      _ ≤ _ := by linarith

include hR hu0 hu hS in
theorem calls_near (T : ℕ) : ∀ (q : NCO V) (e : ℂ) (b : ℝ), |‖q.prev.toComplex val‖ - 1| ≤ 4 * u → q.delta.toComplex val ≠ 0 → ‖dir (q.prev.toComplex val) - e‖ ≤ b →
    ∃ ys, calls sqrt T q = .ok ys ∧ ys.length = T ∧ ∀ (k : ℕ) y, ys[k]? = some y →
      |‖y.toComplex val‖ - 1| ≤ 4 * u ∧ ‖dir (y.toComplex val) - e * dir (q.delta.toComplex val) ^ k‖ ≤ b + 9 * k * u := by
  induction T with
  | zero => exact fun q e b _ _ _ => ⟨[], rfl, rfl, fun k y h => by simp at h⟩
  | succ T ih =>
    intro q e b h1 hd h2
    have hp : q.prev.toComplex val ≠ 0 := by
      intro h
      rw [h, norm_zero, zero_sub, abs_neg, abs_one] at h1
      linarith
    obtain ⟨q', e', hd', n', a'⟩ := call_near hR hu0 hu hS q hp hd
    have hn : ‖dir (q.delta.toComplex val)‖ = 1 := norm_dir hd
    obtain ⟨ys, ey, el, hy⟩ := ih q' (e * dir (q.delta.toComplex val)) (b + 9 * u) n' (by rw [hd']; exact hd) (by
      calc _ = ‖(dir (q'.prev.toComplex val) - dir (q.prev.toComplex val) * dir (q.delta.toComplex val)) + (dir (q.prev.toComplex val) - e) * dir (q.delta.toComplex val)‖ := by congr 1; ring
        _ ≤ _ := norm_add_le _ _
        _ ≤ 9 * u + b := by
          rw [norm_mul, hn, mul_one]
          exact add_le_add a' h2
        _ = _ := by ring)
    refine ⟨q.prev :: ys, ?_, by simp [el], ?_⟩
    · simp only [calls, e', ey, bind, Except.bind, pure, Except.pure]
    · intro k y hk
      cases k with
      | zero =>
        simp only [List.getElem?_cons_zero, Option.some.injEq] at hk
        subst hk
        refine ⟨h1, ?_⟩
        simpa using h2
      | succ k =>
        rw [List.getElem?_cons_succ] at hk
        obtain ⟨a, b'⟩ := hy k y hk
        refine ⟨a, ?_⟩
        rw [hd'] at b'
        calc _ = ‖dir (y.toComplex val) - e * dir (q.delta.toComplex val) * dir (q.delta.toComplex val) ^ k‖ := by congr 1; ring
          _ ≤ _ := b'
          _ = _ := by push_cast; ring

include hR hu0 hu hS in
/-- **C70** (oscillator). Whatever the number of calls, the magnitude of the output stays within four roundings of one: the division renews it in every call. Only the phase drifts, by at
most nine roundings per call. -/
theorem C70_oscillator (q : NCO V) (h1 : q.prev.toComplex val = 1) (hd : q.delta.toComplex val ≠ 0) (T : ℕ) :
    ∃ ys, calls sqrt T q = .ok ys ∧ ys.length = T ∧ ∀ (k : ℕ) y, ys[k]? = some y →
      |‖y.toComplex val‖ - 1| ≤ 4 * u ∧ ‖y.toComplex val - (q.delta.toComplex val / ‖q.delta.toComplex val‖) ^ k‖ ≤ (9 * k + 4) * u := by
  obtain ⟨ys, e, l, h⟩ := calls_near hR hu0 hu hS T q 1 0 (by rw [h1]; simpa using hu0) hd (by rw [h1]; simp [dir])
  refine ⟨ys, e, l, fun k y hk => ⟨(h k y hk).1, ?_⟩⟩
  obtain ⟨a, b⟩ := h k y hk
  have hy : y.toComplex val ≠ 0 := by
    intro h
    rw [h, norm_zero, zero_sub, abs_neg, abs_one] at a
    linarith
  have hyc : (‖y.toComplex val‖ : ℂ) ≠ 0 := by exact_mod_cast norm_ne_zero_iff.mpr hy
  have e1 : y.toComplex val - dir (y.toComplex val) = ((‖y.toComplex val‖ - 1 : ℝ) : ℂ) * dir (y.toComplex val) := by
    rw [dir]; push_cast; field_simp
  rw [one_mul, zero_add] at b
  calc _ = ‖(y.toComplex val - dir (y.toComplex val)) + (dir (y.toComplex val) - dir (q.delta.toComplex val) ^ k)‖ := by rw [dir, dir]; congr 1; ring
    _ ≤ _ := norm_add_le _ _
    _ ≤ 4 * u + 9 * k * u := by
      refine add_le_add ?_ b
      rw [e1, norm_mul, norm_dir hy, mul_one, Complex.norm_real]
      exact a
    _ = _ := by ring

end

/-! ### Binary floating point -/

instance (p : ℕ) : DecidableEq (Binary p) := fun a b => decidable_of_iff (a.val = b.val) (by cases a; cases b; simp)

theorem binary_sqrt (p : ℕ) [NeZero p] : RoundedSqrt (fun a : Binary p => (a.val : ℝ)) (1 / 2 ^ p) Binary.sqrt := by
  intro a _
  have h := Binary.roundReal_error p √(a.val : ℝ)
  rw [abs_of_nonneg (Real.sqrt_nonneg _)] at h
  rw [one_div_mul_eq_div]
  exact h

theorem pow_near (a b : ℂ) (ha : ‖a‖ = 1) (hb : ‖b‖ = 1) (k : ℕ) : ‖a ^ k - b ^ k‖ ≤ k * ‖a - b‖ := by
  induction k with
  | zero => simp
  | succ k ih =>
    calc _ = ‖a ^ k * (a - b) + (a ^ k - b ^ k) * b‖ := by congr 1; ring
      _ ≤ _ := norm_add_le _ _
      _ ≤ ‖a - b‖ + k * ‖a - b‖ := by
        rw [norm_mul, norm_mul, norm_pow, ha, hb, one_pow, one_mul, mul_one]
        linarith
      _ = _ := by push_cast; ring

/-- **C70** (floating point). The oscillator in single or double precision, tuned with `omega(n, N)`: all calls succeed, the magnitude stays within `4/2^p` of one for ever, and the `k`-th
output is within `(35k + 4)/2^p` of `e^(2πi kn/N)`. -/
theorem C70_binary (l p : ℕ) [NeZero p] (hp : 10 ≤ p) (hp' : p ≤ 53) (hl : p ≤ l) (n N : ℤ) (h1 : 1 ≤ N) (h2 : N ≤ 268435455) (h3 : -N ≤ n) (h4 : n ≤ N) (T : ℕ) :
    ∃ q ys, omegaInt (Kernels.of (UnitCircle.Coeffs.binary l p)) init n N = .ok q ∧ calls Binary.sqrt T q = .ok ys ∧ ys.length = T ∧ ∀ (k : ℕ) y, ys[k]? = some y →
      |‖y.toComplex fun a => (a.val : ℝ)‖ - 1| ≤ 4 / 2 ^ p ∧
      ‖(y.toComplex fun a => (a.val : ℝ)) - Complex.exp (2 * Real.pi * Complex.I * (k * n / N))‖ ≤ (35 * k + 4) / 2 ^ p := by
  obtain ⟨⟨c, ec, hc⟩, s, es, hs⟩ := UnitCircle.C68_binary l p hp hp' hl n N h1 h2 h3 h4
  have hu : (1 : ℝ) / 2 ^ p ≤ 1 / 1000 := by
    calc (1 : ℝ) / 2 ^ p ≤ 1 / 2 ^ 10 := by gcongr; norm_num
      _ ≤ _ := by norm_num
  have hu0 : (0 : ℝ) ≤ 1 / 2 ^ p := by positivity
  set x : ℝ := 2 * Real.pi * n / N with hx
  set E : ℂ := Complex.exp (x * Complex.I) with hE
  have hE1 : ‖E‖ = 1 := Complex.norm_exp_ofReal_mul_I x
  have hE0 : E ≠ 0 := Complex.exp_ne_zero _
  set d : Cplx (Binary p) := ⟨c, s⟩ with hd
  set D : ℂ := d.toComplex fun a => (a.val : ℝ) with hD
  have hDE : ‖D - E‖ ≤ 13 * (1 / 2 ^ p) := by
    have a1 : |(D - E).re| ≤ 9 * (1 / 2 ^ p) := by
      rw [Complex.sub_re, hE, Complex.exp_ofReal_mul_I_re, ← mul_div_assoc, mul_one]; exact hc
    have a2 : |(D - E).im| ≤ 9 * (1 / 2 ^ p) := by
      rw [Complex.sub_im, hE, Complex.exp_ofReal_mul_I_im, ← mul_div_assoc, mul_one]; exact hs
    have b1 := sq_le_sq' (abs_le.mp a1).1 (abs_le.mp a1).2
    have b2 := sq_le_sq' (abs_le.mp a2).1 (abs_le.mp a2).2
    have e : ‖D - E‖ ^ 2 = (D - E).re ^ 2 + (D - E).im ^ 2 := by
      rw [← Complex.normSq_eq_norm_sq, Complex.normSq_apply]; ring
    have e2 : ‖D - E‖ ^ 2 ≤ (13 * (1 / 2 ^ p)) ^ 2 := by
      rw [e]
      nlinarith
    exact (sq_le_sq₀ (norm_nonneg _) (by positivity)).mp e2
  have hD0 : D ≠ 0 := by
    intro h
    rw [h, zero_sub, norm_neg, hE1] at hDE
    linarith
  have h1v : (((1 : ℤ) : Binary p).val) = 1 := by
    have : Binary.round p ((1 : ℤ) : ℚ) = ((1 : ℤ) : ℚ) :=
      Binary.round_of_representable p _ ⟨1, 0, by rw [abs_one]; exact one_lt_pow₀ (by norm_num) (NeZero.ne p), by simp⟩
    exact_mod_cast this
  obtain ⟨ys, ey, ely, hy⟩ := C70_oscillator (binary_roundedField p) hu0 hu (binary_sqrt p) ⟨⟨((1 : ℤ) : Binary p), 0⟩, d⟩
    (Complex.ext (by show ((((1 : ℤ) : Binary p).val : ℚ) : ℝ) = 1; rw [h1v]; simp) (by show (((0 : Binary p).val : ℚ) : ℝ) = 0; simp [show (0 : Binary p).val = 0 from rfl])) hD0 T
  refine ⟨⟨⟨((1 : ℤ) : Binary p), 0⟩, d⟩, ys, ?_, ey, ely, fun k y hk => ?_⟩
  · simp only [omegaInt, init, ec, es, bind, Except.bind, pure, Except.pure]
    rfl
  · obtain ⟨a, b⟩ := hy k y hk
    refine ⟨by rw [show (4 : ℝ) / 2 ^ p = 4 * (1 / 2 ^ p) by ring]; exact a, ?_⟩
    have hexp : Complex.exp (2 * Real.pi * Complex.I * (k * n / N)) = E ^ k := by
      rw [hE, ← Complex.exp_nat_mul, hx]
      congr 1; push_cast; ring
    have hdir := dir_near D E hE0
    have hdE : dir E = E := by rw [dir, hE1]; simp
    rw [hE1, div_one, hdE] at hdir
    have hpn := pow_near (dir D) E (norm_dir hD0) hE1 k
    rw [hexp]
    calc _ = ‖((y.toComplex fun a => (a.val : ℝ)) - dir D ^ k) + (dir D ^ k - E ^ k)‖ := by congr 1; ring
      _ ≤ _ := norm_add_le _ _
      _ ≤ (9 * k + 4) * (1 / 2 ^ p) + k * (26 * (1 / 2 ^ p)) := by
        refine add_le_add b (hpn.trans ?_)
        gcongr
        linarith
      _ = _ := by ring

/-- Single precision, an eighth of the sampling rate, one second at 8 kHz: the error stays below two percent. -/
example : ∃ q ys, omegaInt (Kernels.of (UnitCircle.Coeffs.binary 64 24)) init 1 8 = .ok q ∧ calls Binary.sqrt 8000 q = .ok ys ∧ ∀ (k : ℕ) y, ys[k]? = some y →
    ‖(y.toComplex fun a => (a.val : ℝ)) - Complex.exp (2 * Real.pi * Complex.I * (k * (1 : ℤ) / (8 : ℤ)))‖ ≤ 0.02 := by
  obtain ⟨q, ys, e, e', l, h⟩ := C70_binary 64 24 (by norm_num) (by norm_num) (by norm_num) 1 8 (by norm_num) (by norm_num) (by norm_num) (by norm_num) 8000
  refine ⟨q, ys, e, e', fun k y hk => ((h k y hk).2).trans ?_⟩
  have : k < 8000 := by rw [← l]; exact (List.getElem?_eq_some_iff.mp hk).1
  have : (k : ℝ) ≤ 8000 := by exact_mod_cast this.le
  rw [div_le_iff₀ (by positivity)]
  norm_num
  linarith

end NCO
end DSP
