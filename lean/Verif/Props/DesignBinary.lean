import Verif.Props.DesignError
import Verif.Props.PhasorError

/-!
# C75: filter designs in binary floating point
-/

namespace DSP

open Spec UnitCircle

/-! ### Binary floating point -/

namespace UnitCircle

/-- The value, if there is no fault. -/
def value {V : Type} [Zero V] : M V → V
  | .ok a => a
  | .error _ => 0

/-- The sine of the code. -/
def binarySin (l p : ℕ) [NeZero p] (n N : ℤ) : Binary p := value (sin (Kernels.of (Coeffs.binary l p)) n N)

/-- The cosine of the code. -/
def binaryCos (l p : ℕ) [NeZero p] (n N : ℤ) : Binary p := value (cos (Kernels.of (Coeffs.binary l p)) n N)

end UnitCircle

/-- The functions of the code are good enough for all of the above. -/
theorem binary_circle (l p : ℕ) [NeZero p] (hp : 10 ≤ p) (hp' : p ≤ 53) (hl : p ≤ l) : GoodCircle (fun a : Binary p => (a.val : ℝ)) (1 / 2 ^ p) (binarySin l p) (binaryCos l p) := by
  intro n N h0 h2 h1 hN
  obtain ⟨⟨a, ha, ha'⟩, b, hb, hb'⟩ := C68_binary l p hp hp' hl n N h1 hN (by omega) (by omega)
  have e1 : binaryCos l p n N = a := by rw [binaryCos, ha]; rfl
  have e2 : binarySin l p n N = b := by rw [binarySin, hb]; rfl
  simp only [e1, e2]
  rw [mul_one_div]
  exact ⟨hb', ha'⟩

namespace Binary

theorem ext' {p : ℕ} {a b : Binary p} (h : a.val = b.val) : a = b := by
  cases a; cases b
  simp only at h
  subst h
  rfl

/-- What is less than half a unit below one is rounded to one. -/
theorem round_below_one (p : ℕ) (hp : 1 ≤ p) (y : ℚ) (h0 : y ≤ 0) (h1 : -(1 / 2 ^ (p + 1)) ≤ y) : round p (1 + y) = 1 := by
  rcases h0.eq_or_lt with h | h
  · rw [h, add_zero]
    exact round_of_representable p 1 ⟨1, 0, by rw [abs_one]; exact one_lt_pow₀ (by norm_num) (by omega), by simp⟩
  have hpp : (2 : ℚ) ^ 1 ≤ 2 ^ p := pow_le_pow_right₀ (by norm_num) hp
  have hq : (1 : ℚ) / 2 ^ (p + 1) ≤ 1 / 4 := by
    rw [pow_succ]
    apply one_div_le_one_div_of_le <;> linarith
  have hpos : 0 < 1 + y := by linarith
  have hlog : Int.log 2 |1 + y| = -1 := by
    rw [abs_of_pos hpos]
    apply le_antisymm
    · have : Int.log 2 (1 + y) < 0 := by
        rw [← Int.lt_zpow_iff_log_lt (by norm_num) hpos]
        simp only [zpow_zero]
        linarith
      omega
    · rw [← Int.zpow_le_iff_le_log (by norm_num) hpos]
      norm_num
      linarith
  unfold round
  simp only [hlog]
  rw [show (-1 + 1 - (p : ℤ)) = -(p : ℤ) by ring, zpow_neg, zpow_natCast]
  have hp0 : (0 : ℚ) < 2 ^ p := by positivity
  have hy : -(1 / 2) ≤ 2 ^ p * y := by
    have : (2 : ℚ) ^ p * (1 / 2 ^ (p + 1)) = 1 / 2 := by rw [pow_succ]; field_simp
    nlinarith
  have hy0 : 2 ^ p * y < 0 := by nlinarith
  have e : (1 + y) / ((2 : ℚ) ^ p)⁻¹ = ((2 ^ p - 1 : ℤ) : ℚ) + (1 + 2 ^ p * y) := by
    push_cast
    field_simp
    ring
  rw [e]
  have hfl : ⌊((2 ^ p - 1 : ℤ) : ℚ) + (1 + 2 ^ p * y)⌋ = 2 ^ p - 1 := by
    rw [Int.floor_eq_iff]
    constructor <;> linarith
  have hodd : (2 ^ p - 1 : ℤ) % 2 ≠ 0 := by
    obtain ⟨q, rfl⟩ : ∃ q, p = q + 1 := ⟨p - 1, by omega⟩
    rw [pow_succ]
    omega
  have hn : nearest (((2 ^ p - 1 : ℤ) : ℚ) + (1 + 2 ^ p * y)) = 2 ^ p := by
    unfold nearest
    simp only [hfl, add_sub_cancel_left]
    rw [if_neg (by linarith), if_neg hodd]
    split_ifs <;> ring
  rw [hn]
  push_cast
  field_simp

/-- Small integers are exact. -/
theorem round_small (p : ℕ) (hp : 3 ≤ p) (n : ℤ) (hn : |n| ≤ 4) : round p n = n := by
  have h8 : (2 : ℤ) ^ 3 ≤ 2 ^ p := pow_le_pow_right₀ (by norm_num) hp
  exact round_of_representable p n ⟨n, 0, by linarith, by simp⟩

end Binary

namespace UnitCircle

/-- **C75** For low frequencies the rounded cosine is one: in `float` for `n = 1` from `N = 26860` on, e.g. for a frequency of 1 Hz at the common sampling rates. -/
theorem C75_cos_one (l p : ℕ) [NeZero p] (hp : 10 ≤ p) (hp' : p ≤ 53) (hl : p ≤ l) (n N : ℤ) (h0 : 0 ≤ n) (h1 : 1 ≤ N) (hN : N ≤ 268435455) (h : 43 * n ^ 2 * 2 ^ p ≤ N ^ 2) :
    binaryCos l p n N = 1 := by
  have hN' : (0 : ℝ) < N := by exact_mod_cast h1
  have hn' : (0 : ℝ) ≤ n := by exact_mod_cast h0
  have hpow : (2 : ℤ) ^ 10 ≤ 2 ^ p := pow_le_pow_right₀ (by norm_num) hp
  have h8 : 8 * n < N := by
    by_contra hc
    have : N ^ 2 ≤ (8 * n) ^ 2 := pow_le_pow_left₀ (by omega) (by omega) 2
    have hnn : 0 ≤ n ^ 2 := by positivity
    nlinarith
  have hu : (1 : ℝ) / 2 ^ p ≤ 1 / 1000 := by
    apply one_div_le_one_div_of_le (by norm_num)
    calc (1000 : ℝ) ≤ 2 ^ 10 := by norm_num
      _ ≤ 2 ^ p := pow_le_pow_right₀ (by norm_num) hp
  have hu0 : (0 : ℝ) ≤ 1 / 2 ^ p := by positivity
  have hR := binary_roundedField p
  have hc := binary_coeffs l p hp' hl
  -- the branch
  have hb : cos (Kernels.of (Coeffs.binary l p)) n N = .ok (cosineApprox (Coeffs.binary l p) ((Coeffs.binary l p).twoPi * (n : Binary p) / (N : Binary p))) := by
    rw [cos, chain_cons _ _ _ _ _ _ (by omega) (by omega), if_neg (by omega), chain_cons _ _ _ _ _ _ (by omega) (by omega), if_neg (by omega), chain_cons _ _ _ _ _ _ (by omega) (by omega),
      if_neg (by omega), chain_cons _ _ _ _ _ _ (by omega) (by omega), if_neg (by omega), chain_cons _ _ _ _ _ _ (by omega) (by omega), if_pos (by omega),
      ev_ok _ _ _ _ _ _ h1 le_rfl (by omega) (by omega) (by omega) (by omega)]
    simp only [one_mul, zero_mul, add_zero]
    rfl
  have e : binaryCos l p n N = cosineApprox (Coeffs.binary l p) ((Coeffs.binary l p).twoPi * (n : Binary p) / (N : Binary p)) := by rw [binaryCos, hb]; rfl
  rw [e]
  have hoff := rad_off hR hu0 hu hc n N h1 (by omega) h8.le
  have hrel := rad_relative hR hu0 hu hc n N h1
  obtain ⟨-, ⟨p1, p2⟩, p3⟩ := cosine_inner_off hR hu0 hu hc hoff
  have hX : |Coeffs.real.twoPi * ((n : ℝ) / N)| ≤ 6.2832 * (n / N) := by
    have hτ : |Coeffs.real.twoPi| ≤ 6.2832 := by simp only [Coeffs.real, Coeffs.map, Coeffs.decimal]; rw [abs_of_nonneg] <;> norm_num
    rw [abs_mul, abs_of_nonneg (by positivity : 0 ≤ (n : ℝ) / N)]
    gcongr
  have hd : 43 * ((n : ℝ) / N) ^ 2 ≤ 1 / 2 ^ p := by
    have : 43 * (n : ℝ) ^ 2 * 2 ^ p ≤ (N : ℝ) ^ 2 := by exact_mod_cast h
    rw [div_pow, mul_div_assoc', div_le_div_iff₀ (by positivity) (by positivity)]
    linarith
  have hnN : 0 ≤ (n : ℝ) / N := by positivity
  have ha2 : Coeffs.real.a2 = -0.5 := by norm_num [Coeffs.real, Coeffs.map, Coeffs.decimal]
  rw [ha2] at p2
  have ha1 : (Coeffs.binary l p).a1.val = 1 := by
    have := hc.a1
    exact_mod_cast this
  clear h hb e hoff p1 hc
  generalize (n : ℝ) / N = d at *
  generalize Coeffs.real.twoPi * d = x at *
  unfold cosineApprox
  simp only []
  generalize (Coeffs.binary l p).twoPi * (n : Binary p) / (N : Binary p) = r at *
  generalize x * x * (x * x * (x * x * (x * x * (x * x * (x * x * Coeffs.real.a14 + Coeffs.real.a12) + Coeffs.real.a10) + Coeffs.real.a8) + Coeffs.real.a6) + Coeffs.real.a4) = q at *
  generalize r * r * (r * r * (r * r * (r * r * (r * r * (r * r * (Coeffs.binary l p).a14 + (Coeffs.binary l p).a12) + (Coeffs.binary l p).a10) + (Coeffs.binary l p).a8) + (Coeffs.binary l p).a6) +
    (Coeffs.binary l p).a4) + (Coeffs.binary l p).a2 = P at *
  have m1 := hR.mul r r
  have m2 := hR.mul (r * r) P
  generalize r * r = R at *
  generalize hy : R * P = y at *
  have hr : |(r.val : ℝ)| ≤ 6.3211 * d := by
    calc |(r.val : ℝ)| = |((r.val : ℝ) - x) + x| := by ring_nf
      _ ≤ _ := abs_add_le _ _
      _ ≤ 6.017012 * (1 / 1000) * (6.2832 * d) + 6.2832 * d := by
        refine add_le_add (hrel.trans ?_) hX
        gcongr
      _ ≤ _ := by nlinarith
  have hrr : (r.val : ℝ) * r.val ≤ 39.957 * d ^ 2 := by
    calc (r.val : ℝ) * r.val = |(r.val : ℝ)| * |(r.val : ℝ)| := (abs_mul_abs_self _).symm
      _ ≤ (6.3211 * d) * (6.3211 * d) := by gcongr
      _ ≤ _ := by nlinarith [sq_nonneg d]
  have hrr0 : 0 ≤ (r.val : ℝ) * r.val := mul_self_nonneg _
  rw [abs_of_nonneg hrr0] at m1
  have hR0 : 0 ≤ (R.val : ℝ) := by nlinarith [(abs_le.mp m1).1]
  have hR1 : (R.val : ℝ) ≤ 40 * d ^ 2 := by nlinarith [(abs_le.mp m1).2, sq_nonneg d]
  have hP0 : (P.val : ℝ) ≤ 0 := by linarith [(abs_le.mp p2).2, (abs_le.mp p3).2]
  have hP1 : -0.528 ≤ (P.val : ℝ) := by linarith [(abs_le.mp p2).1, (abs_le.mp p3).1]
  have hRP : (R.val : ℝ) * P.val ≤ 0 := mul_nonpos_of_nonneg_of_nonpos hR0 hP0
  rw [abs_of_nonpos hRP] at m2
  have hy0 : (y.val : ℝ) ≤ 0 := by nlinarith [(abs_le.mp m2).2]
  have hy1 : -(1 / 2 ^ (p + 1)) ≤ (y.val : ℝ) := by
    have a1 : -((R.val : ℝ) * P.val) ≤ 21.2 * d ^ 2 := by nlinarith [sq_nonneg d]
    have a2 : -(21.5 * d ^ 2) ≤ (y.val : ℝ) := by nlinarith [(abs_le.mp m2).1, sq_nonneg d]
    have : (1 : ℝ) / 2 ^ (p + 1) = 1 / 2 ^ p / 2 := by rw [pow_succ]; field_simp
    linarith
  apply Binary.ext'
  show Binary.round p ((Coeffs.binary l p).a1.val + y.val) = Binary.round p ((1 : ℤ) : ℚ)
  rw [ha1, Binary.round_below_one p (by omega) y.val (by exact_mod_cast hy0) (by
    rw [← Rat.cast_le (K := ℝ)]
    push_cast
    exact hy1), Binary.round_small p (by omega) 1 (by norm_num)]
  norm_num

end UnitCircle

namespace EMA

theorem weight_zero {p : ℕ} [NeZero p] (hp : 3 ≤ p) (n N : ℤ) : cutoffAlpha (fun _ _ => (1 : Binary p)) Binary.sqrt n N = 0 := by
  have r := Binary.round_small p hp
  have v1 : (1 : Binary p).val = 1 := by
    show Binary.round p ((1 : ℤ) : ℚ) = 1
    rw [r 1 (by norm_num)]; norm_num
  have v3 : (3 : Binary p).val = 3 := by
    show Binary.round p (((3 : ℕ) : ℤ) : ℚ) = 3
    rw [r _ (by norm_num)]; norm_num
  have v4 : (4 : Binary p).val = 4 := by
    show Binary.round p (((4 : ℕ) : ℤ) : ℚ) = 4
    rw [r _ (by norm_num)]; norm_num
  have s1 : (1 - 4 : Binary p).val = -3 := by
    show Binary.round p ((1 : Binary p).val - (4 : Binary p).val) = -3
    rw [v1, v4]
    have := r (-3) (by norm_num)
    push_cast at this
    rw [← this]; norm_num
  have s2 : (1 * (1 - 4) : Binary p).val = -3 := by
    show Binary.round p ((1 : Binary p).val * (1 - 4 : Binary p).val) = -3
    rw [v1, s1, one_mul]
    exact_mod_cast r (-3) (by norm_num)
  have z : Binary.round p 0 = 0 := by
    have := r 0 (by norm_num)
    simpa using this
  have s3 : (1 * (1 - 4) + 3 : Binary p) = 0 := by
    apply Binary.ext'
    show Binary.round p ((1 * (1 - 4) : Binary p).val + (3 : Binary p).val) = 0
    rw [s2, v3]
    norm_num [z]
  have s4 : (1 - 1 : Binary p) = 0 := by
    apply Binary.ext'
    show Binary.round p ((1 : Binary p).val - (1 : Binary p).val) = 0
    rw [sub_self, z]
  have s5 : Binary.sqrt (0 : Binary p) = 0 := by
    apply Binary.ext'
    show Binary.roundReal p √(((0 : Binary p).val : ℚ) : ℝ) = 0
    have e : (0 : Binary p).val = 0 := rfl
    rw [e, Rat.cast_zero, Real.sqrt_zero]
    have := Binary.roundReal_cast p 0
    rw [Rat.cast_zero] at this
    rw [this, z]
  show (1 - 1 + Binary.sqrt (1 * (1 - 4) + 3) : Binary p) = 0
  rw [s3, s4, s5]
  apply Binary.ext'
  show Binary.round p ((0 : Binary p).val + (0 : Binary p).val) = 0
  have e : (0 : Binary p).val = 0 := rfl
  rw [e, add_zero, z]

/-- With a weight of zero nothing moves. -/
theorem stuck {p : ℕ} [NeZero p] (hp : 3 ≤ p) (y x : Binary p) : lerp y x (0 : Binary p) = y := by
  have r := Binary.round_small p hp
  have z : Binary.round p 0 = 0 := by
    have := r 0 (by norm_num)
    simpa using this
  have e0 : (0 : Binary p).val = 0 := rfl
  have v1 : (1 : Binary p).val = 1 := by
    show Binary.round p ((1 : ℤ) : ℚ) = 1
    rw [r 1 (by norm_num)]; norm_num
  have s1 : (1 - 0 : Binary p).val = 1 := by
    show Binary.round p ((1 : Binary p).val - (0 : Binary p).val) = 1
    rw [v1, e0, sub_zero]
    exact_mod_cast r 1 (by norm_num)
  have s2 : ((1 - 0 : Binary p) • y).val = y.val := by
    show Binary.round p ((1 - 0 : Binary p).val * y.val) = y.val
    rw [s1, one_mul, Binary.round_of_representable p _ y.representable]
  have s3 : ((0 : Binary p) • x).val = 0 := by
    show Binary.round p ((0 : Binary p).val * x.val) = 0
    rw [e0, zero_mul, z]
  apply Binary.ext'
  show Binary.round p (((1 - 0 : Binary p) • y).val + ((0 : Binary p) • x).val) = y.val
  rw [s2, s3, add_zero, Binary.round_of_representable p _ y.representable]

/-- **C75** With so low a cutoff the weight is zero and the average keeps its first value, whatever it is fed with. -/
theorem C75_stuck (l p : ℕ) [NeZero p] (hp : 10 ≤ p) (hp' : p ≤ 53) (hl : p ≤ l) (n N : ℤ) (h0 : 0 ≤ n) (h1 : 1 ≤ N) (hN : N ≤ 268435455) (h : 43 * n ^ 2 * 2 ^ p ≤ N ^ 2)
    (e : EMA (Binary p) (Binary p)) (x : ℕ → Binary p) (k : ℕ) : stream call (e.cutoff (binaryCos l p) Binary.sqrt n N) x k = e.prev := by
  have hw : (e.cutoff (binaryCos l p) Binary.sqrt n N) = ⟨e.prev, 0⟩ := by
    have hc := C75_cos_one l p hp hp' hl n N h0 h1 hN h
    have : cutoffAlpha (binaryCos l p) Binary.sqrt n N = 0 := by
      rw [← weight_zero (by omega : 3 ≤ p) n N]
      unfold cutoffAlpha
      simp only [hc]
    rw [cutoff, this]
  have inv : ∀ k, states call (⟨e.prev, 0⟩ : EMA (Binary p) (Binary p)) x k = ⟨e.prev, 0⟩ := by
    intro k
    induction k with
    | zero => rfl
    | succ k ih =>
      show (call (states call (⟨e.prev, 0⟩ : EMA (Binary p) (Binary p)) x k) (x k)).1 = _
      rw [ih]
      show (⟨lerp e.prev (x k) (0 : Binary p), 0⟩ : EMA (Binary p) (Binary p)) = _
      rw [stuck (by omega)]
  rw [hw]
  show (call (states call (⟨e.prev, 0⟩ : EMA (Binary p) (Binary p)) x k) (x k)).2 = _
  rw [inv]
  exact stuck (by omega) _ _

end EMA

namespace Biquad

section

variable {p : ℕ} [NeZero p]

theorem round_zero (p : ℕ) : Binary.round p 0 = 0 := by simp [Binary.round, Binary.nearest]

theorem zero_smul' (a : Binary p) : (0 : Binary p) • a = 0 := by
  apply Binary.ext'
  show Binary.round p ((0 : ℚ) * a.val) = 0
  rw [zero_mul, round_zero]

theorem smul_zero' (a : Binary p) : a • (0 : Binary p) = 0 := by
  apply Binary.ext'
  show Binary.round p (a.val * (0 : ℚ)) = 0
  rw [mul_zero, round_zero]

theorem zero_add_zero : (0 + 0 : Binary p) = 0 := by
  apply Binary.ext'
  show Binary.round p ((0 : ℚ) + 0) = 0
  rw [add_zero, round_zero]

theorem zero_sub_zero : (0 - 0 : Binary p) = 0 := by
  apply Binary.ext'
  show Binary.round p ((0 : ℚ) - 0) = 0
  rw [sub_zero, round_zero]

theorem zero_div' (a : Binary p) : (0 : Binary p) / a = 0 := by
  apply Binary.ext'
  show Binary.round p ((0 : ℚ) / a.val) = 0
  rw [_root_.zero_div, round_zero]

theorem self_sub' (a : Binary p) : a - a = 0 := by
  apply Binary.ext'
  show Binary.round p (a.val - a.val) = 0
  rw [sub_self, round_zero]

/-- **C75** With so low a frequency the lowpass is silent. -/
theorem C75_silent (l : ℕ) (hp : 10 ≤ p) (hp' : p ≤ 53) (hl : p ≤ l) (n N : ℤ) (h0 : 0 ≤ n) (h1 : 1 ≤ N) (hN : N ≤ 268435455) (h : 43 * n ^ 2 * 2 ^ p ≤ N ^ 2)
    (f : Biquad (Binary p) (Binary p)) (hy1 : f.y1 = 0) (hy2 : f.y2 = 0) (Q : Binary p) (x : ℕ → Binary p) (k : ℕ) :
    stream call (f.lowpass (binarySin l p) (binaryCos l p) n N Q) x k = 0 := by
  have hc := C75_cos_one l p hp hp' hl n N h0 h1 hN h
  set g := f.lowpass (binarySin l p) (binaryCos l p) n N Q with hgdef
  have b0 : g.b0a0 = 0 := by
    show (1 - binaryCos l p n N) / 2 / _ = (0 : Binary p)
    rw [hc, self_sub', zero_div', zero_div']
  have b1 : g.b1a0 = 0 := by
    show (1 - binaryCos l p n N) / _ = (0 : Binary p)
    rw [hc, self_sub', zero_div']
  have b2 : g.b2a0 = 0 := b0
  have step : ∀ (g : Biquad (Binary p) (Binary p)) (x : Binary p), g.b0a0 = 0 → g.b1a0 = 0 → g.b2a0 = 0 → g.y1 = 0 → g.y2 = 0 → (g.call x).2 = 0 := by
    intro g x b0 b1 b2 y1 y2
    show g.b0a0 • x + g.b1a0 • g.x1 + g.b2a0 • g.x2 - g.a1a0 • g.y1 - g.a2a0 • g.y2 = 0
    rw [b0, b1, b2, y1, y2, zero_smul', zero_smul', zero_smul', smul_zero', smul_zero', zero_add_zero, zero_add_zero, zero_sub_zero, zero_sub_zero]
  have inv : ∀ k, (states call g x k).b0a0 = 0 ∧ (states call g x k).b1a0 = 0 ∧ (states call g x k).b2a0 = 0 ∧ (states call g x k).y1 = 0 ∧ (states call g x k).y2 = 0 := by
    intro k
    induction k with
    | zero => exact ⟨b0, b1, b2, hy1, hy2⟩
    | succ k ih =>
      obtain ⟨i0, i1, i2, i3, i4⟩ := ih
      exact ⟨i0, i1, i2, step _ _ i0 i1 i2 i3 i4, i3⟩
  obtain ⟨i0, i1, i2, i3, i4⟩ := inv k
  exact step _ _ i0 i1 i2 i3 i4

end

set_option maxRecDepth 100000 in
/-- **C75** The rounded designs need not be stable: in `float` the highpass for 1 Hz at a sampling rate of 192 kHz with a quality of one has a pole outside of the unit circle. The
same holds for all the other designs, as they share these coefficients. -/
theorem C75_unstable (f : Biquad (Binary 24) (Binary 24)) :
    ∃ z : ℝ, 1 < z ∧ z ^ 2 + ((f.highpass (binarySin 64 24) (binaryCos 64 24) 1 192000 1).a1a0.val : ℝ) * z + ((f.highpass (binarySin 64 24) (binaryCos 64 24) 1 192000 1).a2a0.val : ℝ) = 0 := by
  have hneg : 1 + (f.highpass (binarySin 64 24) (binaryCos 64 24) 1 192000 1).a1a0.val + (f.highpass (binarySin 64 24) (binaryCos 64 24) 1 192000 1).a2a0.val < 0 := by
    show 1 + (-2 * binaryCos 64 24 1 192000 / (1 + binarySin 64 24 1 192000 / (2 * 1))).val + ((1 - binarySin 64 24 1 192000 / (2 * 1)) / (1 + binarySin 64 24 1 192000 / (2 * 1))).val < 0
    decide +kernel
  generalize (f.highpass (binarySin 64 24) (binaryCos 64 24) 1 192000 1).a1a0.val = a at *
  generalize (f.highpass (binarySin 64 24) (binaryCos 64 24) 1 192000 1).a2a0.val = b at *
  have hneg' : 1 + (a : ℝ) + b < 0 := by exact_mod_cast hneg
  have hc : Continuous fun z : ℝ => z ^ 2 + (a : ℝ) * z + b := by fun_prop
  have hM : 0 ≤ |(a : ℝ)| + |(b : ℝ)| := by positivity
  have := intermediate_value_Ioo (a := (1 : ℝ)) (b := 1 + |(a : ℝ)| + |(b : ℝ)|) (by linarith) hc.continuousOn
  have hmem : (0 : ℝ) ∈ Set.Ioo ((1 : ℝ) ^ 2 + (a : ℝ) * 1 + b) ((1 + |(a : ℝ)| + |(b : ℝ)|) ^ 2 + (a : ℝ) * (1 + |(a : ℝ)| + |(b : ℝ)|) + b) := by
    constructor
    · linarith
    · have h1 := neg_abs_le (a : ℝ)
      have h2 := neg_abs_le (b : ℝ)
      have h3 := abs_nonneg (a : ℝ)
      have h4 := abs_nonneg (b : ℝ)
      nlinarith
  obtain ⟨z, hz, hz0⟩ := this hmem
  exact ⟨z, hz.1, hz0⟩

end Biquad

/-! ### Cases that meet the hypotheses -/

theorem sixth_turn : 2 * Real.pi * ((8000 : ℤ) : ℝ) / ((48000 : ℤ) : ℝ) = Real.pi / 3 := by
  push_cast
  ring

/-- A cutoff at 8 kHz for a sampling rate of 48 kHz in `float`. -/
example (e : EMA (Binary 24) (Binary 24)) : |(((e.cutoff (binaryCos 64 24) Binary.sqrt 8000 48000).alpha.val : ℚ) : ℝ) - (1 / 2 - 1 + √(1 / 2 * (1 / 2 - 4) + 3))| ≤ 80 * (1 / 2 ^ 24) / √(1 - 1 / 2) := by
  have := EMA.C75_cutoff (binary_roundedField 24) (binary_small 24 (by norm_num)) (by positivity) (by norm_num) (binary_circle 64 24 (by norm_num) (by norm_num) (by norm_num)) Binary.sqrt
    (NCO.binary_sqrt 24) e 8000 48000 (by norm_num) (by norm_num) (by norm_num) (by norm_num) (by rw [sixth_turn, Real.cos_pi_div_three]; norm_num)
  rw [sixth_turn, Real.cos_pi_div_three] at this
  exact this

/-- A bandpass at the same frequency, with a quality of one: it is accurate and stable. -/
example (f : Biquad (Binary 24) (Binary 24)) (idecibel : Binary 24 → Binary 24) (h : idecibel 0 = 1) :
    Biquad.Close (fun a : Binary 24 => (a.val : ℝ)) (85 * (1 / 2 ^ 24)) (f.bandpass (binarySin 64 24) (binaryCos 64 24) idecibel 8000 48000 0) (cookbook .bandpass (Real.pi / 3) 1) ∧
    ∀ z : ℂ, z ^ 2 + (((f.bandpass (binarySin 64 24) (binaryCos 64 24) idecibel 8000 48000 0).a1a0.val : ℝ) : ℂ) * z +
      (((f.bandpass (binarySin 64 24) (binaryCos 64 24) idecibel 8000 48000 0).a2a0.val : ℝ) : ℂ) = 0 → ‖z‖ < 1 := by
  have hq : ((Biquad.quality idecibel .bandpass 0).val : ℝ) = 1 := by
    show ((idecibel 0).val : ℝ) = 1
    rw [h]
    exact (binary_small 24 (by norm_num)).one
  have a := Biquad.C75_designs (binary_roundedField 24) (binary_small 24 (by norm_num)) (by positivity) (by norm_num) (binary_circle 64 24 (by norm_num) (by norm_num) (by norm_num)) idecibel f
    .bandpass 8000 48000 (by norm_num) (by norm_num) (by norm_num) (by norm_num) 0 (by simp only [hq]; norm_num)
  have b := Biquad.C75_stable (binary_roundedField 24) (binary_small 24 (by norm_num)) (by positivity) (by norm_num) (binary_circle 64 24 (by norm_num) (by norm_num) (by norm_num)) idecibel f
    .bandpass 8000 48000 (by norm_num) (by norm_num) (by norm_num) (by norm_num) 0 (by simp only [hq]; norm_num)
    (by
      simp only [hq]
      rw [sixth_turn, Real.sin_pi_div_three]
      have : (1 : ℝ) ≤ √3 := Real.one_le_sqrt.mpr (by norm_num)
      linarith)
    (by rw [sixth_turn, Real.cos_pi_div_three, abs_of_pos (by norm_num)]; norm_num)
  simp only [hq] at a
  rw [sixth_turn] at a
  exact ⟨a, b⟩

/-- A Butterworth filter of order eight. -/
example (c : BiquadCascade (Binary 24) (Binary 24)) (h : c.length = 4) : ∃ f, (c.lowpass (binarySin 64 24) (binaryCos 64 24) 8000 48000)[1]? = some f ∧
    Biquad.Close (fun a : Binary 24 => (a.val : ℝ)) (85 * (1 / 2 ^ 24)) f (cookbook .lowpass (Real.pi / 3) (1 / (2 * Real.cos (3 * Real.pi / 16)))) := by
  have := (BiquadCascade.C75_butterworth (binary_roundedField 24) (binary_small 24 (by norm_num)) (by positivity) (by norm_num) (binary_circle 64 24 (by norm_num) (by norm_num) (by norm_num)) c
    8000 48000 (by norm_num) (by norm_num) (by norm_num) (by norm_num) (by rw [h]; norm_num) (by rw [h]; norm_num) 1 (by rw [h]; norm_num)).1
  rw [sixth_turn, h] at this
  norm_num at this ⊢
  exact this

/-- 1 Hz at a sampling rate of 44100 Hz in `float`. -/
example : 43 * (1 : ℤ) ^ 2 * 2 ^ 24 ≤ 44100 ^ 2 := by norm_num

end DSP
