import Verif.Props.ComplexRounding
import Verif.Props.FMDError
import Mathlib.Topology.Instances.Rat

/-!
# Polar coordinates in floating point (C127)
-/

namespace DSP
namespace Cplx

open Spec Complex

variable {V : Type} [Zero V] [Add V] [Sub V] [Mul V] [IntCast V] [Neg V] [Div V] {val : V → ℝ} {u : ℝ}

/-- What cosine and sine of the library have to be: within `t` of the exact values. -/
def TrigNear (val : V → ℝ) (cos sin : V → V) (t : ℝ) : Prop := ∀ b, |val (cos b) - Real.cos (val b)| ≤ t ∧ |val (sin b) - Real.sin (val b)| ≤ t

/-- What `atan2` of the library has to be: within `ε` of the principal angle. -/
def ArgNear (val : V → ℝ) (atan2 : V → V → V) (ε : ℝ) : Prop := ∀ y x, val x ≠ 0 ∨ val y ≠ 0 → |val (atan2 y x) - Complex.arg ⟨val x, val y⟩| ≤ ε

theorem component (u t a c C r : ℝ) (hu0 : 0 ≤ u) (hC : |C| ≤ 1) (hc : |c - C| ≤ t) (hr : |r - a * c| ≤ u * |a * c|) : |r - a * C| ≤ (t + u * (1 + t)) * |a| := by
  have h1 : |c| ≤ 1 + t := by
    have := abs_sub_abs_le_abs_sub c C
    linarith
  have h2 : |a * c| ≤ (1 + t) * |a| := by rw [abs_mul, mul_comm]; exact mul_le_mul_of_nonneg_right h1 (abs_nonneg _)
  have h3 : |a * c - a * C| ≤ t * |a| := by rw [← mul_sub, abs_mul, mul_comm]; exact mul_le_mul_of_nonneg_right hc (abs_nonneg _)
  calc |r - a * C| ≤ |r - a * c| + |a * c - a * C| := abs_sub_le _ _ _
    _ ≤ u * ((1 + t) * |a|) + t * |a| := add_le_add (hr.trans (mul_le_mul_of_nonneg_left h2 hu0)) h3
    _ = _ := by ring

theorem norm_le_square (z : ℂ) (k : ℝ) (hk : 0 ≤ k) (h1 : |z.re| ≤ k) (h2 : |z.im| ≤ k) : ‖z‖ ≤ 3 / 2 * k := by
  rw [Complex.norm_def, Complex.normSq_apply]
  refine Real.sqrt_le_iff.mpr ⟨by positivity, ?_⟩
  have a1 := mul_self_le_mul_self (abs_nonneg _) h1
  have a2 := mul_self_le_mul_self (abs_nonneg _) h2
  rw [abs_mul_abs_self] at a1 a2
  nlinarith [mul_nonneg hk hk]

/-- The error of `polar` in units of the radius. -/
noncomputable def spread (u t : ℝ) : ℝ := 3 / 2 * (t + u * (1 + t))

/-- **C127** `polar(a, b)` is within `1.5(t + u(1 + t))|a|` of the number with radius `a` and angle `b`. -/
theorem C127_polar (hR : RoundedField V val u) (hu0 : 0 ≤ u) (cos sin : V → V) (t : ℝ) (ht : TrigNear val cos sin t) (a b : V) :
    ‖(polar cos sin a b).toComplex val - val a * exp (val b * I)‖ ≤ spread u t * |val a| := by
  obtain ⟨h1, h2⟩ := ht b
  have ht0 : 0 ≤ t := (abs_nonneg _).trans h1
  have k0 : 0 ≤ (t + u * (1 + t)) * |val a| := by positivity
  have e := norm_le_square ((polar cos sin a b).toComplex val - val a * exp (val b * I)) _ k0 ?_ ?_
  · refine e.trans (le_of_eq ?_)
    unfold spread; ring
  · rw [sub_re, re_ofReal_mul, exp_ofReal_mul_I_re]
    exact component u t (val a) (val (cos b)) _ _ hu0 (Real.abs_cos_le_one _) h1 (hR.mul a (cos b))
  · rw [sub_im, im_ofReal_mul, exp_ofReal_mul_I_im]
    exact component u t (val a) (val (sin b)) _ _ hu0 (Real.abs_sin_le_one _) h2 (hR.mul a (sin b))

theorem norm_polar (a b : ℝ) : ‖(a : ℂ) * exp (b * I)‖ = |a| := by
  rw [norm_mul, norm_exp_ofReal_mul_I, mul_one, norm_real, Real.norm_eq_abs]

/-- **C127** The radius comes back: `abs(polar(a, b))` is `|a|` up to rounding. -/
theorem C127_radius (hR : RoundedField V val u) (hu0 : 0 ≤ u) (hu1 : 3 * u ≤ 1) (cos sin sqrt : V → V) (hs : RoundedSqrt val u sqrt) (t : ℝ) (ht : TrigNear val cos sin t) (a b : V) :
    |val ((polar cos sin a b).abs sqrt) - (|val a|)| ≤ (spread u t + ((1 + u) ^ 3 - 1) * (1 + spread u t)) * |val a| := by
  have h := C127_polar hR hu0 cos sin t ht a b
  have h1 := (C111_abs hR hu0 hu1 (polar cos sin a b) sqrt hs).2
  set z := (polar cos sin a b).toComplex val
  have h2 : |‖z‖ - (|val a|)| ≤ spread u t * |val a| := by
    rw [← norm_polar (val a) (val b)]
    refine (abs_norm_sub_norm_le _ _).trans ?_
    rw [norm_polar]
    exact h
  have h3 : ‖z‖ ≤ (1 + spread u t) * |val a| := by
    have := le_abs_self (‖z‖ - |val a|)
    linarith
  have hη : 0 ≤ (1 + u) ^ 3 - 1 := by
    have : 1 ≤ (1 + u) ^ 3 := one_le_pow₀ (by linarith)
    linarith
  calc _ ≤ |val ((polar cos sin a b).abs sqrt) - ‖z‖| + |‖z‖ - (|val a|)| := abs_sub_le _ _ _
    _ ≤ ((1 + u) ^ 3 - 1) * ((1 + spread u t) * |val a|) + spread u t * |val a| := add_le_add (h1.trans (mul_le_mul_of_nonneg_left h3 hη)) h2
    _ = _ := by ring

/-- **C127** The angle comes back up to whole turns: `arg(polar(a, b))` for a positive radius. -/
theorem C127_angle (hR : RoundedField V val u) (hu0 : 0 ≤ u) (cos sin : V → V) (t : ℝ) (ht : TrigNear val cos sin t) (hsm : spread u t ≤ 1 / 11) (atan2 : V → V → V) (ε : ℝ) (hat : ArgNear val atan2 ε) (a b : V) (ha : 0 < val a) :
    ∃ k : ℤ, |val ((polar cos sin a b).arg atan2) - (val b + k * (2 * Real.pi))| ≤ ε + 1.1 * spread u t := by
  have h := C127_polar hR hu0 cos sin t ht a b
  rw [abs_of_pos ha] at h
  set z := (polar cos sin a b).toComplex val with hz
  have hx : exp (val b * I) ≠ 0 := exp_ne_zero _
  have hn : ‖(val a : ℂ) * exp (val b * I)‖ = val a := by rw [norm_polar, abs_of_pos ha]
  obtain ⟨hw, θ, h1, h2⟩ := FMDRounded.angle_near 1 (exp (val b * I)) z (val a * exp (val b * I)) (val a) (spread u t) one_ne_zero hx ha (by rw [div_one]) hsm (by rw [hn]; exact h)
  -- the angle of the direction
  have e : exp (θ * I) = exp (val b * I) := by
    unfold FMDRounded.Advance at h1
    rw [norm_one, norm_exp_ofReal_mul_I] at h1
    simpa using h1.symm
  obtain ⟨k, hk⟩ := exp_eq_exp_iff_exists_int.mp e
  have hk' : θ = val b + k * (2 * Real.pi) := by
    have h4 : ((θ : ℂ) - (val b + k * (2 * Real.pi))) * I = 0 := by rw [sub_mul, hk]; ring
    rcases mul_eq_zero.mp h4 with h5 | h5
    · have : (θ : ℂ) = ((val b + k * (2 * Real.pi) : ℝ) : ℂ) := by push_cast; linear_combination h5
      exact_mod_cast this
    · exact absurd h5 I_ne_zero
  refine ⟨k, ?_⟩
  rw [← hk']
  have hne : val (polar cos sin a b).re ≠ 0 ∨ val (polar cos sin a b).im ≠ 0 := by
    by_contra hc
    push Not at hc
    exact hw (Complex.ext hc.1 hc.2)
  have h3 : |val ((polar cos sin a b).arg atan2) - Complex.arg z| ≤ ε := hat _ _ hne
  exact (abs_sub_le _ (Complex.arg z) _).trans (add_le_add h3 h2)

/-- **C127** And back again: `polar(abs(z), arg(z))` is `z` up to rounding. -/
theorem C127_back (hR : RoundedField V val u) (hu0 : 0 ≤ u) (hu1 : 3 * u ≤ 1) (cos sin sqrt : V → V) (hs : RoundedSqrt val u sqrt) (t : ℝ) (ht : TrigNear val cos sin t) (atan2 : V → V → V) (ε : ℝ) (hat : ArgNear val atan2 ε)
    (z : Cplx V) (hz : z.toComplex val ≠ 0) :
    ‖(polar cos sin (z.abs sqrt) (z.arg atan2)).toComplex val - z.toComplex val‖ ≤ (spread u t * (1 + u) ^ 3 + ((1 + u) ^ 3 - 1) + ε) * ‖z.toComplex val‖ := by
  have h := C127_polar hR hu0 cos sin t ht (z.abs sqrt) (z.arg atan2)
  have h1 := (C111_abs hR hu0 hu1 z sqrt hs).2
  have hne : val z.re ≠ 0 ∨ val z.im ≠ 0 := by
    by_contra hc
    push Not at hc
    exact hz (Complex.ext hc.1 hc.2)
  have h2 : |val (z.arg atan2) - Complex.arg (z.toComplex val)| ≤ ε := hat _ _ hne
  set w := z.toComplex val with hw
  set r := val (z.abs sqrt) with hr
  set φ := val (z.arg atan2) with hφ
  have ht0 : 0 ≤ t := (abs_nonneg _).trans (ht z.re).1
  have hs0 : 0 ≤ spread u t := by unfold spread; positivity
  have hr1 : |r| ≤ (1 + u) ^ 3 * ‖w‖ := by
    have := abs_sub_abs_le_abs_sub r ‖w‖
    rw [abs_norm] at this
    linarith
  have d1 : ‖(r : ℂ) * exp (φ * I) - ‖w‖ * exp (φ * I)‖ ≤ ((1 + u) ^ 3 - 1) * ‖w‖ := by
    rw [← sub_mul, norm_mul, norm_exp_ofReal_mul_I, mul_one, ← ofReal_sub, norm_real, Real.norm_eq_abs]
    exact h1
  have d2 : ‖(‖w‖ : ℂ) * exp (φ * I) - w‖ ≤ ε * ‖w‖ := by
    have e : w = ‖w‖ * exp (Complex.arg w * I) := (norm_mul_exp_arg_mul_I w).symm
    calc ‖(‖w‖ : ℂ) * exp (φ * I) - w‖ = ‖(‖w‖ : ℂ) * (exp (φ * I) - exp (Complex.arg w * I))‖ := by
          rw [mul_sub, norm_mul_exp_arg_mul_I]
      _ = ‖w‖ * ‖exp (φ * I) - exp (Complex.arg w * I)‖ := by rw [norm_mul, norm_real, Real.norm_eq_abs, abs_norm]
      _ ≤ ‖w‖ * ε := by
        refine mul_le_mul_of_nonneg_left ?_ (norm_nonneg _)
        have e2 : exp (φ * I) - exp (Complex.arg w * I) = exp (Complex.arg w * I) * (exp (((φ - Complex.arg w : ℝ) : ℂ) * I) - 1) := by
          rw [mul_sub, ← exp_add]
          push_cast
          ring_nf
        rw [e2, norm_mul, norm_exp_ofReal_mul_I, one_mul, mul_comm _ I]
        exact (Real.norm_exp_I_mul_ofReal_sub_one_le).trans h2
      _ = _ := mul_comm _ _
  set q := (polar cos sin (z.abs sqrt) (z.arg atan2)).toComplex val
  calc ‖q - w‖ = ‖(q - r * exp (φ * I)) + ((r : ℂ) * exp (φ * I) - ‖w‖ * exp (φ * I)) + ((‖w‖ : ℂ) * exp (φ * I) - w)‖ := by ring_nf
    _ ≤ ‖q - r * exp (φ * I)‖ + ‖(r : ℂ) * exp (φ * I) - ‖w‖ * exp (φ * I)‖ + ‖(‖w‖ : ℂ) * exp (φ * I) - w‖ := (norm_add_le _ _).trans (add_le_add (norm_add_le _ _) le_rfl)
    _ ≤ spread u t * ((1 + u) ^ 3 * ‖w‖) + ((1 + u) ^ 3 - 1) * ‖w‖ + ε * ‖w‖ := add_le_add (add_le_add (h.trans (mul_le_mul_of_nonneg_left hr1 hs0)) d1) d2
    _ = _ := by ring

/-- There are machine numbers near every number. -/
theorem near_number (p : ℕ) [NeZero p] (x B e : ℝ) (hx : |x| ≤ B) (he : 0 < e) : ∃ b : Binary p, |(b.val : ℝ) - x| ≤ (B + e) / 2 ^ p + e := by
  obtain ⟨q, h1, h2⟩ := exists_rat_btwn (show x - e < x + e by linarith)
  have hq : |(q : ℝ) - x| ≤ e := abs_le.mpr ⟨by linarith, by linarith⟩
  refine ⟨⟨Binary.round p q, Binary.round_representable p (Nat.pos_of_ne_zero (NeZero.ne p)) q⟩, ?_⟩
  have h3 : |((Binary.round p q : ℚ) : ℝ) - q| ≤ |(q : ℝ)| / 2 ^ p := by
    have := (Rat.cast_le (K := ℝ)).mpr (Binary.round_error p q)
    push_cast at this
    exact this
  have h4 : |(q : ℝ)| ≤ B + e := by
    have := abs_sub_abs_le_abs_sub (q : ℝ) x
    linarith
  have h5 : |(q : ℝ)| / 2 ^ p ≤ (B + e) / 2 ^ p := div_le_div_of_nonneg_right h4 (by positivity)
  calc |((Binary.round p q : ℚ) : ℝ) - x| ≤ |((Binary.round p q : ℚ) : ℝ) - q| + |(q : ℝ) - x| := abs_sub_le _ _ _
    _ ≤ _ := by linarith

/-- Single precision: functions of such accuracy exist, and with them the way there and back has an error of less than 14 units of rounding. -/
example : ∃ (cos sin : Binary 24 → Binary 24) (atan2 : Binary 24 → Binary 24 → Binary 24), ∀ z : Cplx (Binary 24), z.toComplex (fun v => (v.val : ℝ)) ≠ 0 →
    ‖(polar cos sin (z.abs Binary.sqrt) (z.arg atan2)).toComplex (fun v => (v.val : ℝ)) - z.toComplex (fun v => (v.val : ℝ))‖ ≤ 14 / 2 ^ 24 * ‖z.toComplex (fun v => (v.val : ℝ))‖ := by
  have e0 : (0 : ℝ) < 1 / 2 ^ 26 := by positivity
  have hc : ∀ b : Binary 24, ∃ r : Binary 24, |(r.val : ℝ) - Real.cos b.val| ≤ 2 / 2 ^ 24 := fun b => (near_number 24 _ 1 _ (Real.abs_cos_le_one _) e0).imp fun r h => h.trans (by norm_num)
  have hs : ∀ b : Binary 24, ∃ r : Binary 24, |(r.val : ℝ) - Real.sin b.val| ≤ 2 / 2 ^ 24 := fun b => (near_number 24 _ 1 _ (Real.abs_sin_le_one _) e0).imp fun r h => h.trans (by norm_num)
  have ha : ∀ y x : Binary 24, ∃ r : Binary 24, |(r.val : ℝ) - Complex.arg ⟨x.val, y.val⟩| ≤ 6 / 2 ^ 24 := fun y x =>
    (near_number 24 _ 4 _ ((Complex.abs_arg_le_pi _).trans Real.pi_le_four) e0).imp fun r h => h.trans (by norm_num)
  choose cos hc using hc
  choose sin hs using hs
  choose atan2 ha using ha
  refine ⟨cos, sin, atan2, fun z hz => ?_⟩
  refine (C127_back (binary_roundedField 24) (by positivity) (by norm_num) cos sin Binary.sqrt (NCO.binary_sqrt 24) (2 / 2 ^ 24) (fun b => ⟨hc b, hs b⟩) atan2 (6 / 2 ^ 24) (fun y x _ => ha y x) z hz).trans ?_
  refine mul_le_mul_of_nonneg_right ?_ (norm_nonneg _)
  unfold spread
  norm_num

end Cplx
end DSP
