import Verif.Props.UnitCircleError
import Verif.Props.Biquad
import Verif.Props.FilterError
import Verif.Spec.Cookbook
import Verif.Lemmas.BinaryRounded
import Verif.Model.BinarySqrt

/-!
# C75: filter designs in rounded arithmetic
-/

namespace DSP

open Spec UnitCircle

namespace UnitCircle

section

variable {V : Type} [Zero V] [Add V] [Sub V] [Mul V] [IntCast V] [Neg V] [Div V] {val : V → ℝ} {u : ℝ} (hR : RoundedField V val u) (hu0 : 0 ≤ u) (hu : u ≤ 1 / 1000)

include hR hu0 hu

/-- A difference. -/
theorem Off.sub {x y : ℝ} {a b : V} {X Y Z e f E : ℝ} (hx : Off val u x a X e) (hy : Off val u y b Y f) (he : 0 ≤ e) (hf : 0 ≤ f) (hZ : |x - y| ≤ Z)
    (hE : 1.001 * (e + f) + Z ≤ E) : Off val u (x - y) (a - b) Z E := by
  obtain ⟨x1, x2⟩ := hx
  obtain ⟨y1, y2⟩ := hy
  refine ⟨hZ, ?_⟩
  have h1 := hR.sub a b
  have h2 : |val a - val b - (x - y)| ≤ (e + f) * u := by
    calc _ = |(val a - x) + -(val b - y)| := by ring_nf
      _ ≤ _ := abs_add_le _ _
      _ ≤ _ := by rw [abs_neg]; linarith
  have h3 : |val a - val b| ≤ (e + f) / 1000 + Z := by
    have : (e + f) * u ≤ (e + f) / 1000 := by nlinarith
    calc _ = |(val a - val b - (x - y)) + (x - y)| := by ring_nf
      _ ≤ _ := abs_add_le _ _
      _ ≤ _ := by linarith
  calc |val (a - b) - (x - y)| = |(val (a - b) - (val a - val b)) + (val a - val b - (x - y))| := by ring_nf
    _ ≤ _ := abs_add_le _ _
    _ ≤ u * ((e + f) / 1000 + Z) + (e + f) * u := add_le_add (h1.trans (by gcongr)) h2
    _ = (1.001 * (e + f) + Z) * u := by ring
    _ ≤ E * u := by gcongr

omit hu0 hu in
theorem Off.neg {x : ℝ} {a : V} {X e : ℝ} (hx : Off val u x a X e) : Off val u (-x) (-a) X e := by
  refine ⟨by rw [abs_neg]; exact hx.1, ?_⟩
  rw [hR.neg, show -val a - -x = -(val a - x) by ring, abs_neg]
  exact hx.2

/-- A quotient by something that is at least one. -/
theorem Off.div {x y : ℝ} {a b : V} {X Y Z e f E : ℝ} (hx : Off val u x a X e) (hy : Off val u y b Y f) (he : 0 ≤ e) (hf : 0 ≤ f) (hf1 : f < 1000) (h1 : 1 ≤ y) (hZ : |x / y| ≤ Z)
    (hE : 1.001 * ((e + Z * f) / (1 - f / 1000)) + Z ≤ E) : Off val u (x / y) (a / b) Z E := by
  obtain ⟨x1, x2⟩ := hx
  obtain ⟨y1, y2⟩ := hy
  refine ⟨hZ, ?_⟩
  have hZ0 : 0 ≤ Z := (abs_nonneg _).trans hZ
  have hfu : f * u ≤ f / 1000 := by nlinarith
  have hb : 1 - f / 1000 ≤ val b := by
    have := (abs_le.mp y2).1
    linarith
  have hd : 0 < 1 - f / 1000 := by linarith
  have hb0 : 0 < val b := by linarith
  have h := hR.div a b hb0.ne'
  have h2 : |val a / val b - x / y| ≤ (e + Z * f) / (1 - f / 1000) * u := by
    have hy0 : y ≠ 0 := by linarith
    have eq : val a / val b - x / y = ((val a - x) + x / y * (y - val b)) / val b := by
      have := hb0.ne'
      field_simp
      ring
    rw [eq, abs_div, abs_of_pos hb0]
    have hn : |(val a - x) + x / y * (y - val b)| ≤ (e + Z * f) * u := by
      calc _ ≤ |val a - x| + |x / y * (y - val b)| := abs_add_le _ _
        _ ≤ e * u + Z * (f * u) := by
          rw [abs_mul, abs_sub_comm y]
          gcongr
        _ = _ := by ring
    calc _ ≤ (e + Z * f) * u / (1 - f / 1000) := div_le_div₀ (mul_nonneg (by positivity) hu0) hn hd hb
      _ = _ := by ring
  have h3 : |val a / val b| ≤ (e + Z * f) / (1 - f / 1000) / 1000 + Z := by
    have h0 : 0 ≤ (e + Z * f) / (1 - f / 1000) := by positivity
    have : (e + Z * f) / (1 - f / 1000) * u ≤ (e + Z * f) / (1 - f / 1000) / 1000 := by nlinarith
    calc _ = |(val a / val b - x / y) + x / y| := by ring_nf
      _ ≤ _ := abs_add_le _ _
      _ ≤ _ := by linarith
  calc |val (a / b) - x / y| = |(val (a / b) - val a / val b) + (val a / val b - x / y)| := by ring_nf
    _ ≤ _ := abs_add_le _ _
    _ ≤ u * ((e + Z * f) / (1 - f / 1000) / 1000 + Z) + (e + Z * f) / (1 - f / 1000) * u := add_le_add (h.trans (by gcongr)) h2
    _ = (1.001 * ((e + Z * f) / (1 - f / 1000)) + Z) * u := by ring
    _ ≤ E * u := by gcongr

end

end UnitCircle

/-- The integers up to four as values of a type: they are exact. -/
structure Spec.SmallExact {V : Type} [One V] [OfNat V 2] [OfNat V 3] [OfNat V 4] (val : V → ℝ) : Prop where
  one : val 1 = 1
  two : val 2 = 2
  three : val 3 = 3
  four : val 4 = 4

theorem binary_small (p : ℕ) [NeZero p] (hp : 3 ≤ p) : SmallExact (V := Binary p) fun a => (a.val : ℝ) := by
  have key : ∀ n : ℕ, n ≤ 4 → Binary.round p ((n : ℤ) : ℚ) = n := by
    intro n hn
    have h8 : (2 : ℤ) ^ 3 ≤ 2 ^ p := pow_le_pow_right₀ (by norm_num) hp
    have := Binary.round_of_representable p ((n : ℤ) : ℚ) ⟨n, 0, by rw [abs_of_nonneg (by positivity)]; omega, by simp⟩
    rw [this]
    norm_cast
  refine ⟨?_, ?_, ?_, ?_⟩
  · show ((Binary.round p ((1 : ℤ) : ℚ) : ℚ) : ℝ) = 1
    have := key 1 (by norm_num)
    push_cast at this ⊢
    rw [this]; norm_num
  · show ((Binary.round p (((2 : ℕ) : ℤ) : ℚ) : ℚ) : ℝ) = 2
    rw [key 2 (by norm_num)]; norm_num
  · show ((Binary.round p (((3 : ℕ) : ℤ) : ℚ) : ℚ) : ℝ) = 3
    rw [key 3 (by norm_num)]; norm_num
  · show ((Binary.round p (((4 : ℕ) : ℤ) : ℚ) : ℚ) : ℝ) = 4
    rw [key 4 (by norm_num)]; norm_num

section

variable {V : Type} [Zero V] [One V] [OfNat V 2] [OfNat V 3] [OfNat V 4] [Add V] [Sub V] [Mul V] [IntCast V] [Neg V] [Div V] {val : V → ℝ} {u : ℝ}
  (hR : RoundedField V val u) (hS : SmallExact val) (hu0 : 0 ≤ u) (hu : u ≤ 1 / 1000)

namespace EMA

omit [Zero V] [One V] [OfNat V 2] [OfNat V 3] [OfNat V 4] [Add V] [Sub V] [Mul V] [IntCast V] [Neg V] [Div V] in
/-- Roots of close numbers are close. -/
theorem root_diff (y z : ℝ) (hy : 0 ≤ y) (hz : 0 < z) : |√y - √z| ≤ |y - z| / √z := by
  have hs : 0 < √z := Real.sqrt_pos.mpr hz
  rw [le_div_iff₀ hs]
  have h0 := Real.sqrt_nonneg y
  have q1 := Real.mul_self_sqrt hy
  have q2 := Real.mul_self_sqrt hz.le
  have e : y - z = (√y - √z) * (√y + √z) := by linear_combination q2 - q1
  rw [e, abs_mul, abs_of_nonneg (by positivity : 0 ≤ √y + √z)]
  gcongr
  linarith

omit [Zero V] [One V] [OfNat V 2] [OfNat V 3] [OfNat V 4] [Add V] [Sub V] [Mul V] [IntCast V] [Neg V] [Div V] in
/-- A sum of two terms, each with its errors. -/
theorem telescope {A B C X c R S T d1 d2 d3 d4 d5 : ℝ} (h1 : |A - (B + R)| ≤ d1) (h2 : |B - (X - C)| ≤ d2) (h3 : |X - c| ≤ d3) (h4 : |R - S| ≤ d4) (h5 : |S - T| ≤ d5) :
    |A - (c - C + T)| ≤ d1 + d2 + d3 + d4 + d5 := by
  rw [abs_le] at *
  constructor <;> linarith [h1.1, h1.2, h2.1, h2.2, h3.1, h3.2, h4.1, h4.2, h5.1, h5.2]

include hR hS hu0 hu

set_option maxHeartbeats 1000000 in
/-- The weight from a cosine that is off by nine units. -/
theorem cutoff_error (sqrt : V → V) (hq : RoundedSqrt val u sqrt) (x : V) (c : ℝ) (hx : |val x - c| ≤ 9 * u) (h0 : -1 ≤ c) (h1 : c ≤ 1) (ht : 100 * u < 1 - c) (n N : ℤ) :
    |val (cutoffAlpha (fun _ _ => x) sqrt n N) - (c - 1 + √(c * (c - 4) + 3))| ≤ 80 * u / √(1 - c) := by
  have hc : |c| ≤ 1 := abs_le.mpr ⟨h0, h1⟩
  have ox : Off val u c x 1 9 := ⟨hc, hx⟩
  have o1 : Off val u 1 (1 : V) 1 0 := ⟨by norm_num, by rw [hS.one]; norm_num⟩
  have o3 : Off val u 3 (3 : V) 3 0 := ⟨by norm_num, by rw [hS.three]; norm_num⟩
  have o4 : Off val u 4 (4 : V) 4 0 := ⟨by norm_num, by rw [hS.four]; norm_num⟩
  have a1 := ox.sub hR hu0 hu o4 (Z := 5) (E := 14.01) (by norm_num) le_rfl (by rw [abs_le]; constructor <;> linarith) (by norm_num)
  have hP : 0 ≤ c * (c - 4) + 3 := by nlinarith
  have hP8 : c * (c - 4) + 3 ≤ 8 := by nlinarith
  -- the product is a square, which is sharper than two factors that are off
  have t1 : |val (x - 4) - (c - 4)| ≤ 14.01 * u := a1.2
  have hX : |val x| ≤ 1.009 := by
    calc |val x| = |(val x - c) + c| := by ring_nf
      _ ≤ _ := abs_add_le _ _
      _ ≤ _ := by linarith
  have r1 := hR.sub x 4
  rw [hS.four] at r1
  have hX4 : |val x - 4| ≤ 5.009 := by
    rw [abs_le] at hX ⊢
    constructor <;> linarith [hX.1, hX.2]
  have r1' : |val (x - 4) - (val x - 4)| ≤ 5.009 * u := r1.trans (by nlinarith)
  have hT1 : |val (x - 4)| ≤ 5.0141 := by
    calc |val (x - 4)| = |(val (x - 4) - (val x - 4)) + (val x - 4)| := by ring_nf
      _ ≤ _ := abs_add_le _ _
      _ ≤ _ := by linarith
  have r2 := hR.mul x (x - 4)
  have r2' : |val (x * (x - 4)) - val x * (val x - 4)| ≤ 10.12 * u := by
    calc |val (x * (x - 4)) - val x * (val x - 4)| = |(val (x * (x - 4)) - val x * val (x - 4)) + val x * (val (x - 4) - (val x - 4))| := by ring_nf
      _ ≤ _ := abs_add_le _ _
      _ ≤ u * (1.009 * 5.0141) + 1.009 * (5.009 * u) := by
        rw [abs_mul] at r2
        rw [abs_mul (val x) (val (x - 4) - (val x - 4))]
        gcongr
        exact r2.trans (by gcongr)
      _ ≤ _ := by linarith
  have r3 : |val x * (val x - 4) - c * (c - 4)| ≤ 54.1 * u := by
    rw [show val x * (val x - 4) - c * (c - 4) = (val x - c) * (val x + c - 4) by ring, abs_mul]
    have : |val x + c - 4| ≤ 6.01 := by
      rw [abs_le] at hX ⊢
      constructor <;> linarith [hX.1, hX.2]
    calc _ ≤ 9 * u * 6.01 := by gcongr
      _ ≤ _ := by linarith
  have o2 : Off val u (c * (c - 4)) (x * (x - 4)) 5 64.22 := by
    refine ⟨by rw [abs_le]; constructor <;> nlinarith, ?_⟩
    calc _ = |(val (x * (x - 4)) - val x * (val x - 4)) + (val x * (val x - 4) - c * (c - 4))| := by ring_nf
      _ ≤ _ := abs_add_le _ _
      _ ≤ _ := by linarith
  have a3 := o2.add hR hu0 hu o3 (Z := 8) (E := 72.3) (by norm_num) le_rfl (by rw [abs_of_nonneg hP]; exact hP8) (by norm_num)
  obtain ⟨-, t3⟩ := a3
  -- the root
  have ht0 : 0 < 1 - c := by nlinarith
  have hPt : 2 * (1 - c) ≤ c * (c - 4) + 3 := by nlinarith
  have hP0 : 0 < c * (c - 4) + 3 := by linarith
  have hT3 : 0 ≤ val (x * (x - 4) + 3) := by
    have := (abs_le.mp t3).1
    nlinarith
  have hT3' : val (x * (x - 4) + 3) ≤ 8.1 := by
    have := (abs_le.mp t3).2
    nlinarith
  have s1 : |√(val (x * (x - 4) + 3)) - √(c * (c - 4) + 3)| ≤ 72.3 * u / √(c * (c - 4) + 3) := by
    exact (root_diff _ _ hT3 hP0).trans (by gcongr)
  have hst : 0 < √(1 - c) := Real.sqrt_pos.mpr ht0
  have s2 : 72.3 * u / √(c * (c - 4) + 3) ≤ 51.2 * u / √(1 - c) := by
    have hr : 1.4142 * √(1 - c) ≤ √(c * (c - 4) + 3) := by
      apply Real.le_sqrt_of_sq_le
      rw [mul_pow, Real.sq_sqrt ht0.le]
      nlinarith
    rw [div_le_div_iff₀ (Real.sqrt_pos.mpr hP0) hst]
    nlinarith [mul_nonneg hu0 hst.le]
  have s3 := hq _ hT3
  have hroot : √(val (x * (x - 4) + 3)) ≤ 2.85 := by
    apply Real.sqrt_le_iff.mpr
    constructor
    · norm_num
    · linarith
  -- the sum
  have r4 := hR.sub x 1
  rw [hS.one] at r4
  have hX1 : |val x - 1| ≤ 2.009 := by
    rw [abs_le] at hX ⊢
    constructor <;> linarith [hX.1, hX.2]
  have r4' : |val (x - 1) - (val x - 1)| ≤ 2.009 * u := r4.trans (by nlinarith)
  have s3' : |val (sqrt (x * (x - 4) + 3)) - √(val (x * (x - 4) + 3))| ≤ 2.85 * u := s3.trans (by nlinarith)
  have r5 := hR.add (x - 1) (sqrt (x * (x - 4) + 3))
  have hsum : |val (x - 1) + val (sqrt (x * (x - 4) + 3))| ≤ 4.9 := by
    calc _ = |(val (x - 1) - (val x - 1)) + (val x - 1) + ((val (sqrt (x * (x - 4) + 3)) - √(val (x * (x - 4) + 3))) + √(val (x * (x - 4) + 3)))| := by ring_nf
      _ ≤ |(val (x - 1) - (val x - 1)) + (val x - 1)| + |(val (sqrt (x * (x - 4) + 3)) - √(val (x * (x - 4) + 3))) + √(val (x * (x - 4) + 3))| := abs_add_le _ _
      _ ≤ (2.009 * u + 2.009) + (2.85 * u + 2.85) := by
        refine add_le_add ((abs_add_le _ _).trans (add_le_add r4' hX1)) ((abs_add_le _ _).trans (add_le_add s3' ?_))
        rw [abs_of_nonneg (Real.sqrt_nonneg _)]
        exact hroot
      _ ≤ _ := by linarith
  have hsmall : u ≤ 1.4143 * u / √(1 - c) := by
    rw [le_div_iff₀ hst]
    have : √(1 - c) ≤ 1.4143 := by
      apply Real.sqrt_le_iff.mpr
      constructor
      · norm_num
      · linarith
    nlinarith
  show |val (x - 1 + sqrt (x * (x - 4) + 3)) - (c - 1 + √(c * (c - 4) + 3))| ≤ _
  have r5' := r5.trans (mul_le_mul_of_nonneg_left hsum hu0)
  have fin := telescope r5' r4' hx s3' (s1.trans s2)
  calc _ ≤ u * 4.9 + 2.009 * u + 9 * u + 2.85 * u + 51.2 * u / √(1 - c) := fin
    _ ≤ 18.8 * (1.4143 * u / √(1 - c)) + 51.2 * u / √(1 - c) := by linarith
    _ = 77.78884 * u / √(1 - c) := by ring
    _ ≤ _ := by
      gcongr
      norm_num

end EMA

namespace Biquad

/-- Coefficients within `D` of others. -/
structure Close {E : Type} (val : V → ℝ) (D : ℝ) (f : Biquad V E) (g : Normalised) : Prop where
  b0 : |val f.b0a0 - g.b0| ≤ D
  b1 : |val f.b1a0 - g.b1| ≤ D
  b2 : |val f.b2a0 - g.b2| ≤ D
  a1 : |val f.a1a0 - g.a1| ≤ D
  a2 : |val f.a2a0 - g.a2| ≤ D

/-- Calls the member function. -/
def made {E : Type} (sin cos : ℤ → ℤ → V) (idecibel : V → V) (f : Biquad V E) (k : Kind) (n N : ℤ) (q : V) : Biquad V E :=
  match k with
  | .lowpass => f.lowpass sin cos n N q
  | .highpass => f.highpass sin cos n N q
  | .notch => f.notch sin cos idecibel n N q
  | .bandpass => f.bandpass sin cos idecibel n N q
  | .allpass => f.allpass sin cos idecibel n N q

omit [Zero V] [One V] [OfNat V 2] [OfNat V 3] [OfNat V 4] [Add V] [Sub V] [Mul V] [IntCast V] [Neg V] [Div V] in
/-- The last parameter is the quality itself for the first two, in decibels for the others. -/
def quality (idecibel : V → V) (k : Kind) (q : V) : V :=
  match k with
  | .lowpass => q
  | .highpass => q
  | _ => idecibel q

include hR hS hu0 hu

/-- The quotient of the sine and twice the quality. -/
theorem alpha_off (sn Q : V) (s : ℝ) (hs : |val sn - s| ≤ 9 * u) (h0 : 0 ≤ s) (h1 : s ≤ 1) (hQ : 1 / 4 ≤ val Q) : Off val u (s / (2 * val Q)) (sn / (2 * Q)) 2 22.3 := by
  have hm := hR.mul 2 Q
  rw [hS.two, abs_of_pos (by linarith : 0 < 2 * val Q)] at hm
  have hq0 : 0.999 * (2 * val Q) ≤ val (2 * Q) := by
    have := (abs_le.mp hm).1
    nlinarith
  have hq : 0 < val (2 * Q) := by linarith
  have hd := hR.div sn (2 * Q) hq.ne'
  have hA : s / (2 * val Q) ≤ 2 := by
    rw [div_le_iff₀ (by linarith)]
    linarith
  have hA0 : 0 ≤ s / (2 * val Q) := div_nonneg h0 (by linarith)
  have hAQ : s / (2 * val Q) * (2 * val Q) = s := div_mul_cancel₀ _ (by linarith)
  have e : |val sn / val (2 * Q) - s / (2 * val Q)| ≤ 20.03 * u := by
    have eq : val sn / val (2 * Q) - s / (2 * val Q) = ((val sn - s) + s / (2 * val Q) * (2 * val Q - val (2 * Q))) / val (2 * Q) := by
      have := hq.ne'
      have : val Q ≠ 0 := by linarith
      field_simp
      ring
    rw [eq, abs_div, abs_of_pos hq, div_le_iff₀ hq]
    calc _ ≤ |val sn - s| + |s / (2 * val Q) * (2 * val Q - val (2 * Q))| := abs_add_le _ _
      _ ≤ 9 * u + s / (2 * val Q) * (u * (2 * val Q)) := by
        rw [abs_mul, abs_of_nonneg hA0, abs_sub_comm (2 * val Q)]
        gcongr
      _ = 9 * u + s * u := by rw [show s / (2 * val Q) * (u * (2 * val Q)) = s / (2 * val Q) * (2 * val Q) * u by ring, hAQ]
      _ ≤ 20.03 * u * (0.999 * (2 * val Q)) := by nlinarith [mul_nonneg hu0 (by linarith : 0 ≤ 2 * val Q - 1 / 2)]
      _ ≤ _ := by gcongr
  refine ⟨by rw [abs_of_nonneg hA0]; exact hA, ?_⟩
  have hb : |val sn / val (2 * Q)| ≤ 2.0201 := by
    calc _ = |(val sn / val (2 * Q) - s / (2 * val Q)) + s / (2 * val Q)| := by ring_nf
      _ ≤ _ := abs_add_le _ _
      _ ≤ _ := by rw [abs_of_nonneg hA0]; linarith
  calc |val (sn / (2 * Q)) - s / (2 * val Q)| = |(val (sn / (2 * Q)) - val sn / val (2 * Q)) + (val sn / val (2 * Q) - s / (2 * val Q))| := by ring_nf
    _ ≤ _ := abs_add_le _ _
    _ ≤ u * 2.0201 + 20.03 * u := add_le_add (hd.trans (by gcongr)) e
    _ ≤ _ := by linarith

/-- Half of something. -/
theorem half_off (a : V) (x : ℝ) (h : Off val u x a 2 11.1) : Off val u (x / 2) (a / 2) 1 6.7 := by
  have hd := hR.div a 2 (by rw [hS.two]; norm_num)
  rw [hS.two] at hd
  obtain ⟨h1, h2⟩ := h
  refine ⟨by rw [abs_div, abs_two]; linarith, ?_⟩
  have hb : |val a / 2| ≤ 1.006 := by
    have a1 := abs_le.mp h2
    have a2 := abs_le.mp h1
    rw [abs_le]
    constructor <;> linarith
  calc |val (a / 2) - x / 2| = |(val (a / 2) - val a / 2) + (val a - x) / 2| := by ring_nf
    _ ≤ _ := abs_add_le _ _
    _ ≤ u * 1.006 + 11.1 * u / 2 := by
      refine add_le_add (hd.trans (by gcongr)) ?_
      rw [abs_div, abs_two]
      gcongr
    _ ≤ _ := by linarith

omit [One V] [OfNat V 2] [OfNat V 3] [OfNat V 4] hS in
/-- The division by `a0`. -/
theorem quotient (n d : V) (x y : ℝ) (X e : ℝ) (hd : Off val u y d 3 25.4) (hy : 1 ≤ y) (hn : Off val u x n X e) (he0 : 0 ≤ e) (he : e ≤ 25.4) (hX : |x| ≤ 2 * y) :
    |val (n / d) - x / y| ≤ 85 * u := by
  have hZ : |x / y| ≤ 2 := by
    rw [abs_div, abs_of_pos (by linarith : 0 < y), div_le_iff₀ (by linarith)]
    exact hX
  refine (hn.div hR hu0 hu hd (Z := 2) (E := 85) he0 (by norm_num) (by norm_num) hy hZ ?_).2
  rw [← le_sub_iff_add_le, ← le_div_iff₀' (by norm_num), div_le_iff₀ (by norm_num)]
  linarith

/-- The designs, from the errors of the cosine and of `alpha`. -/
theorem made_close {E : Type} (f : Biquad V E) (k : Kind) (cn a : V) (c A : ℝ) (hc : |val cn - c| ≤ 9 * u) (hc1 : |c| ≤ 1) (hA0 : 0 ≤ A) (oA : Off val u A a 2 22.3) :
    let n : ℝ × ℝ × ℝ := match k with
      | .lowpass => ((1 - c) / 2, 1 - c, (1 - c) / 2)
      | .highpass => ((1 + c) / 2, -(1 + c), (1 + c) / 2)
      | .notch => (1, -2 * c, 1)
      | .bandpass => (A, 0, -A)
      | .allpass => (1 - A, -2 * c, 1 + A)
    let m : V × V × V := match k with
      | .lowpass => ((1 - cn) / 2, 1 - cn, (1 - cn) / 2)
      | .highpass => ((1 + cn) / 2, -(1 + cn), (1 + cn) / 2)
      | .notch => (1, -2 * cn, 1)
      | .bandpass => (a, 0, -a)
      | .allpass => (1 - a, -2 * cn, 1 + a)
    Close val (85 * u) (f.set m.1 m.2.1 m.2.2 (1 + a) (-2 * cn) (1 - a)) ⟨n.1 / (1 + A), n.2.1 / (1 + A), n.2.2 / (1 + A), -2 * c / (1 + A), (1 - A) / (1 + A)⟩ := by
  have oc : Off val u c cn 1 9 := ⟨hc1, hc⟩
  have o0 : Off val u 0 (0 : V) 0 0 := ⟨by norm_num, by rw [hR.zero]; norm_num⟩
  have o1 : Off val u 1 (1 : V) 1 0 := ⟨by norm_num, by rw [hS.one]; norm_num⟩
  have o2 : Off val u 2 (2 : V) 2 0 := ⟨by norm_num, by rw [hS.two]; norm_num⟩
  have hc' := abs_le.mp hc1
  have hA' := (abs_le.mp oA.1).2
  have m := o1.sub hR hu0 hu oc (Z := 2) (E := 11.1) le_rfl (by norm_num) (by rw [abs_le]; constructor <;> linarith) (by norm_num)
  have p := o1.add hR hu0 hu oc (Z := 2) (E := 11.1) le_rfl (by norm_num) (by rw [abs_le]; constructor <;> linarith) (by norm_num)
  have d : Off val u (1 + A) (1 + a) 3 25.4 := o1.add hR hu0 hu oA le_rfl (by norm_num) (by rw [abs_le]; constructor <;> linarith) (by norm_num)
  have e : Off val u (1 - A) (1 - a) 1 23.4 := o1.sub hR hu0 hu oA le_rfl (by norm_num) (by rw [abs_le]; constructor <;> linarith) (by norm_num)
  have t : Off val u (-2 * c) (-2 * cn) (2 * 1) 20.1 := (o2.neg hR).mul hR hu0 hu oc (E := 20.1) (by norm_num) (by norm_num) (by norm_num)
  have hm := half_off hR hS hu0 hu _ _ m
  have hp := half_off hR hS hu0 hu _ _ p
  have hd1 : 1 ≤ 1 + A := by linarith
  have q := quotient hR hu0 hu
  have bt : |-2 * c| ≤ 2 * (1 + A) := by rw [abs_le]; constructor <;> linarith
  have be : |1 - A| ≤ 2 * (1 + A) := by rw [abs_le]; constructor <;> linarith
  have bm : |1 - c| ≤ 2 * (1 + A) := by rw [abs_le]; constructor <;> linarith
  have bp : |1 + c| ≤ 2 * (1 + A) := by rw [abs_le]; constructor <;> linarith
  have bm2 : |(1 - c) / 2| ≤ 2 * (1 + A) := by rw [abs_le]; constructor <;> linarith
  have bp2 : |(1 + c) / 2| ≤ 2 * (1 + A) := by rw [abs_le]; constructor <;> linarith
  have bA : |A| ≤ 2 * (1 + A) := by rw [abs_le]; constructor <;> linarith
  have b1 : |(1 : ℝ)| ≤ 2 * (1 + A) := by rw [abs_le]; constructor <;> linarith
  have b0 : |(0 : ℝ)| ≤ 2 * (1 + A) := by rw [abs_le]; constructor <;> linarith
  have bd : |1 + A| ≤ 2 * (1 + A) := by rw [abs_le]; constructor <;> linarith
  have r1 := q _ _ _ _ _ _ d hd1 t (by norm_num) (by norm_num) bt
  have r2 := q _ _ _ _ _ _ d hd1 e (by norm_num) (by norm_num) be
  cases k with
  | lowpass => exact ⟨q _ _ _ _ _ _ d hd1 hm (by norm_num) (by norm_num) bm2, q _ _ _ _ _ _ d hd1 m (by norm_num) (by norm_num) bm,
      q _ _ _ _ _ _ d hd1 hm (by norm_num) (by norm_num) bm2, r1, r2⟩
  | highpass => exact ⟨q _ _ _ _ _ _ d hd1 hp (by norm_num) (by norm_num) bp2, q _ _ _ _ _ _ d hd1 (p.neg hR) (by norm_num) (by norm_num) (by rw [abs_neg]; exact bp),
      q _ _ _ _ _ _ d hd1 hp (by norm_num) (by norm_num) bp2, r1, r2⟩
  | notch => exact ⟨q _ _ _ _ _ _ d hd1 o1 (by norm_num) (by norm_num) b1, r1, q _ _ _ _ _ _ d hd1 o1 (by norm_num) (by norm_num) b1, r1, r2⟩
  | bandpass => exact ⟨q _ _ _ _ _ _ d hd1 oA (by norm_num) (by norm_num) bA, q _ _ _ _ _ _ d hd1 o0 (by norm_num) (by norm_num) b0,
      q _ _ _ _ _ _ d hd1 (oA.neg hR) (by norm_num) (by norm_num) (by rw [abs_neg]; exact bA), r1, r2⟩
  | allpass => exact ⟨r2, r1, q _ _ _ _ _ _ d hd1 d (by norm_num) (by norm_num) bd, r1, r2⟩

end Biquad

/-- Sine and cosine within nine units, for up to half a turn. -/
def GoodCircle {V : Type} (val : V → ℝ) (u : ℝ) (sin cos : ℤ → ℤ → V) : Prop :=
  ∀ n N : ℤ, 0 ≤ n → 2 * n ≤ N → 1 ≤ N → N ≤ 268435455 → |val (sin n N) - Real.sin (2 * Real.pi * n / N)| ≤ 9 * u ∧ |val (cos n N) - Real.cos (2 * Real.pi * n / N)| ≤ 9 * u

omit [Zero V] [One V] [OfNat V 2] [OfNat V 3] [OfNat V 4] [Add V] [Sub V] [Mul V] [IntCast V] [Neg V] [Div V] in
theorem half_turn (n N : ℤ) (h0 : 0 ≤ n) (h2 : 2 * n ≤ N) (h1 : 1 ≤ N) : 0 ≤ Real.sin (2 * Real.pi * n / N) := by
  have hN : (0 : ℝ) < N := by exact_mod_cast h1
  have hn : (0 : ℝ) ≤ n := by exact_mod_cast h0
  have h2' : 2 * (n : ℝ) ≤ N := by exact_mod_cast h2
  have hpi := Real.pi_pos
  refine Real.sin_nonneg_of_nonneg_of_le_pi (by positivity) ?_
  rw [div_le_iff₀ hN]
  nlinarith

variable {sin cos : ℤ → ℤ → V} (hg : GoodCircle val u sin cos)

namespace EMA

include hR hS hu0 hu hg

/-- **C75** The weight of `cutoff` in rounded arithmetic: as long as `1 - cos` is not itself lost in the errors, it is within `80 u / √(1 - cos)` of the one with the cutoff at `n / N`. -/
theorem C75_cutoff {E : Type} (sqrt : V → V) (hq : RoundedSqrt val u sqrt) (e : EMA V E) (n N : ℤ) (h0 : 0 ≤ n) (h2 : 2 * n ≤ N) (h1 : 1 ≤ N) (hN : N ≤ 268435455)
    (ht : 100 * u < 1 - Real.cos (2 * Real.pi * n / N)) :
    let c := Real.cos (2 * Real.pi * n / N)
    |val (e.cutoff cos sqrt n N).alpha - (c - 1 + √(c * (c - 4) + 3))| ≤ 80 * u / √(1 - c) :=
  cutoff_error hR hS hu0 hu sqrt hq (cos n N) _ (hg n N h0 h2 h1 hN).2 (Real.neg_one_le_cos _) (Real.cos_le_one _) ht n N

end EMA

namespace Biquad

include hR hS hu0 hu hg

/-- **C75** All designs in rounded arithmetic: each of the five coefficients is within `85` units of what the cookbook says for that frequency and the given machine number as the quality. -/
theorem C75_designs {E : Type} (idecibel : V → V) (f : Biquad V E) (k : Kind) (n N : ℤ) (h0 : 0 ≤ n) (h2 : 2 * n ≤ N) (h1 : 1 ≤ N) (hN : N ≤ 268435455) (q : V)
    (hQ : 1 / 4 ≤ val (quality idecibel k q)) : Close val (85 * u) (made sin cos idecibel f k n N q) (cookbook k (2 * Real.pi * n / N) (val (quality idecibel k q))) := by
  obtain ⟨hs, hc⟩ := hg n N h0 h2 h1 hN
  have hs0 := half_turn n N h0 h2 h1
  have oA := alpha_off hR hS hu0 hu (sin n N) _ _ hs hs0 (Real.sin_le_one _) hQ
  have := made_close hR hS hu0 hu f k _ _ _ _ hc (Real.abs_cos_le_one _) (div_nonneg hs0 (by linarith)) oA
  cases k <;> exact this

/-- **C75** If both the bandwidth and the frequency are not lost in the errors, then the poles of the rounded filter are inside of the unit circle. -/
theorem C75_stable {E : Type} (idecibel : V → V) (f : Biquad V E) (k : Kind) (n N : ℤ) (h0 : 0 ≤ n) (h2 : 2 * n ≤ N) (h1 : 1 ≤ N) (hN : N ≤ 268435455) (q : V)
    (hQ : 1 / 4 ≤ val (quality idecibel k q)) (hb : 130 * u < Real.sin (2 * Real.pi * n / N) / (2 * val (quality idecibel k q)))
    (hf : 260 * u < 1 - |Real.cos (2 * Real.pi * n / N)|) (z : ℂ)
    (hz : z ^ 2 + val (made sin cos idecibel f k n N q).a1a0 * z + val (made sin cos idecibel f k n N q).a2a0 = 0) : ‖z‖ < 1 := by
  obtain ⟨-, -, -, r1, r2⟩ := C75_designs hR hS hu0 hu hg idecibel f k n N h0 h2 h1 hN q hQ
  generalize hs : Real.sin (2 * Real.pi * n / N) / (2 * val (quality idecibel k q)) = A at *
  have e1 : (cookbook k (2 * Real.pi * n / N) (val (quality idecibel k q))).a1 = -2 * Real.cos (2 * Real.pi * n / N) / (1 + A) := by rw [← hs]; rfl
  have e2 : (cookbook k (2 * Real.pi * n / N) (val (quality idecibel k q))).a2 = (1 - A) / (1 + A) := by rw [← hs]; rfl
  rw [e1] at r1
  rw [e2] at r2
  have hA2 : A ≤ 2 := by
    rw [← hs, div_le_iff₀ (by linarith)]
    linarith [Real.sin_le_one (2 * Real.pi * n / N)]
  have hA0 : 0 < 1 + A := by nlinarith
  generalize Real.cos (2 * Real.pi * n / N) = c at *
  have f2 : 1 - (1 - A) / (1 + A) = 2 * A / (1 + A) := by field_simp; ring
  have f3 : 1 + (1 - A) / (1 + A) = 2 / (1 + A) := by field_simp; ring
  have g2 : 85 * u < 2 * A / (1 + A) := by
    rw [lt_div_iff₀ hA0]
    nlinarith
  have g1 : 170 * u < 2 / (1 + A) - |-2 * c / (1 + A)| := by
    rw [abs_div, abs_of_pos hA0, ← sub_div, lt_div_iff₀ hA0, abs_mul, abs_neg, abs_two]
    nlinarith
  refine jury _ _ ?_ ?_ z hz
  · linarith [(abs_le.mp r2).2]
  · have t1 : |val (made sin cos idecibel f k n N q).a1a0| ≤ 85 * u + |-2 * c / (1 + A)| := by
      calc _ = |(val (made sin cos idecibel f k n N q).a1a0 - -2 * c / (1 + A)) + -2 * c / (1 + A)| := by ring_nf
        _ ≤ _ := abs_add_le _ _
        _ ≤ _ := by linarith
    linarith [(abs_le.mp r2).1]

end Biquad

namespace BiquadCascade

omit [One V] [OfNat V 2] [OfNat V 3] [OfNat V 4] [Zero V] [Add V] [Sub V] [Mul V] [IntCast V] [Neg V] [Div V] in
/-- Four rounded operations that cancel in pairs. -/
theorem four_roundings {u S C m1 q m2 a : ℝ} (hu0 : 0 ≤ u) (hu : u ≤ 1 / 1000) (hC : 0 < C) (h1 : |m1 - 2 * C| ≤ u * (2 * C)) (h2 : |q - 1 / m1| ≤ u * |1 / m1|) (h3 : |m2 - 2 * q| ≤ u * |2 * q|)
    (h4 : |a - S / m2| ≤ u * |S / m2|) : |a - S * C| ≤ 4.05 * u * (|S| * C) := by
  have hm1 : 0 < m1 := by nlinarith [(abs_le.mp h1).1]
  have hi : 0 < 1 / m1 := by positivity
  rw [abs_of_pos hi] at h2
  have hq : 0 < q := by nlinarith [(abs_le.mp h2).1]
  rw [abs_of_pos (by linarith : 0 < 2 * q)] at h3
  have hm2 : 0 < m2 := by nlinarith [(abs_le.mp h3).1]
  -- `m2 * C` is close to one
  have b1 : |m1 * (1 / (2 * C)) - 1| ≤ u := by
    rw [show m1 * (1 / (2 * C)) - 1 = (m1 - 2 * C) / (2 * C) by field_simp, abs_div, abs_of_pos (by linarith : 0 < 2 * C), div_le_iff₀ (by linarith)]
    exact h1
  have b2 : |q * m1 - 1| ≤ u := by
    rw [show q * m1 - 1 = (q - 1 / m1) * m1 by field_simp, abs_mul, abs_of_pos hm1]
    calc _ ≤ u * (1 / m1) * m1 := by gcongr
      _ = u := by field_simp
  have b3 : |m2 / (2 * q) - 1| ≤ u := by
    rw [show m2 / (2 * q) - 1 = (m2 - 2 * q) / (2 * q) by field_simp, abs_div, abs_of_pos (by linarith : 0 < 2 * q), div_le_iff₀ (by linarith)]
    exact h3
  have key : m2 * C * (m1 * (1 / (2 * C))) = m2 / (2 * q) * (q * m1) := by field_simp
  generalize hx : m1 * (1 / (2 * C)) = x at *
  generalize hy : q * m1 = y at *
  generalize hw : m2 / (2 * q) = w at *
  rw [abs_le] at b1 b2 b3
  have k : |m2 * C - 1| ≤ 3.01 * u := by
    have hx0 : 0 < x := by linarith
    have : m2 * C - 1 = (w * y - x) / x := by
      rw [eq_div_iff hx0.ne']
      linear_combination key
    rw [this, abs_div, abs_of_pos hx0, div_le_iff₀ hx0, abs_le]
    constructor <;> nlinarith
  have hk : 0.996 ≤ m2 * C := by nlinarith [(abs_le.mp k).1]
  have s1 : |S / m2 - S * C| ≤ 3.01 * u * |S / m2| := by
    rw [show S / m2 - S * C = -(S / m2 * (m2 * C - 1)) by field_simp; ring, abs_neg, abs_mul]
    calc _ ≤ |S / m2| * (3.01 * u) := by gcongr
      _ = _ := by ring
  have s2 : |S / m2| ≤ 1.0041 * (|S| * C) := by
    rw [abs_div, abs_of_pos hm2, div_le_iff₀ hm2]
    have := abs_nonneg S
    nlinarith
  have hSC : 0 ≤ |S| * C := by positivity
  calc |a - S * C| = |(a - S / m2) + (S / m2 - S * C)| := by ring_nf
    _ ≤ _ := abs_add_le _ _
    _ ≤ u * (1.0041 * (|S| * C)) + 3.01 * u * (1.0041 * (|S| * C)) := add_le_add (h4.trans (by gcongr)) (s1.trans (by gcongr))
    _ ≤ _ := by nlinarith [mul_nonneg hu0 hSC]

include hR hS hu0 hu

/-- The quotient of the sine and twice the quality, if that is one by twice a cosine. -/
theorem alpha_off (sn cm : V) (s c : ℝ) (hs : |val sn - s| ≤ 9 * u) (h0 : 0 ≤ s) (h1 : s ≤ 1) (hc : |val cm - c| ≤ 9 * u) (hc0 : 9 * u < c) (hc1 : c ≤ 1) :
    Off val u (s / (2 * (1 / (2 * c)))) (sn / (2 * (1 / (2 * cm)))) 2 22.3 := by
  have hcp : 0 < c := by nlinarith
  have hC : 0 < val cm := by linarith [(abs_le.mp hc).1]
  have hC1 : val cm ≤ 1.009 := by linarith [(abs_le.mp hc).2]
  have hS1 : |val sn| ≤ 1.009 := by
    have := abs_le.mp hs
    rw [abs_le]
    constructor <;> linarith
  have e1 := hR.mul 2 cm
  rw [hS.two, abs_of_pos (by linarith : 0 < 2 * val cm)] at e1
  have hm1 : 0 < val (2 * cm) := by nlinarith [(abs_le.mp e1).1]
  have e2 := hR.div 1 (2 * cm) hm1.ne'
  rw [hS.one] at e2
  have hi : 0 < 1 / val (2 * cm) := by positivity
  have hq : 0 < val (1 / (2 * cm)) := by
    rw [abs_of_pos hi] at e2
    nlinarith [(abs_le.mp e2).1]
  have e3 := hR.mul 2 (1 / (2 * cm))
  rw [hS.two] at e3
  have hm2 : 0 < val (2 * (1 / (2 * cm))) := by
    rw [abs_of_pos (by linarith : 0 < 2 * val (1 / (2 * cm)))] at e3
    nlinarith [(abs_le.mp e3).1]
  have e4 := hR.div sn (2 * (1 / (2 * cm))) hm2.ne'
  have f := four_roundings hu0 hu hC e1 e2 e3 e4
  have eq : s / (2 * (1 / (2 * c))) = s * c := by field_simp
  rw [eq]
  refine ⟨by rw [abs_of_nonneg (by positivity)]; nlinarith, ?_⟩
  have g : |val sn * val cm - s * c| ≤ 18.081 * u := by
    calc _ = |(val sn - s) * val cm + s * (val cm - c)| := by ring_nf
      _ ≤ |val sn - s| * val cm + s * |val cm - c| := by
        refine (abs_add_le _ _).trans ?_
        rw [abs_mul, abs_mul, abs_of_pos hC, abs_of_nonneg h0]
      _ ≤ 9 * u * 1.009 + 1 * (9 * u) := by gcongr
      _ = _ := by ring
  have g2 : 4.05 * u * (|val sn| * val cm) ≤ 4.05 * u * (1.009 * 1.009) := by gcongr
  calc _ = |(val (sn / (2 * (1 / (2 * cm)))) - val sn * val cm) + (val sn * val cm - s * c)| := by ring_nf
    _ ≤ _ := abs_add_le _ _
    _ ≤ _ := by linarith

include hg

omit [One V] [OfNat V 2] [OfNat V 3] [OfNat V 4] [Zero V] [Add V] [Sub V] [Mul V] [IntCast V] [Neg V] [Div V] hR hS hu0 hu in
/-- The cosines of the sections. -/
theorem section_cos (len i : ℕ) (hi : i < len) (hl : 18 * len * u < 1) (hlen : 8 * len ≤ 268435455) :
    |val (cos (2 * i + 1) (4 * (2 * len))) - Real.cos ((2 * i + 1) * Real.pi / (4 * len))| ≤ 9 * u ∧ 9 * u < Real.cos ((2 * i + 1) * Real.pi / (4 * len)) := by
  have hlen0 : (0 : ℝ) < len := by exact_mod_cast (by omega : 0 < len)
  have hpi := Real.pi_pos
  constructor
  · have := (hg (2 * i + 1) (4 * (2 * len)) (by omega) (by omega) (by omega) (by omega)).2
    convert this using 4
    push_cast
    field_simp
  · have hi' : (i : ℝ) + 1 ≤ len := by exact_mod_cast hi
    have hx : Real.cos ((2 * i + 1) * Real.pi / (4 * len)) = Real.sin (Real.pi / 2 - (2 * i + 1) * Real.pi / (4 * len)) := (Real.sin_pi_div_two_sub _).symm
    have hy : Real.pi / (4 * len) ≤ Real.pi / 2 - (2 * i + 1) * Real.pi / (4 * len) := by
      rw [le_sub_iff_add_le, ← add_div, div_le_div_iff₀ (by positivity) (by norm_num)]
      nlinarith
    have hz : Real.pi / 2 - (2 * i + 1) * Real.pi / (4 * len) ≤ Real.pi / 2 := by
      have : 0 ≤ (2 * (i : ℝ) + 1) * Real.pi / (4 * len) := by positivity
      linarith
    have hy0 : 0 < Real.pi / (4 * len) := by positivity
    have := Real.mul_le_sin (by linarith : 0 ≤ Real.pi / 2 - (2 * i + 1) * Real.pi / (4 * len)) hz
    rw [hx]
    calc 9 * u < 1 / (2 * len) := by
          rw [lt_div_iff₀ (by positivity)]
          linarith
      _ = 2 / Real.pi * (Real.pi / (4 * len)) := by field_simp; norm_num
      _ ≤ 2 / Real.pi * (Real.pi / 2 - (2 * i + 1) * Real.pi / (4 * len)) := by gcongr
      _ ≤ _ := this

/-- **C75** The sections of the cascades are within `85` units of those of the Butterworth filter of that order. -/
theorem C75_butterworth {E : Type} (c : BiquadCascade V E) (n N : ℤ) (h0 : 0 ≤ n) (h2 : 2 * n ≤ N) (h1 : 1 ≤ N) (hN : N ≤ 268435455) (hl : 18 * c.length * u < 1)
    (hlen : 8 * c.length ≤ 268435455) (i : ℕ) (hi : i < c.length) :
    (∃ f, (c.lowpass sin cos n N)[i]? = some f ∧ Biquad.Close val (85 * u) f (cookbook .lowpass (2 * Real.pi * n / N) (1 / (2 * Real.cos ((2 * i + 1) * Real.pi / (4 * c.length)))))) ∧
    ∃ f, (c.highpass sin cos n N)[i]? = some f ∧ Biquad.Close val (85 * u) f (cookbook .highpass (2 * Real.pi * n / N) (1 / (2 * Real.cos ((2 * i + 1) * Real.pi / (4 * c.length))))) := by
  obtain ⟨hs, hc⟩ := hg n N h0 h2 h1 hN
  obtain ⟨r1, r2⟩ := section_cos hg c.length i hi hl hlen
  have hs0 := half_turn n N h0 h2 h1
  have oA := alpha_off hR hS hu0 hu (sin n N) _ _ _ hs hs0 (Real.sin_le_one _) r1 r2 (Real.cos_le_one _)
  have hq : 0 < Real.cos ((2 * i + 1) * Real.pi / (4 * c.length)) := by nlinarith
  have hA0 : 0 ≤ Real.sin (2 * Real.pi * n / N) / (2 * (1 / (2 * Real.cos ((2 * i + 1) * Real.pi / (4 * c.length))))) := by positivity
  constructor
  · refine ⟨_, by rw [lowpass, List.getElem?_mapIdx, List.getElem?_eq_getElem hi]; rfl, ?_⟩
    exact Biquad.made_close hR hS hu0 hu _ .lowpass _ _ _ _ hc (Real.abs_cos_le_one _) hA0 oA
  · refine ⟨_, by rw [highpass, List.getElem?_mapIdx, List.getElem?_eq_getElem hi]; rfl, ?_⟩
    exact Biquad.made_close hR hS hu0 hu _ .highpass _ _ _ _ hc (Real.abs_cos_le_one _) hA0 oA

end BiquadCascade

end

end DSP
