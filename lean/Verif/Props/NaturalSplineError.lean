import Verif.Model.SplineRounded
import Verif.Props.NaturalSpline
import Verif.Props.FirError
import Verif.Lemmas.BinaryMono

/-!
# Natural cubic spline in floating point (C90)
-/

namespace DSP
namespace NaturalSpline

open Spec

/-- One more rounding: the error so far is `e`, the size `b`, both in units. -/
theorem round_step {u M e b a z r : ℝ} (e' : ℝ) (hu0 : 0 ≤ u) (hu : u ≤ 1 / 1000) (hM : 0 ≤ M) (he : 0 ≤ e) (h : |a - z| ≤ e * (u * M)) (hz : |z| ≤ b * M) (hr : |r - a| ≤ u * |a|)
    (he' : e + b + e / 1000 ≤ e') : |r - z| ≤ e' * (u * M) := by
  have hA : |a| ≤ b * M + e * (u * M) := by
    have := abs_sub_abs_le_abs_sub a z
    linarith
  have h1 : |r - z| ≤ |r - a| + |a - z| := abs_sub_le _ _ _
  have h2 : u * |a| ≤ u * (b * M + e * (u * M)) := mul_le_mul_of_nonneg_left hA hu0
  have h3 : u * (e * (u * M)) ≤ 1 / 1000 * (e * (u * M)) := mul_le_mul_of_nonneg_right hu (by positivity)
  have h4 : (e + b + e / 1000) * (u * M) ≤ e' * (u * M) := mul_le_mul_of_nonneg_right he' (by positivity)
  calc _ ≤ u * (b * M + e * (u * M)) + e * (u * M) := by linarith
    _ ≤ (e + b + e / 1000) * (u * M) := by linarith
    _ ≤ _ := h4

theorem us_small (i : ℕ) : us i ≤ 0.27 := by
  induction i with
  | zero => simp [us]; norm_num
  | succ i ih =>
    have := us_bounds i
    simp only [us]
    rw [div_le_iff₀ (by linarith)]
    linarith

/-- One step of Horner's scheme: multiply by the offset, add a coefficient. -/
theorem horner_step {u N T e b t t0 v v0 : ℝ} (hu0 : 0 ≤ u) (hu : u ≤ 1 / 1000) (hT : 0 ≤ T) (ht : |t - t0| ≤ u * |t0|) (ht0 : |t0| ≤ T) (h : |v - v0| ≤ e * (u * N))
    (hv : |v0| ≤ b * N) : |t * v - t0 * v0| ≤ (1.001 * e + b) * (u * (N * T)) ∧ |t0 * v0| ≤ b * (N * T) := by
  have h1 : |t| ≤ 1.001 * T := by
    have h1 := abs_sub_abs_le_abs_sub t t0
    have h2 : u * |t0| ≤ 1 / 1000 * T := mul_le_mul hu ht0 (abs_nonneg _) (by norm_num)
    linarith
  constructor
  · rw [show t * v - t0 * v0 = t * (v - v0) + (t - t0) * v0 by ring]
    refine (abs_add_le _ _).trans ?_
    rw [abs_mul, abs_mul]
    have t1 : |t| * |v - v0| ≤ 1.001 * T * (e * (u * N)) := mul_le_mul h1 h (abs_nonneg _) (by positivity)
    have t2 : |t - t0| * |v0| ≤ u * T * (b * N) := mul_le_mul (ht.trans (mul_le_mul_of_nonneg_left ht0 hu0)) hv (abs_nonneg _) (by positivity)
    linarith
  · rw [abs_mul]
    exact (mul_le_mul ht0 hv (abs_nonneg _) hT).trans (le_of_eq (by ring))

variable (p : ℕ) [NeZero p]

/-- The recursions as computed. -/
def ub : ℕ → Binary p
  | 0 => ((0 : ℤ) : Binary p)
  | i + 1 => ((1 : ℤ) : Binary p) / (((4 : ℤ) : Binary p) - ub i)

def zb (y : ℕ → Binary p) : ℕ → Binary p
  | 0 => ((0 : ℤ) : Binary p)
  | i + 1 => (((3 : ℤ) : Binary p) * (y (i + 2) - ((2 : ℤ) : Binary p) * y (i + 1) + y i) - zb y i) / (((4 : ℤ) : Binary p) - ub p i)

def crb (y : ℕ → Binary p) (K : ℕ) : ℕ → Binary p
  | 0 => ((0 : ℤ) : Binary p)
  | j + 1 => zb p y (K - 2 - j) - ub p (K - 2 - j) * crb y K j

def cb (y : ℕ → Binary p) (K i : ℕ) : Binary p := crb p y K (K - 1 - i)

def bb (y : ℕ → Binary p) (K k : ℕ) : Binary p := y (k + 1) - y k - (cb p y K (k + 1) + ((2 : ℤ) : Binary p) * cb p y K k) / ((3 : ℤ) : Binary p)

def db (y : ℕ → Binary p) (K k : ℕ) : Binary p := (cb p y K (k + 1) - cb p y K k) / ((3 : ℤ) : Binary p)

theorem cb_rec (y : ℕ → Binary p) (K i : ℕ) (h : i + 2 ≤ K) : cb p y K i = zb p y i - ub p i * cb p y K (i + 1) := by
  unfold cb
  obtain ⟨j, hj⟩ : ∃ j, K - 1 - i = j + 1 := ⟨K - 2 - i, by omega⟩
  rw [hj, crb, show K - 1 - (i + 1) = j by omega, show K - 2 - j = i by omega]

theorem cast_small (hp : 10 ≤ p) (n : ℤ) (h : |n| ≤ 4) : (((n : ℤ) : Binary p).val : ℝ) = n := by
  have h2 : (4 : ℤ) < 2 ^ p := by
    calc (4 : ℤ) < 2 ^ 10 := by norm_num
      _ ≤ 2 ^ p := pow_le_pow_right₀ (by norm_num) hp
  rw [Binary.cast_exact p n (by omega)]
  norm_num

variable (hp : 10 ≤ p)
include hp

theorem ub_error (i : ℕ) : 0 ≤ ((ub p i).val : ℝ) ∧ ((ub p i).val : ℝ) ≤ 0.27 ∧ |((ub p i).val : ℝ) - us i| ≤ 0.61 * (1 / 2 ^ p) ∧
    3.725 ≤ ((((4 : ℤ) : Binary p) - ub p i).val : ℝ) ∧ |1 / ((((4 : ℤ) : Binary p) - ub p i).val : ℝ) - 1 / (4 - us i)| ≤ 0.34 * (1 / 2 ^ p) := by
  have hR := binary_roundedField p
  have hu := Win.unit_small p hp
  have hu0 : (0 : ℝ) ≤ 1 / 2 ^ p := by positivity
  generalize hU : (1 : ℝ) / 2 ^ p = u at *
  have key : ∀ i, 0 ≤ ((ub p i).val : ℝ) → ((ub p i).val : ℝ) ≤ 0.27 → |((ub p i).val : ℝ) - us i| ≤ 0.61 * u →
      3.725 ≤ ((((4 : ℤ) : Binary p) - ub p i).val : ℝ) ∧ |1 / ((((4 : ℤ) : Binary p) - ub p i).val : ℝ) - 1 / (4 - us i)| ≤ 0.34 * u := by
    intro i h0 h1 h2
    have hs := hR.sub ((4 : ℤ) : Binary p) (ub p i)
    rw [cast_small p hp 4 (by norm_num)] at hs
    push_cast at hs
    rw [abs_of_nonneg (by linarith : (0 : ℝ) ≤ 4 - (ub p i).val)] at hs
    have hus := us_bounds i
    have hus2 := us_small i
    generalize ((((4 : ℤ) : Binary p) - ub p i).val : ℝ) = l at *
    rw [abs_le] at hs h2
    have hl : 3.725 ≤ l := by nlinarith [hs.1]
    refine ⟨hl, ?_⟩
    have e : 1 / l - 1 / (4 - us i) = (4 - us i - l) / (l * (4 - us i)) := by
      have : 4 - us i ≠ 0 := us_ne i
      field_simp
    have hd : |4 - us i - l| ≤ 4.61 * u := by
      rw [abs_le]
      have : u * (4 - (ub p i).val) ≤ u * 4 := mul_le_mul_of_nonneg_left (by linarith) hu0
      constructor <;> linarith [hs.1, hs.2, h2.1, h2.2]
    have hden : 13.89 ≤ l * (4 - us i) := by nlinarith
    rw [e, abs_div, abs_of_pos (by linarith : (0 : ℝ) < l * (4 - us i)), div_le_iff₀ (by linarith)]
    have : 0.34 * u * 13.89 ≤ 0.34 * u * (l * (4 - us i)) := mul_le_mul_of_nonneg_left hden (by positivity)
    linarith
  induction i with
  | zero =>
    have h0 : ((ub p 0).val : ℝ) = 0 := by rw [ub, cast_small p hp 0 (by norm_num)]; norm_num
    have a1 : 0 ≤ ((ub p 0).val : ℝ) := by rw [h0]
    have a2 : ((ub p 0).val : ℝ) ≤ 0.27 := by rw [h0]; norm_num
    have a3 : |((ub p 0).val : ℝ) - us 0| ≤ 0.61 * u := by rw [h0]; simp [us]; positivity
    exact ⟨a1, a2, a3, key 0 a1 a2 a3⟩
  | succ i ih =>
    obtain ⟨-, -, -, i4, i5⟩ := ih
    have hus := us_bounds i
    have hus2 := us_small i
    have hd := hR.div ((1 : ℤ) : Binary p) (((4 : ℤ) : Binary p) - ub p i) (by intro h; rw [h] at i4; norm_num at i4)
    rw [cast_small p hp 1 (by norm_num)] at hd
    rw [show ((1 : ℤ) : Binary p) / (((4 : ℤ) : Binary p) - ub p i) = ub p (i + 1) from rfl] at hd
    have k := key (i + 1)
    generalize ((ub p (i + 1)).val : ℝ) = r at *
    generalize ((((4 : ℤ) : Binary p) - ub p i).val : ℝ) = l at *
    push_cast at hd
    have hl0 : 0 ≤ 1 / l := by apply div_nonneg <;> linarith
    have hl1 : 1 / l ≤ 0.2685 := by rw [div_le_iff₀ (by linarith)]; linarith
    rw [abs_of_nonneg hl0] at hd
    have hd' : |r - 1 / l| ≤ 0.2685 * u := by
      have : u * (1 / l) ≤ u * 0.2685 := mul_le_mul_of_nonneg_left hl1 hu0
      linarith
    have a1 : 0 ≤ r := by
      have : u * (1 / l) ≤ 1 * (1 / l) := mul_le_mul_of_nonneg_right (by linarith) hl0
      linarith [(abs_le.mp hd).1]
    have a2 : r ≤ 0.27 := by linarith [(abs_le.mp hd').2]
    have a3 : |r - us (i + 1)| ≤ 0.61 * u := by
      have : |r - us (i + 1)| ≤ |r - 1 / l| + |1 / l - us (i + 1)| := abs_sub_le _ _ _
      rw [show us (i + 1) = 1 / (4 - us i) from rfl] at *
      linarith
    exact ⟨a1, a2, a3, k a1 a2 a3⟩

variable (y : ℕ → Binary p) (K : ℕ) (B : ℝ) (hB : ∀ i < K, |((y i).val : ℝ)| ≤ B)
include hB

theorem zb_error (i : ℕ) (hi : i + 2 ≤ K) : |((zb p y i).val : ℝ) - zs (fun i => ((y i).val : ℝ)) i| ≤ 35 * (1 / 2 ^ p * B) ∧ |zs (fun i => ((y i).val : ℝ)) i| ≤ 4.4 * B := by
  have hR := binary_roundedField p
  have hu := Win.unit_small p hp
  have hu0 : (0 : ℝ) ≤ 1 / 2 ^ p := by positivity
  have hB0 : 0 ≤ B := (abs_nonneg _).trans (hB 0 (by omega))
  induction i with
  | zero =>
    have h0 : ((zb p y 0).val : ℝ) = 0 := by rw [zb, cast_small p hp 0 (by norm_num)]; norm_num
    rw [h0]
    simp only [zs, sub_zero, abs_zero]
    exact ⟨by positivity, by positivity⟩
  | succ i ih =>
    obtain ⟨ih1, ih2⟩ := ih (by omega)
    obtain ⟨-, -, -, hl, hl2⟩ := ub_error p hp i
    have hus := us_bounds i
    have hus2 := us_small i
    have m2 := hR.mul ((2 : ℤ) : Binary p) (y (i + 1))
    have m3 := hR.sub (y (i + 2)) (((2 : ℤ) : Binary p) * y (i + 1))
    have m4 := hR.add (y (i + 2) - ((2 : ℤ) : Binary p) * y (i + 1)) (y i)
    have m5 := hR.mul ((3 : ℤ) : Binary p) (y (i + 2) - ((2 : ℤ) : Binary p) * y (i + 1) + y i)
    have m6 := hR.sub (((3 : ℤ) : Binary p) * (y (i + 2) - ((2 : ℤ) : Binary p) * y (i + 1) + y i)) (zb p y i)
    have m7 := hR.div (((3 : ℤ) : Binary p) * (y (i + 2) - ((2 : ℤ) : Binary p) * y (i + 1) + y i) - zb p y i) (((4 : ℤ) : Binary p) - ub p i) (by intro h; rw [h] at hl; norm_num at hl)
    rw [← zb] at m7
    rw [cast_small p hp 2 (by norm_num)] at m2
    rw [cast_small p hp 3 (by norm_num)] at m5
    have b0 := hB i (by omega)
    have b1 := hB (i + 1) (by omega)
    have b2 := hB (i + 2) (by omega)
    generalize (1 : ℝ) / 2 ^ p = u at *
    generalize ((zb p y (i + 1)).val : ℝ) = r7 at *
    generalize ((((3 : ℤ) : Binary p) * (y (i + 2) - ((2 : ℤ) : Binary p) * y (i + 1) + y i) - zb p y i).val : ℝ) = r6 at *
    generalize ((((3 : ℤ) : Binary p) * (y (i + 2) - ((2 : ℤ) : Binary p) * y (i + 1) + y i)).val : ℝ) = r5 at *
    generalize ((y (i + 2) - ((2 : ℤ) : Binary p) * y (i + 1) + y i).val : ℝ) = r4 at *
    generalize ((y (i + 2) - ((2 : ℤ) : Binary p) * y (i + 1)).val : ℝ) = r3 at *
    generalize ((((2 : ℤ) : Binary p) * y (i + 1)).val : ℝ) = r2 at *
    generalize ((zb p y i).val : ℝ) = z at *
    generalize ((((4 : ℤ) : Binary p) - ub p i).val : ℝ) = l at *
    simp only [zs]
    generalize zs (fun i => ((y i).val : ℝ)) i = z0 at *
    generalize ((y i).val : ℝ) = y0 at *
    generalize ((y (i + 1)).val : ℝ) = y1 at *
    generalize ((y (i + 2)).val : ℝ) = y2 at *
    generalize us i = us at *
    push_cast at m2 m5
    rw [abs_le] at b0 b1 b2 ih2
    have s2 : |r2 - 2 * y1| ≤ 2 * (u * B) := round_step (e := 0) (b := 2) (a := 2 * y1) 2 hu0 hu hB0 le_rfl (by simp) (by rw [abs_le]; constructor <;> linarith) m2 (by norm_num)
    have s3 : |r3 - (y2 - 2 * y1)| ≤ 5.01 * (u * B) := by
      refine round_step (e := 2) (b := 3) (a := y2 - r2) 5.01 hu0 hu hB0 (by norm_num) ?_ (by rw [abs_le]; constructor <;> linarith) m3 (by norm_num)
      rw [show y2 - r2 - (y2 - 2 * y1) = -(r2 - 2 * y1) by ring, abs_neg]; exact s2
    have s4 : |r4 - (y2 - 2 * y1 + y0)| ≤ 9.02 * (u * B) := by
      refine round_step (e := 5.01) (b := 4) (a := r3 + y0) 9.02 hu0 hu hB0 (by norm_num) ?_ (by rw [abs_le]; constructor <;> linarith) m4 (by norm_num)
      rw [show r3 + y0 - (y2 - 2 * y1 + y0) = r3 - (y2 - 2 * y1) by ring]; exact s3
    have s5 : |r5 - 3 * (y2 - 2 * y1 + y0)| ≤ 39.1 * (u * B) := by
      refine round_step (e := 27.06) (b := 12) (a := 3 * r4) 39.1 hu0 hu hB0 (by norm_num) ?_ (by rw [abs_le]; constructor <;> linarith) m5 (by norm_num)
      rw [show 3 * r4 - 3 * (y2 - 2 * y1 + y0) = 3 * (r4 - (y2 - 2 * y1 + y0)) by ring, abs_mul, abs_of_pos (by norm_num : (0 : ℝ) < 3)]; linarith
    have hN : |3 * (y2 - 2 * y1 + y0) - z0| ≤ 16.4 * B := by rw [abs_le]; constructor <;> linarith [ih2.1, ih2.2]
    have s6 : |r6 - (3 * (y2 - 2 * y1 + y0) - z0)| ≤ 90.6 * (u * B) := by
      refine round_step (e := 74.1) (b := 16.4) (a := r5 - z) 90.6 hu0 hu hB0 (by norm_num) ?_ hN m6 (by norm_num)
      rw [show r5 - z - (3 * (y2 - 2 * y1 + y0) - z0) = (r5 - 3 * (y2 - 2 * y1 + y0)) - (z - z0) by ring]
      refine (abs_sub _ _).trans ?_
      linarith
    generalize hn : 3 * (y2 - 2 * y1 + y0) - z0 = n at *
    have hl' : 0 ≤ 1 / l := by apply div_nonneg <;> linarith
    have hl1 : 1 / l ≤ 0.2685 := by rw [div_le_iff₀ (by linarith)]; linarith
    have hsize : |n / (4 - us)| ≤ 4.4 * B := by
      rw [abs_div, abs_of_pos (by linarith : (0 : ℝ) < 4 - us), div_le_iff₀ (by linarith)]
      have : 4.4 * B * 3.73 ≤ 4.4 * B * (4 - us) := mul_le_mul_of_nonneg_left (by linarith) (by positivity)
      linarith
    refine ⟨round_step (e := 30) (b := 4.4) (a := r6 / l) 35 hu0 hu hB0 (by norm_num) ?_ hsize m7 (by norm_num), hsize⟩
    rw [show r6 / l - n / (4 - us) = (r6 - n) * (1 / l) + n * (1 / l - 1 / (4 - us)) by ring]
    refine (abs_add_le _ _).trans ?_
    rw [abs_mul, abs_mul, abs_of_nonneg hl']
    have t1 : |r6 - n| * (1 / l) ≤ 90.6 * (u * B) * 0.2685 := mul_le_mul s6 hl1 hl' (by positivity)
    have t2 : |n| * |1 / l - 1 / (4 - us)| ≤ 16.4 * B * (0.34 * u) := mul_le_mul hN hl2 (abs_nonneg _) (by positivity)
    have : 0 ≤ u * B := by positivity
    linarith

theorem cb_error (i : ℕ) (hi : i + 1 ≤ K) : |((cb p y K i).val : ℝ) - cs (fun i => ((y i).val : ℝ)) K i| ≤ 66 * (1 / 2 ^ p * B) ∧ |cs (fun i => ((y i).val : ℝ)) K i| ≤ 6.03 * B := by
  have hR := binary_roundedField p
  have hu := Win.unit_small p hp
  have hu0 : (0 : ℝ) ≤ 1 / 2 ^ p := by positivity
  have hB0 : 0 ≤ B := (abs_nonneg _).trans (hB 0 (by omega))
  obtain ⟨j, hj⟩ : ∃ j, i + j + 1 = K := ⟨K - 1 - i, by omega⟩
  induction j generalizing i with
  | zero =>
    obtain rfl : i = K - 1 := by omega
    have h0 : ((cb p y K (K - 1)).val : ℝ) = 0 := by
      rw [cb, show K - 1 - (K - 1) = 0 by omega, crb, cast_small p hp 0 (by norm_num)]; norm_num
    rw [h0, cs_last]
    simp only [sub_zero, abs_zero]
    exact ⟨by positivity, by positivity⟩
  | succ j ih =>
    obtain ⟨ih1, ih2⟩ := ih (i + 1) (by omega) (by omega)
    obtain ⟨hz, hz2⟩ := zb_error p hp y K B hB i (by omega)
    obtain ⟨h1, h2, h3, -, -⟩ := ub_error p hp i
    have hus := us_bounds i
    have hus2 := us_small i
    have m1 := hR.mul (ub p i) (cb p y K (i + 1))
    have m2 := hR.sub (zb p y i) (ub p i * cb p y K (i + 1))
    rw [← cb_rec p y K i (by omega)] at m2
    rw [cs_rec _ K i (by omega)]
    generalize (1 : ℝ) / 2 ^ p = u at *
    generalize ((cb p y K i).val : ℝ) = r2 at *
    generalize ((ub p i * cb p y K (i + 1)).val : ℝ) = r1 at *
    generalize ((cb p y K (i + 1)).val : ℝ) = c at *
    generalize ((zb p y i).val : ℝ) = z at *
    generalize ((ub p i).val : ℝ) = v at *
    generalize zs (fun i => ((y i).val : ℝ)) i = z0 at *
    generalize cs (fun i => ((y i).val : ℝ)) K (i + 1) = c0 at *
    generalize us i = v0 at *
    have huB : 0 ≤ u * B := by positivity
    have hsz : |v0 * c0| ≤ 1.6281 * B := by
      rw [abs_mul, abs_of_nonneg hus.1]
      refine (mul_le_mul hus2 ih2 (abs_nonneg _) (by norm_num)).trans (le_of_eq (by ring))
    have s1 : |r1 - v0 * c0| ≤ 23.2 * (u * B) := by
      refine round_step (e := 21.5) (b := 1.6281) (a := v * c) 23.2 hu0 hu hB0 (by norm_num) ?_ hsz m1 (by norm_num)
      rw [show v * c - v0 * c0 = v * (c - c0) + (v - v0) * c0 by ring]
      refine (abs_add_le _ _).trans ?_
      rw [abs_mul, abs_mul, abs_of_nonneg h1]
      have t1 : v * |c - c0| ≤ 0.27 * (66 * (u * B)) := mul_le_mul h2 ih1 (abs_nonneg _) (by norm_num)
      have t2 : |v - v0| * |c0| ≤ 0.61 * u * (6.03 * B) := mul_le_mul h3 ih2 (abs_nonneg _) (by positivity)
      linarith
    have hsize : |z0 - v0 * c0| ≤ 6.03 * B := (abs_sub _ _).trans (by linarith)
    refine ⟨round_step (e := 58.2) (b := 6.03) (a := z - r1) 66 hu0 hu hB0 (by norm_num) ?_ hsize m2 (by norm_num), hsize⟩
    rw [show z - r1 - (z0 - v0 * c0) = (z - z0) - (r1 - v0 * c0) by ring]
    exact (abs_sub _ _).trans (by linarith)

theorem bd_error (k : ℕ) (hk : k + 2 ≤ K) :
    (|((bb p y K k).val : ℝ) - bs (fun i => ((y i).val : ℝ)) K k| ≤ 95 * (1 / 2 ^ p * B) ∧ |bs (fun i => ((y i).val : ℝ)) K k| ≤ 8.03 * B) ∧
      |((db p y K k).val : ℝ) - ds (fun i => ((y i).val : ℝ)) K k| ≤ 54 * (1 / 2 ^ p * B) ∧ |ds (fun i => ((y i).val : ℝ)) K k| ≤ 4.02 * B := by
  have hR := binary_roundedField p
  have hu := Win.unit_small p hp
  have hu0 : (0 : ℝ) ≤ 1 / 2 ^ p := by positivity
  have hB0 : 0 ≤ B := (abs_nonneg _).trans (hB 0 (by omega))
  obtain ⟨c1, c2⟩ := cb_error p hp y K B hB k (by omega)
  obtain ⟨c3, c4⟩ := cb_error p hp y K B hB (k + 1) (by omega)
  have b0 := hB k (by omega)
  have b1 := hB (k + 1) (by omega)
  have h3 : (((3 : ℤ) : Binary p).val : ℝ) = 3 := by rw [cast_small p hp 3 (by norm_num)]; norm_num
  have m1 := hR.mul ((2 : ℤ) : Binary p) (cb p y K k)
  have m2 := hR.add (cb p y K (k + 1)) (((2 : ℤ) : Binary p) * cb p y K k)
  have m3 := hR.div (cb p y K (k + 1) + ((2 : ℤ) : Binary p) * cb p y K k) ((3 : ℤ) : Binary p) (by rw [h3]; norm_num)
  have m4 := hR.sub (y (k + 1)) (y k)
  have m5 := hR.sub (y (k + 1) - y k) ((cb p y K (k + 1) + ((2 : ℤ) : Binary p) * cb p y K k) / ((3 : ℤ) : Binary p))
  have n1 := hR.sub (cb p y K (k + 1)) (cb p y K k)
  have n2 := hR.div (cb p y K (k + 1) - cb p y K k) ((3 : ℤ) : Binary p) (by rw [h3]; norm_num)
  rw [← bb] at m5
  rw [← db] at n2
  simp only [h3] at m1 m2 m3 m4 m5 n1 n2
  rw [cast_small p hp 2 (by norm_num)] at m1
  rw [bs, ds]
  generalize (1 : ℝ) / 2 ^ p = u at *
  generalize ((bb p y K k).val : ℝ) = r5 at *
  generalize ((db p y K k).val : ℝ) = q2 at *
  generalize (((cb p y K (k + 1) + ((2 : ℤ) : Binary p) * cb p y K k) / ((3 : ℤ) : Binary p)).val : ℝ) = r3 at *
  generalize ((cb p y K (k + 1) + ((2 : ℤ) : Binary p) * cb p y K k).val : ℝ) = r2 at *
  generalize ((((2 : ℤ) : Binary p) * cb p y K k).val : ℝ) = r1 at *
  generalize ((y (k + 1) - y k).val : ℝ) = r4 at *
  generalize ((cb p y K (k + 1) - cb p y K k).val : ℝ) = q1 at *
  generalize ((cb p y K (k + 1)).val : ℝ) = d at *
  generalize ((cb p y K k).val : ℝ) = c at *
  generalize cs (fun i => ((y i).val : ℝ)) K (k + 1) = d0 at *
  generalize cs (fun i => ((y i).val : ℝ)) K k = c0 at *
  generalize ((y (k + 1)).val : ℝ) = y1 at *
  generalize ((y k).val : ℝ) = y0 at *
  push_cast at m1
  have huB : 0 ≤ u * B := by positivity
  have b0' := abs_le.mp b0
  have b1' := abs_le.mp b1
  have c2' := abs_le.mp c2
  have c4' := abs_le.mp c4
  have z3 : |(d0 + 2 * c0) / 3| ≤ 6.03 * B := by rw [abs_le]; constructor <;> linarith
  have s1 : |r1 - 2 * c0| ≤ 144.2 * (u * B) := by
    refine round_step (e := 132) (b := 12.06) (a := 2 * c) 144.2 hu0 hu hB0 (by norm_num) ?_ (by rw [abs_le]; constructor <;> linarith) m1 (by norm_num)
    rw [show 2 * c - 2 * c0 = 2 * (c - c0) by ring, abs_mul, abs_of_pos (by norm_num : (0 : ℝ) < 2)]; linarith
  have s2 : |r2 - (d0 + 2 * c0)| ≤ 228.6 * (u * B) := by
    refine round_step (e := 210.2) (b := 18.09) (a := d + r1) 228.6 hu0 hu hB0 (by norm_num) ?_ (by rw [abs_le]; constructor <;> linarith) m2 (by norm_num)
    rw [show d + r1 - (d0 + 2 * c0) = (d - d0) + (r1 - 2 * c0) by ring]
    exact (abs_add_le _ _).trans (by linarith)
  have s3 : |r3 - (d0 + 2 * c0) / 3| ≤ 82.4 * (u * B) := by
    refine round_step (e := 76.2) (b := 6.03) (a := r2 / 3) 82.4 hu0 hu hB0 (by norm_num) ?_ z3 m3 (by norm_num)
    rw [show r2 / 3 - (d0 + 2 * c0) / 3 = (r2 - (d0 + 2 * c0)) / 3 by ring, abs_div, abs_of_pos (by norm_num : (0 : ℝ) < 3)]; linarith
  have s4 : |r4 - (y1 - y0)| ≤ 2 * (u * B) :=
    round_step (e := 0) (b := 2) (a := y1 - y0) 2 hu0 hu hB0 le_rfl (by simp) (by rw [abs_le]; constructor <;> linarith) m4 (by norm_num)
  have z3' := abs_le.mp z3
  have zB : |y1 - y0 - (d0 + 2 * c0) / 3| ≤ 8.03 * B := by rw [abs_le]; constructor <;> linarith [z3'.1, z3'.2]
  have zD : |(d0 - c0) / 3| ≤ 4.02 * B := by rw [abs_le]; constructor <;> linarith
  have t1 : |q1 - (d0 - c0)| ≤ 144.2 * (u * B) := by
    refine round_step (e := 132) (b := 12.06) (a := d - c) 144.2 hu0 hu hB0 (by norm_num) ?_ (by rw [abs_le]; constructor <;> linarith) n1 (by norm_num)
    rw [show d - c - (d0 - c0) = (d - d0) - (c - c0) by ring]
    exact (abs_sub _ _).trans (by linarith)
  refine ⟨⟨round_step (e := 84.4) (b := 8.03) (a := r4 - r3) 95 hu0 hu hB0 (by norm_num) ?_ zB m5 (by norm_num), zB⟩,
    round_step (e := 48.07) (b := 4.02) (a := q1 / 3) 54 hu0 hu hB0 (by norm_num) ?_ zD n2 (by norm_num), zD⟩
  · rw [show r4 - r3 - (y1 - y0 - (d0 + 2 * c0) / 3) = (r4 - (y1 - y0)) - (r3 - (d0 + 2 * c0) / 3) by ring]
    exact (abs_sub _ _).trans (by linarith)
  · rw [show q1 / 3 - (d0 - c0) / 3 = (q1 - (d0 - c0)) / 3 by ring, abs_div, abs_of_pos (by norm_num : (0 : ℝ) < 3)]; linarith

theorem value_error (k : ℕ) (hk : k + 2 ≤ K) (t : Binary p) (t0 T : ℝ) (ht : |(t.val : ℝ) - t0| ≤ 1 / 2 ^ p * |t0|) (hT : 1 ≤ T) (ht0 : |t0| ≤ T) :
    |((y k + t * (bb p y K k + t * (cb p y K k + t * db p y K k))).val : ℝ) - ((y k).val + t0 * (bs (fun i => ((y i).val : ℝ)) K k + t0 * (cs (fun i => ((y i).val : ℝ)) K k +
      t0 * ds (fun i => ((y i).val : ℝ)) K k)))| ≤ 340 * (1 / 2 ^ p * (B * T ^ 3)) := by
  have hR := binary_roundedField p
  have hu := Win.unit_small p hp
  have hu0 : (0 : ℝ) ≤ 1 / 2 ^ p := by positivity
  have hB0 : 0 ≤ B := (abs_nonneg _).trans (hB 0 (by omega))
  obtain ⟨c1, c2⟩ := cb_error p hp y K B hB k (by omega)
  obtain ⟨⟨b1, b2⟩, d1, d2⟩ := bd_error p hp y K B hB k hk
  have a2 := hB k (by omega)
  have m1 := hR.mul t (db p y K k)
  have m2 := hR.add (cb p y K k) (t * db p y K k)
  have m3 := hR.mul t (cb p y K k + t * db p y K k)
  have m4 := hR.add (bb p y K k) (t * (cb p y K k + t * db p y K k))
  have m5 := hR.mul t (bb p y K k + t * (cb p y K k + t * db p y K k))
  have m6 := hR.add (y k) (t * (bb p y K k + t * (cb p y K k + t * db p y K k)))
  generalize (1 : ℝ) / 2 ^ p = u at *
  generalize ((y k + t * (bb p y K k + t * (cb p y K k + t * db p y K k))).val : ℝ) = r6 at *
  generalize ((t * (bb p y K k + t * (cb p y K k + t * db p y K k))).val : ℝ) = r5 at *
  generalize ((bb p y K k + t * (cb p y K k + t * db p y K k)).val : ℝ) = r4 at *
  generalize ((t * (cb p y K k + t * db p y K k)).val : ℝ) = r3 at *
  generalize ((cb p y K k + t * db p y K k).val : ℝ) = r2 at *
  generalize ((t * db p y K k).val : ℝ) = r1 at *
  generalize (t.val : ℝ) = t at *
  generalize ((db p y K k).val : ℝ) = d at *
  generalize ((cb p y K k).val : ℝ) = c at *
  generalize ((bb p y K k).val : ℝ) = b at *
  generalize cs (fun i => ((y i).val : ℝ)) K k = c0 at *
  generalize bs (fun i => ((y i).val : ℝ)) K k = b0 at *
  generalize ds (fun i => ((y i).val : ℝ)) K k = d0 at *
  generalize ((y k).val : ℝ) = a at *
  have hT0 : 0 ≤ T := by linarith
  have hBT : B ≤ B * T := le_mul_of_one_le_right hB0 hT
  have hBT2 : B ≤ B * T * T := hBT.trans (le_mul_of_one_le_right (by positivity) hT)
  have hBT3 : B ≤ B * T * T * T := hBT2.trans (le_mul_of_one_le_right (by positivity) hT)
  have hc : u * B ≤ u * (B * T) := mul_le_mul_of_nonneg_left hBT hu0
  have hc2 : u * B ≤ u * (B * T * T) := mul_le_mul_of_nonneg_left hBT2 hu0
  have N1 : 0 ≤ B * T := by positivity
  have N2 : 0 ≤ B * T * T := by positivity
  have N3 : 0 ≤ B * T * T * T := by positivity
  obtain ⟨p1, z1⟩ := horner_step hu0 hu hT0 ht ht0 d1 d2
  have s1 : |r1 - t0 * d0| ≤ 63 * (u * (B * T)) := round_step 63 hu0 hu N1 (by norm_num) p1 z1 m1 (by norm_num)
  have z2 : |c0 + t0 * d0| ≤ 10.05 * (B * T) := (abs_add_le _ _).trans (by linarith)
  have s2 : |r2 - (c0 + t0 * d0)| ≤ 140 * (u * (B * T)) := by
    refine round_step (e := 129) (a := c + r1) 140 hu0 hu N1 (by norm_num) ?_ z2 m2 (by norm_num)
    rw [show c + r1 - (c0 + t0 * d0) = (c - c0) + (r1 - t0 * d0) by ring]
    exact (abs_add_le _ _).trans (by linarith)
  obtain ⟨p3, z3⟩ := horner_step hu0 hu hT0 ht ht0 s2 z2
  have s3 : |r3 - t0 * (c0 + t0 * d0)| ≤ 161 * (u * (B * T * T)) := round_step 161 hu0 hu N2 (by norm_num) p3 z3 m3 (by norm_num)
  have z4 : |b0 + t0 * (c0 + t0 * d0)| ≤ 18.08 * (B * T * T) := (abs_add_le _ _).trans (by linarith)
  have s4 : |r4 - (b0 + t0 * (c0 + t0 * d0))| ≤ 275 * (u * (B * T * T)) := by
    refine round_step (e := 256) (a := b + r3) 275 hu0 hu N2 (by norm_num) ?_ z4 m4 (by norm_num)
    rw [show b + r3 - (b0 + t0 * (c0 + t0 * d0)) = (b - b0) + (r3 - t0 * (c0 + t0 * d0)) by ring]
    exact (abs_add_le _ _).trans (by linarith)
  obtain ⟨p5, z5⟩ := horner_step hu0 hu hT0 ht ht0 s4 z4
  have s5 : |r5 - t0 * (b0 + t0 * (c0 + t0 * d0))| ≤ 313 * (u * (B * T * T * T)) := round_step 313 hu0 hu N3 (by norm_num) p5 z5 m5 (by norm_num)
  have z6 : |a + t0 * (b0 + t0 * (c0 + t0 * d0))| ≤ 19.08 * (B * T * T * T) := (abs_add_le _ _).trans (by linarith)
  have s6 : |r6 - (a + t0 * (b0 + t0 * (c0 + t0 * d0)))| ≤ 340 * (u * (B * T * T * T)) := by
    refine round_step (e := 313) (a := a + r5) 340 hu0 hu N3 (by norm_num) ?_ z6 m6 (by norm_num)
    rw [show a + r5 - (a + t0 * (b0 + t0 * (c0 + t0 * d0))) = r5 - t0 * (b0 + t0 * (c0 + t0 * d0)) by ring]
    exact s5
  rw [show B * T ^ 3 = B * T * T * T by ring]
  exact s6

/-! ### The code computes these tables -/

omit hp hB

omit [NeZero p] in
theorem getElem_set {l : List (Binary p)} {n : ℕ} (i : ℕ) (v : Binary p) (hl : l.length = n) (hi : i < n) : (l.set i v)[i]? = some v := by
  rw [List.getElem?_set, if_pos rfl, if_pos (by omega)]

include hp in
theorem forward_ok' (hK : 2 ≤ K) (Y : List (Binary p)) (st : ℕ) (hy : ∀ i, i < K → rd Y ((i : ℤ) * st) = .ok (y i)) (U Z : List (Binary p))
    (hU : U.length = K - 1) (hZ : Z.length = K - 1) (hU0 : U[0]? = some (ub p 0)) (hZ0 : Z[0]? = some (zb p y 0)) :
    ∃ U' Z', (List.range (K - 2)).foldlM (fun s (j : ℕ) => Rounded.forward Y st s (j + 1)) (U, Z) = .ok (U', Z') ∧
      (∀ i, i < K - 1 → U'[i]? = some (ub p i) ∧ Z'[i]? = some (zb p y i)) := by
  obtain ⟨⟨U', Z'⟩, e, h1, h2, h3⟩ := foldlM_inv
    (fun k (s : List (Binary p) × List (Binary p)) => s.1.length = K - 1 ∧ s.2.length = K - 1 ∧ ∀ i, i ≤ k → i < K - 1 → s.1[i]? = some (ub p i) ∧ s.2[i]? = some (zb p y i))
    (fun s (j : ℕ) => Rounded.forward Y st s (j + 1)) (K - 2) (U, Z)
    ⟨hU, hZ, fun i hi _ => by obtain rfl : i = 0 := by omega
                              exact ⟨hU0, hZ0⟩⟩
    (by
      rintro k hk ⟨U, Z⟩ ⟨h1, h2, h3⟩
      simp only at h1 h2 h3
      have hl : ((((4 : ℤ) : Binary p) - ub p k).val : ℝ) ≠ 0 := by
        have := (ub_error p hp k).2.2.2.1
        intro h; rw [h] at this; norm_num at this
      refine ⟨(U.set (k + 1) (ub p (k + 1)), Z.set (k + 1) (zb p y (k + 1))), ?_, by simp [h1], by simp [h2], ?_⟩
      · have e1 : ((k : ℤ) + 1 - 1) = k := by ring
        have y2 : rd Y (((k : ℤ) + 1 + 1) * st) = .ok (y (k + 2)) := by rw [← hy (k + 2) (by omega)]; congr 1
        have y1 : rd Y (((k : ℤ) + 1) * st) = .ok (y (k + 1)) := by rw [← hy (k + 1) (by omega)]; congr 1
        have y0 : rd Y ((k : ℤ) * st) = .ok (y k) := hy k (by omega)
        simp only [Rounded.forward, e1, bind, Except.bind, pure, Except.pure, y0, y1, y2]
        rw [rd_of_getElem? (by omega) (by simpa using (h3 k le_rfl (by omega)).1)]
        simp only []
        rw [Fir.fdiv_ok' p _ _ hl]
        simp only []
        rw [show ((k : ℤ) + 1) = ((k + 1 : ℕ) : ℤ) by push_cast; ring, wr_nat (by omega)]
        simp only []
        rw [rd_of_getElem? (by omega) (by simpa using (h3 k le_rfl (by omega)).2)]
        simp only []
        rw [Fir.fdiv_ok' p _ _ hl]
        simp only []
        rw [wr_nat (by omega)]
        rfl
      · intro i hi hi2
        simp only [List.getElem?_set]
        by_cases c : k + 1 = i
        · subst c
          rw [if_pos rfl, if_pos rfl, if_pos (by omega), if_pos (by omega)]
          exact ⟨rfl, rfl⟩
        · rw [if_neg c, if_neg c]; exact h3 i (by omega) hi2)
  exact ⟨U', Z', e, fun i hi => h3 i (by omega) hi⟩

include hp in
theorem backward_ok' (hK : 2 ≤ K) (Y : List (Binary p)) (st : ℕ) (hy : ∀ i, i < K → rd Y ((i : ℤ) * st) = .ok (y i)) (U Z junk : List (Binary p))
    (hj : junk.length = K - 1) (hUZ : ∀ i, i < K - 1 → U[i]? = some (ub p i) ∧ Z[i]? = some (zb p y i)) :
    ∃ s, (List.range (K - 1)).foldlM (fun s (j : ℕ) => Rounded.backward Y st U Z s (K - 2 - j)) ⟨junk, junk, junk, junk, ((0 : ℤ) : Binary p)⟩ = .ok s ∧
      ∀ i, i < K - 1 → s.A[i]? = some (y i) ∧ s.B[i]? = some (bb p y K i) ∧ s.C[i]? = some (cb p y K i) ∧ s.D[i]? = some (db p y K i) := by
  have h3 : (((3 : ℤ) : Binary p).val : ℝ) ≠ 0 := by rw [cast_small p hp 3 (by norm_num)]; norm_num
  obtain ⟨s, e, -, -, -, -, -, h⟩ := foldlM_inv
    (fun k (s : Rounded.Tables (Binary p)) => s.A.length = K - 1 ∧ s.B.length = K - 1 ∧ s.C.length = K - 1 ∧ s.D.length = K - 1 ∧ s.c = cb p y K (K - 1 - k) ∧
      ∀ i, K - 1 ≤ i + k → i < K - 1 → s.A[i]? = some (y i) ∧ s.B[i]? = some (bb p y K i) ∧ s.C[i]? = some (cb p y K i) ∧ s.D[i]? = some (db p y K i))
    (fun s (j : ℕ) => Rounded.backward Y st U Z s (K - 2 - j)) (K - 1) ⟨junk, junk, junk, junk, ((0 : ℤ) : Binary p)⟩
    ⟨hj, hj, hj, hj, by simp [cb, crb], fun i h1 h2 => by omega⟩
    (by
      rintro k hk ⟨A, B, C, D, c⟩ ⟨hA, hB, hC, hD, hc, h⟩
      simp only at hA hB hC hD hc h
      obtain ⟨i, hi⟩ : ∃ i, i + k = K - 2 := ⟨K - 2 - k, by omega⟩
      have ei : (K : ℤ) - 2 - k = (i : ℕ) := by omega
      have hc : c = cb p y K (i + 1) := by rw [hc]; congr 1; omega
      have hci : zb p y i - ub p i * c = cb p y K i := by rw [hc, ← cb_rec p y K i (by omega)]
      refine ⟨⟨A.set i (y i), B.set i (bb p y K i), C.set i (cb p y K i), D.set i (db p y K i), cb p y K i⟩, ?_, by simp [hA], by simp [hB], by simp [hC],
        by simp [hD], by simp only; congr 1; omega, ?_⟩
      · have y1 : rd Y (((i : ℤ) + 1) * st) = .ok (y (i + 1)) := by rw [← hy (i + 1) (by omega)]; congr 1
        have y0 : rd Y ((i : ℤ) * st) = .ok (y i) := hy i (by omega)
        have hCi : rd (C.set i (cb p y K i)) (i : ℤ) = .ok (cb p y K i) :=
          rd_of_getElem? (by omega) (by rw [Int.toNat_natCast]; exact getElem_set p i _ hC (by omega))
        simp only [Rounded.backward, ei, bind, Except.bind, pure, Except.pure, y0, y1]
        rw [wr_nat (by omega), rd_of_getElem? (by omega) (by simpa using (hUZ i (by omega)).2),
          rd_of_getElem? (by omega) (by simpa using (hUZ i (by omega)).1)]
        simp only [hci]
        rw [wr_nat (by omega)]
        simp only [hCi]
        rw [Fir.fdiv_ok' p _ _ h3]
        simp only []
        rw [wr_nat (by omega)]
        simp only []
        rw [Fir.fdiv_ok' p _ _ h3]
        simp only []
        rw [wr_nat (by omega)]
        simp only [hc]
        rfl
      · intro j h1 h2
        simp only [List.getElem?_set]
        by_cases cj : i = j
        · subst cj
          simp only [if_true, hA, hB, hC, hD, h2]
          exact ⟨trivial, trivial, trivial, trivial⟩
        · simp only [if_neg cj]; exact h j (by omega) h2)
  exact ⟨s, e, fun i hi => h i (by omega) hi⟩

omit [NeZero p] in
/-- The conversion to `int`. -/
theorem trunc_ok (a : Binary p) (h : |(a.val : ℝ)| < 2147483648) : int32 a.trunc = .ok a.trunc ∧ (0 ≤ (a.val : ℝ) → a.trunc = ⌊(a.val : ℝ)⌋) ∧ ((a.val : ℝ) < 0 → a.trunc = ⌈(a.val : ℝ)⌉ ∧ a.trunc ≤ 0) := by
  obtain ⟨k, hk, k1, k2⟩ := toInt_ok (a.val : ℝ) h
  have e : a.trunc = (if 0 ≤ (a.val : ℝ) then ⌊(a.val : ℝ)⌋ else ⌈(a.val : ℝ)⌉) := by
    unfold Binary.trunc
    rw [Rat.floor_cast, Rat.ceil_cast]
    simp only [Rat.cast_nonneg]
  rw [toInt, ← e] at hk
  have ek : a.trunc = k := by
    unfold int32 at hk
    split at hk
    · exact Except.ok.inj hk
    · exact absurd hk (by simp)
  rw [ek] at hk ⊢
  exact ⟨hk, k1, k2⟩

/-- The piece found is that of the exact computation, the offset has one rounding, and none at the knots. -/
theorem locate_ok' (hK : 2 ≤ K) (hK2 : (K : ℤ) ≤ 2 ^ p) (tx : Binary p) (k : ℤ) (k1 : 0 ≤ (tx.val : ℝ) → k = ⌊(tx.val : ℝ)⌋) (k2 : (tx.val : ℝ) < 0 → k = ⌈(tx.val : ℝ)⌉ ∧ k ≤ 0) :
    ∃ (m : ℕ) (t : Binary p), m ≤ K - 2 ∧ (m = 0 ∨ (m : ℝ) ≤ tx.val) ∧ (m = K - 2 ∨ (tx.val : ℝ) < (m + 1 : ℕ)) ∧ Rounded.locate K tx k = (t, (m : ℤ)) ∧
      |(t.val : ℝ) - (tx.val - m)| ≤ 1 / 2 ^ p * |(tx.val : ℝ) - m| := by
  obtain ⟨m, m1, m2, m3, m4⟩ := locate_ok K hK (tx.val : ℝ) k k1 k2
  have hs : ∀ j : ℕ, j ≤ K - 2 → |((tx - ((j : ℤ) : Binary p)).val : ℝ) - (tx.val - j)| ≤ 1 / 2 ^ p * |(tx.val : ℝ) - j| := by
    intro j hj
    have h := (binary_roundedField p).sub tx ((j : ℤ) : Binary p)
    rw [Binary.cast_exact p (j : ℤ) (by rw [abs_of_nonneg (by omega)]; omega)] at h
    push_cast at h
    exact h
  have hm : (locate K (tx.val : ℝ) k).2 = (m : ℤ) := by rw [m4]
  unfold locate at hm
  unfold Rounded.locate
  by_cases c : k < 0
  · simp only [if_pos c] at hm ⊢
    rw [if_neg (by omega)] at hm ⊢
    refine ⟨m, tx, m1, m2, m3, ?_, ?_⟩
    · rw [← hm]
    · have : m = 0 := by simpa using hm.symm
      subst this
      simp only [Nat.cast_zero, sub_zero, sub_self, abs_zero]
      positivity
  · simp only [if_neg c] at hm ⊢
    by_cases c2 : k ≥ (K : ℤ) - 1
    · rw [if_pos c2] at hm ⊢
      refine ⟨m, tx - (((K : ℤ) - 2 : ℤ) : Binary p), m1, m2, m3, ?_, ?_⟩
      · rw [← hm]
      · have e : (K : ℤ) - 2 = (m : ℤ) := hm
        rw [e]
        exact hs m m1
    · rw [if_neg c2] at hm ⊢
      refine ⟨m, tx - (k : Binary p), m1, m2, m3, ?_, ?_⟩
      · rw [← hm]
      · have e : k = (m : ℤ) := hm
        rw [e]
        exact hs m m1

theorem zero_mul' (a b : Binary p) (h : a.val = 0) : (a * b).val = 0 := by
  show Binary.round p (a.val * b.val) = 0
  rw [h, zero_mul]
  simp [Binary.round, Binary.nearest]

theorem add_zero' (a b : Binary p) (h : b.val = 0) : a + b = a := by
  refine Binary.val_injective p ?_
  show Binary.round p (a.val + b.val) = a.val
  rw [h, add_zero]
  exact Binary.round_of_representable p _ a.representable

/-- The position is computed with two roundings, and with none for the default origin and distance. -/
theorem tx_ok (hp : 10 ≤ p) (x x0 dx : Binary p) (hdx : (dx.val : ℝ) ≠ 0) (hx : |((x.val : ℝ) - x0.val) / dx.val| ≤ 2000000000) :
    |(((x - x0) / dx).val : ℝ) - (x.val - x0.val) / dx.val| ≤ 2.01 / 2 ^ p * |((x.val : ℝ) - x0.val) / dx.val| ∧ |(((x - x0) / dx).val : ℝ)| < 2147483648 ∧
      (x0.val = 0 → dx.val = 1 → ((x - x0) / dx).val = x.val) := by
  have hR := binary_roundedField p
  have hu := Win.unit_small p hp
  have hu0 : (0 : ℝ) ≤ 1 / 2 ^ p := by positivity
  have m1 := hR.sub x x0
  have m2 := hR.div (x - x0) dx hdx
  have hτ : |(((x - x0) / dx).val : ℝ) - (x.val - x0.val) / dx.val| ≤ 2.01 / 2 ^ p * |((x.val : ℝ) - x0.val) / dx.val| := by
    have h1 : |((x - x0).val : ℝ) / dx.val - (x.val - x0.val) / dx.val| ≤ 1 / 2 ^ p * |((x.val : ℝ) - x0.val) / dx.val| := by
      rw [← sub_div, abs_div, abs_div, ← mul_div_assoc]
      exact div_le_div_of_nonneg_right m1 (abs_nonneg _)
    have h2 : |((x - x0).val : ℝ) / dx.val| ≤ 1.001 * |((x.val : ℝ) - x0.val) / dx.val| := by
      have h3 := abs_sub_abs_le_abs_sub (((x - x0).val : ℝ) / dx.val) ((x.val - x0.val) / dx.val)
      have h4 : 1 / 2 ^ p * |((x.val : ℝ) - x0.val) / dx.val| ≤ 1 / 1000 * |((x.val : ℝ) - x0.val) / dx.val| := mul_le_mul_of_nonneg_right hu (abs_nonneg _)
      linarith
    have h5 := mul_le_mul_of_nonneg_left h2 hu0
    have h6 := abs_sub_le (((x - x0) / dx).val : ℝ) (((x - x0).val : ℝ) / dx.val) ((x.val - x0.val) / dx.val)
    have h7 : 0 ≤ 1 / 2 ^ p * |((x.val : ℝ) - x0.val) / dx.val| := by positivity
    rw [show (2.01 : ℝ) / 2 ^ p = 2.01 * (1 / 2 ^ p) by ring, mul_assoc]
    linarith
  refine ⟨hτ, ?_, fun h0 h1 => ?_⟩
  · have h3 := abs_sub_abs_le_abs_sub (((x - x0) / dx).val : ℝ) ((x.val - x0.val) / dx.val)
    have h4 : 2.01 / 2 ^ p * |((x.val : ℝ) - x0.val) / dx.val| ≤ 2.01 / 1000 * 2000000000 := by
      refine mul_le_mul ?_ hx (abs_nonneg _) (by norm_num)
      rw [show (2.01 : ℝ) / 2 ^ p = 2.01 * (1 / 2 ^ p) by ring]
      linarith
    linarith
  · have e : (x - x0).val = x.val := by
      show Binary.round p (x.val - x0.val) = x.val
      rw [h0, sub_zero]
      exact Binary.round_of_representable p _ x.representable
    show Binary.round p ((x - x0).val / dx.val) = x.val
    rw [e, h1, div_one]
    exact Binary.round_of_representable p _ x.representable

/-- **C90** The natural spline in floating point. The constructor and every evaluation stay inside their arrays and never divide by zero. The position is computed with two roundings; at the
position so found the value differs from that of the exact natural spline by at most `340/2^p` times the largest datum, however many knots there are, and times the third power of the distance to the
data when extrapolating. At all knots but the last the value is exactly the datum. -/
theorem C90_natural (hp : 10 ≤ p) (hK : 2 ≤ K) (hK2 : (K : ℤ) ≤ 2 ^ p) (junk Y : List (Binary p)) (hj : junk.length = K - 1) (st : ℕ) (hy : ∀ i, i < K → Y[i * st]? = some (y i)) (hB : ∀ i < K, |((y i).val : ℝ)| ≤ B)
    (x0 dx : Binary p) (hdx : dx.val ≠ 0) :
    ∃ s, Rounded.make K junk Y x0 dx st = .ok s ∧ ∃ S, IsNaturalSpline K (fun i => ((y i).val : ℝ)) S ∧
      ∀ x : Binary p, |((x.val : ℝ) - x0.val) / dx.val| ≤ 2000000000 → ∃ r τ : Binary p, s.call Binary.trunc K x = .ok r ∧
        |(τ.val : ℝ) - (x.val - x0.val) / dx.val| ≤ 2.01 / 2 ^ p * |((x.val : ℝ) - x0.val) / dx.val| ∧ (x0.val = 0 → dx.val = 1 → τ.val = x.val) ∧
        (∀ far : ℝ, 0 ≤ far → -far ≤ τ.val → (τ.val : ℝ) ≤ K - 1 + far → |(r.val : ℝ) - S τ.val| ≤ 340 / 2 ^ p * B * (1 + far) ^ 3) ∧
        ∀ k : ℕ, k + 1 < K → τ.val = k → r = y k := by
  have hy' : ∀ i, i < K → rd Y ((i : ℤ) * st) = .ok (y i) := fun i hi => by
    have : ((i : ℤ) * st) = ((i * st : ℕ) : ℤ) := by push_cast; ring
    rw [this, rd_of_getElem? (by omega) (by rw [Int.toNat_natCast]; exact hy i hi)]
  have w0 : wr junk 0 ((0 : ℤ) : Binary p) = .ok (junk.set 0 ((0 : ℤ) : Binary p)) := wr_nat (i := 0) (by omega)
  have g0 : (junk.set 0 ((0 : ℤ) : Binary p))[0]? = some ((0 : ℤ) : Binary p) := getElem_set p 0 _ hj (by omega)
  obtain ⟨U, Z, e1, hUZ⟩ := forward_ok' p hp y K hK Y st hy' (junk.set 0 ((0 : ℤ) : Binary p)) (junk.set 0 ((0 : ℤ) : Binary p)) (by simp [hj]) (by simp [hj]) g0 g0
  obtain ⟨t, e2, ht⟩ := backward_ok' p hp y K hK Y st hy' U Z junk hj hUZ
  refine ⟨⟨t.A, t.B, t.C, t.D, x0, dx⟩, ?_, S (fun i => ((y i).val : ℝ)) K, S_natural _ K hK, ?_⟩
  · simp only [Rounded.make, w0, bind, Except.bind, pure, Except.pure]
    simp only [e1, e2]
  · intro x hx
    have hdx' : (dx.val : ℝ) ≠ 0 := by exact_mod_cast hdx
    obtain ⟨hτ, hsize, hplain⟩ := tx_ok p hp x x0 dx hdx' hx
    simp only [Rounded.call, bind, Except.bind, pure, Except.pure]
    rw [Fir.fdiv_ok' p _ _ hdx']
    simp only []
    obtain ⟨e3, k1, k2⟩ := trunc_ok p ((x - x0) / dx) hsize
    rw [e3]
    simp only []
    obtain ⟨m, o, n1, n2, n3, n4, n5⟩ := locate_ok' p K hK hK2 ((x - x0) / dx) _ k1 k2
    rw [n4]
    simp only []
    obtain ⟨a1, a2, a3, a4⟩ := ht m (by omega)
    rw [rd_of_getElem? (by omega) (by simpa using a1), rd_of_getElem? (by omega) (by simpa using a2), rd_of_getElem? (by omega) (by simpa using a3),
      rd_of_getElem? (by omega) (by simpa using a4)]
    simp only []
    refine ⟨y m + o * (bb p y K m + o * (cb p y K m + o * db p y K m)), (x - x0) / dx, rfl, hτ, hplain, ?_, ?_⟩
    · intro far hf f1 f2
      have hS : S (fun i => ((y i).val : ℝ)) K ((x - x0) / dx).val = p0 (fun i => ((y i).val : ℝ)) K m ((x - x0) / dx).val := pieces_eq _ _ _ (mono _) m n1 _ n2 n3
      rw [hS, p0]
      refine (value_error p hp y K B hB m (by omega) o _ (1 + far) n5 (by linarith) ?_).trans (le_of_eq (by ring))
      rw [abs_le]
      constructor
      · rcases n2 with h | h
        · subst h; push_cast; linarith
        · linarith
      · rcases n3 with h | h
        · have : (m : ℝ) = K - 2 := by rw [h, Nat.cast_sub hK]; push_cast; rfl
          linarith
        · push_cast at h; linarith
    · intro k hk hτk
      have hτk' : (((x - x0) / dx).val : ℝ) = k := by rw [hτk]; norm_num
      have emk : m = k := by
        rw [hτk'] at n2 n3
        have h1 : m ≤ k := by
          rcases n2 with h | h
          · omega
          · exact_mod_cast h
        have h2 : k ≤ m := by
          rcases n3 with h | h
          · omega
          · have : k < m + 1 := by exact_mod_cast h
            omega
        omega
      subst emk
      rw [hτk', sub_self, abs_zero, mul_zero, sub_zero] at n5
      have ho : o.val = 0 := by
        have := abs_nonpos_iff.mp n5
        exact_mod_cast this
      rw [add_zero' p _ _ (zero_mul' p _ _ ho)]

/-- Two knots at `1` and `2^-30`: -/
def lastKnot : M (Binary 24) := do
  let y := [((1 : ℤ) : Binary 24), Binary.literal 64 24 (1 / 2 ^ 30)]
  let s ← Rounded.make 2 [0] y ((0 : ℤ) : Binary 24) ((1 : ℤ) : Binary 24) 1
  s.call Binary.trunc 2 ((1 : ℤ) : Binary 24)

set_option maxRecDepth 100000 in
theorem last_knot : (match lastKnot with | .ok r => decide (r.val = 0) | .error _ => false) = true := by decide +kernel

/-- **C90** At the last knot the value need not be the datum: in `float` the natural spline through `1` and `2^-30` is zero at the second knot. -/
theorem C90_last_knot : ∃ r, lastKnot = .ok r ∧ r.val = 0 ∧ (Binary.literal 64 24 (1 / 2 ^ 30)).val ≠ 0 := by
  have h := last_knot
  revert h
  rcases lastKnot with e | r <;> intro h
  · exact absurd h (by simp)
  · exact ⟨r, rfl, of_decide_eq_true h, by decide +kernel⟩

example : ∀ i < 3, |(((fun i : ℕ => (((i : ℤ) ^ 2 : ℤ) : Binary 24)) i).val : ℝ)| ≤ 4 := by
  intro i hi
  interval_cases i
  · rw [Binary.cast_exact 24 _ (by norm_num)]; norm_num
  · rw [Binary.cast_exact 24 _ (by norm_num)]; norm_num
  · rw [Binary.cast_exact 24 _ (by norm_num)]; norm_num

end NaturalSpline
end DSP
