import Verif.Model.Regression
import Verif.Props.Regression
import Verif.Props.FirError
import Verif.Props.WindowError
import Verif.Lemmas.Shift
import Verif.Lemmas.BinaryMono
import Verif.Lemmas.BinaryUnits
import Verif.Lemmas.RelSize
import Verif.Lemmas.RoundedSum

/-!
# The linear regression in floating point (C94)
-/

namespace DSP
namespace Regression

open Spec Finset

/-! ### The loops, exact or rounded -/

section loops
variable {α : Type} [Zero α] [Add α] [Sub α] [Mul α] [Div α] [IntCast α] [OfNat α 2]

/-- A sum from the left that begins with zero. -/
def sumTo (f : ℕ → α) (n : ℕ) : α := (List.range n).foldl (fun s j => s + f j) 0

theorem sumTo_succ (f : ℕ → α) (n : ℕ) : sumTo f (n + 1) = sumTo f n + f n := by
  rw [sumTo, List.range_succ, List.foldl_append]; rfl

theorem avgLoop'_sum (y : ℕ → α) (L k : ℕ) (n i : ℕ) (hk : i + n = L) (hi : i = k) : avgLoop' ((List.range L).map y) n i (sumTo y k) = .ok (sumTo y L) := by
  induction n generalizing i k with
  | zero => subst hi; rw [show L = i by omega]; rfl
  | succ n ih =>
    subst hi
    unfold avgLoop'
    rw [rd_map_range y L i i rfl (by omega)]
    have := ih (i + 1) (i + 1) (by omega) rfl
    rw [sumTo_succ] at this
    push_cast at this
    exact this

theorem avgLoop_sum (x y : ℕ → α) (L k : ℕ) (n i : ℕ) (hk : i + n = L) (hi : i = k) :
    avgLoop ((List.range L).map x) ((List.range L).map y) n i (sumTo x k) (sumTo y k) = .ok (sumTo x L, sumTo y L) := by
  induction n generalizing i k with
  | zero => subst hi; rw [show L = i by omega]; rfl
  | succ n ih =>
    subst hi
    unfold avgLoop
    rw [rd_map_range x L i i rfl (by omega), rd_map_range y L i i rfl (by omega)]
    have := ih (i + 1) (i + 1) (by omega) rfl
    rw [sumTo_succ, sumTo_succ] at this
    push_cast at this
    exact this

theorem varLoop'_sum (y : ℕ → α) (dx midL avgY : α) (L k : ℕ) (n i : ℕ) (hk : i + n = L) (hi : i = k) :
    varLoop' ((List.range L).map y) dx midL avgY n i (sumTo (fun j => (dx * (((j : ℤ) : α) - midL)) * (dx * (((j : ℤ) : α) - midL))) k) (sumTo (fun j => (dx * (((j : ℤ) : α) - midL)) * (y j - avgY)) k) =
      .ok (sumTo (fun j => (dx * (((j : ℤ) : α) - midL)) * (dx * (((j : ℤ) : α) - midL))) L, sumTo (fun j => (dx * (((j : ℤ) : α) - midL)) * (y j - avgY)) L) := by
  induction n generalizing i k with
  | zero => subst hi; rw [show L = i by omega]; rfl
  | succ n ih =>
    subst hi
    unfold varLoop'
    rw [rd_map_range y L i i rfl (by omega)]
    have := ih (i + 1) (i + 1) (by omega) rfl
    rw [sumTo_succ, sumTo_succ] at this
    push_cast at this
    exact this

theorem varLoop_sum (x y : ℕ → α) (avgX avgY : α) (L k : ℕ) (n i : ℕ) (hk : i + n = L) (hi : i = k) :
    varLoop ((List.range L).map x) ((List.range L).map y) avgX avgY n i (sumTo (fun j => (x j - avgX) * (x j - avgX)) k) (sumTo (fun j => (x j - avgX) * (y j - avgY)) k) =
      .ok (sumTo (fun j => (x j - avgX) * (x j - avgX)) L, sumTo (fun j => (x j - avgX) * (y j - avgY)) L) := by
  induction n generalizing i k with
  | zero => subst hi; rw [show L = i by omega]; rfl
  | succ n ih =>
    subst hi
    unfold varLoop
    rw [rd_map_range x L i i rfl (by omega), rd_map_range y L i i rfl (by omega)]
    have := ih (i + 1) (i + 1) (by omega) rfl
    rw [sumTo_succ, sumTo_succ] at this
    push_cast at this
    exact this

/-- The constructor for a uniform grid. -/
theorem uniform_eq (y : ℕ → α) (L : ℕ) (x0 dx : α) : uniform ((List.range L).map y) L x0 dx = .ok (
    let midL : α := (((L : ℤ) - 1 : ℤ) : α) / 2
    let avgY : α := sumTo y L / ((L : ℤ) : α)
    finish (x0 + dx * midL) avgY (sumTo (fun j => (dx * (((j : ℤ) : α) - midL)) * (dx * (((j : ℤ) : α) - midL))) L) (sumTo (fun j => (dx * (((j : ℤ) : α) - midL)) * (y j - avgY)) L)) := by
  have h1 := avgLoop'_sum y L 0 L 0 (by omega) rfl
  have h2 := varLoop'_sum y dx ((((L : ℤ) - 1 : ℤ) : α) / 2) (sumTo y L / ((L : ℤ) : α)) L 0 L 0 (by omega) rfl
  unfold uniform
  simp only [Int.toNat_natCast]
  simp only [show ∀ f : ℕ → α, sumTo f 0 = 0 from fun _ => rfl, Nat.cast_zero] at h1 h2
  rw [h1]
  simp only [bind, Except.bind]
  rw [h2]
  rfl

/-- The constructor for any places. -/
theorem general_eq' (x y : ℕ → α) (L : ℕ) : general ((List.range L).map x) ((List.range L).map y) L = .ok (
    let avgX : α := sumTo x L / ((L : ℤ) : α)
    let avgY : α := sumTo y L / ((L : ℤ) : α)
    finish avgX avgY (sumTo (fun j => (x j - avgX) * (x j - avgX)) L) (sumTo (fun j => (x j - avgX) * (y j - avgY)) L)) := by
  have h1 := avgLoop_sum x y L 0 L 0 (by omega) rfl
  have h2 := varLoop_sum x y (sumTo x L / ((L : ℤ) : α)) (sumTo y L / ((L : ℤ) : α)) L 0 L 0 (by omega) rfl
  unfold general
  simp only [Int.toNat_natCast]
  simp only [show ∀ f : ℕ → α, sumTo f 0 = 0 from fun _ => rfl, Nat.cast_zero] at h1 h2
  rw [h1]
  simp only [bind, Except.bind]
  rw [h2]
  rfl

end loops

theorem sumTo_real (f : ℕ → ℝ) (n : ℕ) : sumTo f n = ∑ j ∈ range n, f j := by
  induction n with
  | zero => rfl
  | succ n ih => rw [sumTo_succ, ih, sum_range_succ]

variable {p : ℕ} [NeZero p]

theorem sumTo_relS (f : ℕ → Binary p) (T S : ℕ → ℝ) (K n : ℕ) (h : ∀ j < n, RelS (1 / 2 ^ p) K ((f j).val : ℝ) (T j) (S j)) :
    RelS (1 / 2 ^ p) (K + n) ((sumTo f n).val : ℝ) (∑ j ∈ range n, T j) (∑ j ∈ range n, S j) := by
  have hu0 : (0 : ℝ) ≤ 1 / 2 ^ p := by positivity
  induction n with
  | zero =>
    have : ((sumTo f 0).val : ℝ) = 0 := by show ((0 : ℚ) : ℝ) = 0; norm_num
    rw [this]
    exact ⟨by simp, by simp⟩
  | succ n ih =>
    rw [sumTo_succ, sum_range_succ, sum_range_succ]
    exact RelS.add hu0 (ih fun j hj => h j (by omega)) ((h n (by omega)).mono hu0 (Nat.le_add_right K n) le_rfl) ((binary_roundedField p).add _ _)

/-- The mean of numbers that are not rounded before. -/
theorem mean_relS (f : ℕ → Binary p) (L : ℕ) (hL : 1 ≤ L) (hLp : L < 2 ^ p) (Y : ℝ) (h : ∀ j < L, |((f j).val : ℝ)| ≤ Y) :
    RelS (1 / 2 ^ p) (L + 1) ((sumTo f L / ((L : ℤ) : Binary p) : Binary p).val : ℝ) ((∑ j ∈ range L, ((f j).val : ℝ)) / L) Y := by
  have hu0 : (0 : ℝ) ≤ 1 / 2 ^ p := by positivity
  have h1 := sumTo_relS f (fun j => ((f j).val : ℝ)) (fun _ => Y) 0 L (fun j hj => (Rel.refl _ _).sized hu0 le_rfl (h j hj))
  rw [zero_add, sum_const, card_range, nsmul_eq_mul] at h1
  have hL0 : (0 : ℝ) < L := by exact_mod_cast hL
  have hc : ((((L : ℤ) : Binary p)).val : ℝ) = L := by
    have := Binary.cast_exact p (L : ℤ) (by rw [abs_of_nonneg (by positivity)]; exact_mod_cast hLp)
    rw [this]; push_cast; rfl
  have hd := (binary_roundedField p).div (sumTo f L) ((L : ℤ) : Binary p) (by show ((((L : ℤ) : Binary p)).val : ℝ) ≠ 0; rw [hc]; exact hL0.ne')
  simp only [hc] at hd
  refine RelS.round hu0 (a := ((sumTo f L).val : ℝ) / L) ⟨?_, ?_⟩ hd
  · rw [← sub_div, abs_div, abs_of_pos hL0, div_le_iff₀ hL0]
    refine h1.1.trans (le_of_eq (by ring))
  · rw [abs_div, abs_of_pos hL0, div_le_iff₀ hL0]
    refine h1.2.trans (le_of_eq (by ring))

/-- The quotient of two sums. -/
theorem quotient_error (u a b c C v V r : ℝ) (hV : 0 < V) (hb0 : 0 ≤ b) (hb : b ≤ 0.07) (hv : |v - V| ≤ b * V) (hc : |c - C| ≤ a) (hr : v ≠ 0 → |r - c / v| ≤ u * |c / v|) :
    0 < v ∧ |c / v - C / V| ≤ 1.08 * (a / V + b * |C / V|) ∧ |r - c / v| ≤ u * |c / v| := by
  have hv1 := abs_le.mp hv
  have hv0 : 0 < v := by nlinarith
  have ha : 0 ≤ a := (abs_nonneg _).trans hc
  refine ⟨hv0, ?_, hr hv0.ne'⟩
  have hv2 : 0.93 * V ≤ v := by nlinarith
  have e : c / v - C / V = (c - C) / v + C / V * ((V - v) / v) := by field_simp; ring
  have h1 : |(c - C) / v| ≤ 1.08 * (a / V) := by
    rw [abs_div, abs_of_pos hv0, div_le_iff₀ hv0]
    have : a ≤ 1.08 * (a / V) * (0.93 * V) := by
      rw [show 1.08 * (a / V) * (0.93 * V) = 1.0044 * a * (V / V) by ring, div_self hV.ne']
      linarith
    have h2 : 1.08 * (a / V) * (0.93 * V) ≤ 1.08 * (a / V) * v := mul_le_mul_of_nonneg_left hv2 (by positivity)
    linarith
  have h2 : |(V - v) / v| ≤ 1.08 * b := by
    rw [abs_div, abs_of_pos hv0, div_le_iff₀ hv0, abs_sub_comm]
    have : b * V ≤ 1.08 * b * (0.93 * V) := by nlinarith [mul_nonneg hb0 hV.le]
    have h3 : 1.08 * b * (0.93 * V) ≤ 1.08 * b * v := mul_le_mul_of_nonneg_left hv2 (by positivity)
    linarith
  rw [e]
  calc _ ≤ |(c - C) / v| + |C / V| * |(V - v) / v| := by rw [← abs_mul]; exact abs_add_le _ _
    _ ≤ 1.08 * (a / V) + |C / V| * (1.08 * b) := add_le_add h1 (mul_le_mul_of_nonneg_left h2 (abs_nonneg _))
    _ = _ := by ring

/-! ### The uniform grid -/

/-- The places relative to the middle. -/
noncomputable def off (L j : ℕ) : ℝ := (j : ℝ) - ((L : ℝ) - 1) / 2

theorem sum_off_sq (L : ℕ) : ∑ j ∈ range L, off L j * off L j = (L : ℝ) * ((L : ℝ) ^ 2 - 1) / 12 := by
  have h : ∀ (n : ℕ) (m : ℝ), ∑ j ∈ range n, ((j : ℝ) - m) * ((j : ℝ) - m) = (n : ℝ) * ((n : ℝ) - 1) * (2 * n - 1) / 6 - m * (n * (n - 1)) + n * m ^ 2 := by
    intro n m
    induction n with
    | zero => simp
    | succ n ih => rw [sum_range_succ, ih]; push_cast; ring
  have := h L (((L : ℝ) - 1) / 2)
  unfold off
  rw [this]; ring

theorem sum_off_abs (L : ℕ) (hL : 2 ≤ L) : ∑ j ∈ range L, |off L j| ≤ 4.04 / L * ∑ j ∈ range L, off L j * off L j := by
  have hL' : (2 : ℝ) ≤ L := by exact_mod_cast hL
  have hL0 : (0 : ℝ) < L := by linarith
  have hp : ∀ t : ℝ, |t| ≤ 7 / (4 * L) * (t * t) + L / 7 := by
    intro t
    have h : 0 ≤ (7 * |t| - 2 * L) ^ 2 := sq_nonneg _
    rw [← abs_mul_abs_self t, ← mul_le_mul_iff_of_pos_left (by positivity : (0 : ℝ) < 28 * L)]
    have : 28 * (L : ℝ) * (7 / (4 * L) * (|t| * |t|) + L / 7) = 49 * (|t| * |t|) + 4 * L ^ 2 := by field_simp; ring
    rw [this]
    nlinarith
  have h1 : ∑ j ∈ range L, |off L j| ≤ ∑ j ∈ range L, (7 / (4 * L) * (off L j * off L j) + L / 7) := sum_le_sum fun j _ => hp _
  rw [sum_add_distrib, ← mul_sum, sum_const, card_range, nsmul_eq_mul] at h1
  refine h1.trans ?_
  have h2 : (L : ℝ) * (L / 7) ≤ 2.29 / L * ∑ j ∈ range L, off L j * off L j := by
    rw [sum_off_sq, div_mul_eq_mul_div, le_div_iff₀ hL0]
    nlinarith
  have h3 : 0 ≤ ∑ j ∈ range L, off L j * off L j := sum_nonneg fun j _ => mul_self_nonneg _
  have h4 : (7 / (4 * (L : ℝ))) * ∑ j ∈ range L, off L j * off L j = 1.75 / L * ∑ j ∈ range L, off L j * off L j := by
    rw [show (7 / (4 * (L : ℝ))) = 1.75 / L by field_simp; norm_num]
  rw [h4, show (4.04 : ℝ) / L = 1.75 / L + 2.29 / L by ring, add_mul]
  linarith

theorem off_exact (L j : ℕ) (hj : j < L) (hLp : L < 2 ^ p) (hp : 2 ≤ p) :
    ((((j : ℤ) : Binary p) - (((L : ℤ) - 1 : ℤ) : Binary p) / 2 : Binary p).val : ℝ) = off L j := by
  have hL' : ((L : ℤ)) < 2 ^ p := by exact_mod_cast hLp
  have htwo : (2 : Binary p).val = 2 := by
    have := Binary.cast_exact p 2 (by
      calc |(2 : ℤ)| = 2 := rfl
        _ < 2 ^ 2 := by norm_num
        _ ≤ 2 ^ p := pow_le_pow_right₀ (by norm_num) (by omega))
    exact this
  have h1 : ((((L : ℤ) - 1 : ℤ) : Binary p)).val = ((L : ℤ) - 1 : ℤ) := Binary.cast_exact p _ (by rw [abs_of_nonneg (by omega)]; omega)
  have h2 : ((((L : ℤ) - 1 : ℤ) : Binary p) / 2 : Binary p).val = ((L : ℤ) - 1 : ℤ) * (2 : ℚ) ^ (-1 : ℤ) := by
    show Binary.round p ((((L : ℤ) - 1 : ℤ) : Binary p).val / (2 : Binary p).val) = _
    rw [h1, htwo, show ((((L : ℤ) - 1 : ℤ)) : ℚ) / 2 = (((L : ℤ) - 1 : ℤ) : ℚ) * (2 : ℚ) ^ (-1 : ℤ) by rw [zpow_neg_one]; rfl]
    exact Binary.round_of_representable p _ ⟨_, -1, by rw [abs_of_nonneg (by omega)]; omega, rfl⟩
  have h3 : (((j : ℤ) : Binary p)).val = (j : ℤ) := Binary.cast_exact p _ (by rw [abs_of_nonneg (by omega)]; omega)
  have h4 : (((j : ℤ) : Binary p) - (((L : ℤ) - 1 : ℤ) : Binary p) / 2 : Binary p).val = ((2 * j - (L - 1) : ℤ) : ℚ) * (2 : ℚ) ^ (-1 : ℤ) := by
    show Binary.round p ((((j : ℤ) : Binary p)).val - ((((L : ℤ) - 1 : ℤ) : Binary p) / 2 : Binary p).val) = _
    rw [h2, h3, show (((j : ℤ) : ℚ) - (((L : ℤ) - 1 : ℤ) : ℚ) * (2 : ℚ) ^ (-1 : ℤ)) = ((2 * j - (L - 1) : ℤ) : ℚ) * (2 : ℚ) ^ (-1 : ℤ) by rw [zpow_neg_one]; push_cast; ring]
    exact Binary.round_of_representable p _ ⟨_, -1, by rw [abs_lt]; constructor <;> omega, rfl⟩
  rw [h4, off, zpow_neg_one]
  push_cast
  ring

/-- The bounds for the slope on a uniform grid. -/
theorem uniform_slope (u L Y h S1 S2 c C v r : ℝ) (hu0 : 0 ≤ u) (hL : 2 ≤ L) (hLu : 20 * (L + 2) * u ≤ 1) (hY : 0 ≤ Y) (hh : h ≠ 0) (hS2 : 0 < S2) (hS1 : S1 ≤ 4.04 / L * S2)
    (hv : |v - h * h * S2| ≤ 1.1 * (L + 3) * u * (h * h * S2)) (hc : |c - C| ≤ 1.1 * (2 * L + 4) * u * (2 * Y * |h| * S1)) (hC : |C| ≤ 2 * Y * |h| * S1) (hr : v ≠ 0 → |r - c / v| ≤ u * |c / v|) :
    v ≠ 0 ∧ |C / (h * h * S2)| ≤ 4.05 * (Y / |h|) ∧ |r - C / (h * h * S2)| ≤ 68 * u * (Y / |h|) := by
  have hh0 : 0 < |h| := abs_pos.mpr hh
  have hhh : h * h = |h| * |h| := (abs_mul_abs_self h).symm
  have hV : 0 < h * h * S2 := by rw [hhh]; positivity
  have hL0 : 0 < L := by linarith
  have hYh : 0 ≤ Y / |h| := by positivity
  -- the size of the slope
  have k1 : 2 * Y * |h| * S1 / (h * h * S2) ≤ 8.08 / L * (Y / |h|) := by
    rw [div_le_iff₀ hV]
    calc 2 * Y * |h| * S1 ≤ 2 * Y * |h| * (4.04 / L * S2) := mul_le_mul_of_nonneg_left hS1 (by positivity)
      _ = _ := by rw [hhh]; field_simp; ring
  have k2 : |C / (h * h * S2)| ≤ 8.08 / L * (Y / |h|) := by
    rw [abs_div, abs_of_pos hV]
    exact (div_le_div_of_nonneg_right hC hV.le).trans k1
  have hb : 1.1 * (L + 3) * u ≤ 0.07 := by nlinarith
  obtain ⟨v0, q1, q2⟩ := quotient_error u _ (1.1 * (L + 3) * u) c C v _ r hV (by positivity) hb hv hc hr
  have a1 : 1.1 * (2 * L + 4) * u * (2 * Y * |h| * S1) / (h * h * S2) ≤ 35.6 * u * (Y / |h|) := by
    rw [mul_div_assoc]
    calc _ ≤ 1.1 * (2 * L + 4) * u * (8.08 / L * (Y / |h|)) := mul_le_mul_of_nonneg_left k1 (by positivity)
      _ = (8.888 * (2 * L + 4) / L) * (u * (Y / |h|)) := by ring
      _ ≤ 35.6 * (u * (Y / |h|)) := by
        refine mul_le_mul_of_nonneg_right ?_ (by positivity)
        rw [div_le_iff₀ hL0]; linarith
      _ = _ := by ring
  have a2 : 1.1 * (L + 3) * u * |C / (h * h * S2)| ≤ 22.3 * u * (Y / |h|) := by
    calc _ ≤ 1.1 * (L + 3) * u * (8.08 / L * (Y / |h|)) := mul_le_mul_of_nonneg_left k2 (by positivity)
      _ = (8.888 * (L + 3) / L) * (u * (Y / |h|)) := by ring
      _ ≤ 22.3 * (u * (Y / |h|)) := by
        refine mul_le_mul_of_nonneg_right ?_ (by positivity)
        rw [div_le_iff₀ hL0]; linarith
      _ = _ := by ring
  have k3 : |C / (h * h * S2)| ≤ 4.05 * (Y / |h|) := by
    refine k2.trans (mul_le_mul_of_nonneg_right ?_ hYh)
    rw [div_le_iff₀ hL0]; linarith
  have q3 : |c / v - C / (h * h * S2)| ≤ 62.6 * u * (Y / |h|) := by
    refine q1.trans ?_
    have : 0 ≤ u * (Y / |h|) := by positivity
    linarith
  have q4 : |c / v| ≤ (4.05 + 62.6 * u) * (Y / |h|) := by
    have := abs_sub_abs_le_abs_sub (c / v) (C / (h * h * S2))
    linarith
  refine ⟨v0.ne', k3, ?_⟩
  calc |r - C / (h * h * S2)| ≤ |r - c / v| + |c / v - C / (h * h * S2)| := abs_sub_le _ _ _
    _ ≤ u * ((4.05 + 62.6 * u) * (Y / |h|)) + 62.6 * u * (Y / |h|) := add_le_add (q2.trans (mul_le_mul_of_nonneg_left q4 hu0)) q3
    _ = (4.05 + 62.6 * u + 62.6) * u * (Y / |h|) := by ring
    _ ≤ _ := by
      have : u ≤ 1 / 80 := by nlinarith
      refine mul_le_mul_of_nonneg_right (mul_le_mul_of_nonneg_right (by linarith) hu0) hYh

set_option maxHeartbeats 1000000 in
/-- The value of the line. -/
theorem uniform_value (u L Y h A x s s' m m' g g' w i z e : ℝ) (hu0 : 0 ≤ u) (hu : u ≤ 1 / 1000) (hL : 2 ≤ L) (hLu : 20 * (L + 2) * u ≤ 1) (hY : 0 ≤ Y) (hh : 0 < h) (hs : |s| ≤ 4.05 * (Y / h)) (hs' : |s' - s| ≤ 68 * u * (Y / h))
    (hm : RelS u 2 m' m A) (hg : |g| ≤ Y) (hg' : |g' - g| ≤ 1.1 * (L + 1) * u * Y) (hw : |w - s' * m'| ≤ u * |s' * m'|) (hi : |i - (g' - w)| ≤ u * |g' - w|) (hz : |z - s' * x| ≤ u * |s' * x|)
    (he : |e - (i + z)| ≤ u * |i + z|) : |e - (g + s * (x - m))| ≤ u * Y * (3 * L + 100 * ((A + |x|) / h)) := by
  have hYh : 0 ≤ Y / h := by positivity
  have hA : 0 ≤ A := (abs_nonneg _).trans hm.2
  have r1 : RelS u 17 s' s (4.05 * (Y / h)) := by
    refine ⟨hs'.trans ?_, hs⟩
    have := one_add_mul_le_pow (by linarith : (-2 : ℝ) ≤ u) 17
    push_cast at this
    nlinarith [mul_nonneg hu0 hYh]
  have r2 : RelS u 20 w (s * m) (4.05 * (Y / h) * A) := RelS.mul hu0 r1 hm hw
  have r3 : RelS u 18 z (s * x) (4.05 * (Y / h) * |x|) := RelS.mul hu0 r1 ((Rel.refl u x).sized hu0 le_rfl le_rfl) hz
  have p20 := pow_units u hu0 20 (by push_cast; linarith)
  have p18 := pow_units u hu0 18 (by push_cast; linarith)
  have XA : 0 ≤ 4.05 * (Y / h) * A := by positivity
  have Xx : 0 ≤ 4.05 * (Y / h) * |x| := by positivity
  have e2 : |w - s * m| ≤ 22 * u * (4.05 * (Y / h) * A) := r2.1.trans (mul_le_mul_of_nonneg_right (by push_cast at p20; linarith) XA)
  have e3 : |z - s * x| ≤ 19.8 * u * (4.05 * (Y / h) * |x|) := r3.1.trans (mul_le_mul_of_nonneg_right (by push_cast at p18; linarith) Xx)
  set P := 4.05 * (Y / h) * A with hP
  set Q := 4.05 * (Y / h) * |x| with hQ
  have hLu' : 1.1 * (L + 1) * u ≤ 0.056 := by nlinarith
  have hgY : 1.1 * (L + 1) * u * Y ≤ 0.056 * Y := mul_le_mul_of_nonneg_right hLu' hY
  -- the intercept
  have d0 : |(g' - w) - (g - s * m)| ≤ 1.1 * (L + 1) * u * Y + 22 * u * P := by
    rw [show (g' - w) - (g - s * m) = (g' - g) - (w - s * m) by ring]
    exact (abs_sub _ _).trans (add_le_add hg' e2)
  have d1 : |g - s * m| ≤ Y + P := (abs_sub _ _).trans (add_le_add hg r2.2)
  have uP : u * P ≤ 1 / 1000 * P := mul_le_mul_of_nonneg_right hu XA
  have uQ : u * Q ≤ 1 / 1000 * Q := mul_le_mul_of_nonneg_right hu Xx
  have d2 : |g' - w| ≤ 1.06 * Y + 1.03 * P := by
    have := abs_sub_abs_le_abs_sub (g' - w) (g - s * m)
    linarith
  have uYP : u * |g' - w| ≤ u * (1.06 * Y + 1.03 * P) := mul_le_mul_of_nonneg_left d2 hu0
  have d3 : |i - (g - s * m)| ≤ 1.1 * (L + 1) * u * Y + 22 * u * P + u * (1.06 * Y + 1.03 * P) := by
    calc _ ≤ |i - (g' - w)| + |(g' - w) - (g - s * m)| := abs_sub_le _ _ _
      _ ≤ _ := by linarith
  -- the value
  have d4 : |(i + z) - (g - s * m + s * x)| ≤ 1.1 * (L + 1) * u * Y + 22 * u * P + u * (1.06 * Y + 1.03 * P) + 19.8 * u * Q := by
    rw [show (i + z) - (g - s * m + s * x) = (i - (g - s * m)) + (z - s * x) by ring]
    exact (abs_add_le _ _).trans (add_le_add d3 e3)
  have d5 : |g - s * m + s * x| ≤ Y + P + Q := (abs_add_le _ _).trans (add_le_add d1 r3.2)
  have uY : u * Y ≤ 1 / 1000 * Y := mul_le_mul_of_nonneg_right hu hY
  have d6 : |i + z| ≤ 1.1 * Y + 1.1 * P + 1.1 * Q := by
    have := abs_sub_abs_le_abs_sub (i + z) (g - s * m + s * x)
    have : u * (1.06 * Y + 1.03 * P) = 1.06 * (u * Y) + 1.03 * (u * P) := by ring
    linarith
  have d7 : |e - (g - s * m + s * x)| ≤ u * (1.1 * Y + 1.1 * P + 1.1 * Q) + (1.1 * (L + 1) * u * Y + 22 * u * P + u * (1.06 * Y + 1.03 * P) + 19.8 * u * Q) := by
    calc _ ≤ |e - (i + z)| + |(i + z) - (g - s * m + s * x)| := abs_sub_le _ _ _
      _ ≤ _ := add_le_add (he.trans (mul_le_mul_of_nonneg_left d6 hu0)) d4
  rw [show g + s * (x - m) = g - s * m + s * x by ring]
  refine d7.trans ?_
  have hP' : P = 4.05 * (Y * (A / h)) := by rw [hP]; ring
  have hQ' : Q = 4.05 * (Y * (|x| / h)) := by rw [hQ]; ring
  rw [hP', hQ', show (A + |x|) / h = A / h + |x| / h by ring]
  have t1 : 0 ≤ u * (Y * (A / h)) := by positivity
  have t2 : 0 ≤ u * (Y * (|x| / h)) := by positivity
  have t3 : 0 ≤ u * Y := by positivity
  have t4 : u * Y * 2 ≤ u * Y * L := mul_le_mul_of_nonneg_left hL t3
  set a := u * (Y * (A / h)) with ha
  set b := u * (Y * (|x| / h)) with hb
  set y := u * Y with hy
  calc _ = (1.1 * y + 4.455 * a + 4.455 * b + 1.1 * (y * L) + 1.1 * y + 89.1 * a + 1.06 * y + 4.1715 * a + 80.19 * b) := by rw [ha, hb, hy]; ring
    _ ≤ 3 * (y * L) + 100 * a + 100 * b := by linarith
    _ = _ := by rw [ha, hb, hy]; ring

/-- **C94** The regression on a uniform grid in floating point: the slope is within 68 units of rounding of `Y/|dx|` of the least squares slope, whatever the number of samples (up to about a twentieth of
`2^p`) and their values (bounded by `Y`) are; and so is the value of the line at `x` within `(3l + 100(|x0| + |dx|(l-1)/2 + |x|)/|dx|)` units of `Y`. The exact line is that of the model in real numbers (C29). -/
theorem C94_uniform (hp : 10 ≤ p) (y : ℕ → Binary p) (L : ℕ) (hL : 2 ≤ L) (hLp : 20 * (L + 2) ≤ 2 ^ p) (Y : ℝ) (hY : ∀ j < L, |((y j).val : ℝ)| ≤ Y) (x0 dx : Binary p) (hdx : dx.val ≠ 0) :
    ∃ f F, uniform ((List.range L).map y) L x0 dx = .ok f ∧ uniform ((List.range L).map fun j => ((y j).val : ℝ)) L (x0.val : ℝ) (dx.val : ℝ) = .ok F ∧
      |(f.slope.val : ℝ) - F.slope| ≤ 68 / 2 ^ p * (Y / |(dx.val : ℝ)|) ∧
      ∀ x : Binary p, |((f.eval x).val : ℝ) - F.eval (x.val : ℝ)| ≤ Y / 2 ^ p * (3 * L + 100 * ((|(x0.val : ℝ)| + |(dx.val : ℝ)| * ((L - 1) / 2) + |(x.val : ℝ)|) / |(dx.val : ℝ)|)) := by
  have hR := binary_roundedField p
  have hu := Win.unit_small p hp
  have hu0 : (0 : ℝ) ≤ 1 / 2 ^ p := by positivity
  have hL' : (2 : ℝ) ≤ L := by exact_mod_cast hL
  have hL0 : (0 : ℝ) < L := by linarith
  have hLu : 20 * ((L : ℝ) + 2) * (1 / 2 ^ p) ≤ 1 := by
    rw [mul_one_div, div_le_one (by positivity)]
    exact_mod_cast hLp
  have hLp' : L < 2 ^ p := by omega
  have hY0 : 0 ≤ Y := (abs_nonneg _).trans (hY 0 (by omega))
  have hdx' : (dx.val : ℝ) ≠ 0 := by exact_mod_cast hdx
  have hdx0 : 0 < |(dx.val : ℝ)| := abs_pos.mpr hdx'
  refine ⟨_, _, uniform_eq y L x0 dx, uniform_eq _ L _ _, ?_⟩
  simp only [finish, Line.eval]
  -- the rounded values
  set mid : Binary p := (((L : ℤ) - 1 : ℤ) : Binary p) / 2 with hmid
  set g' : Binary p := sumTo y L / ((L : ℤ) : Binary p) with hg'
  set g : ℝ := (∑ j ∈ range L, ((y j).val : ℝ)) / L with hg
  have eg : sumTo (fun j => ((y j).val : ℝ)) L / (((L : ℤ)) : ℝ) = g := by rw [sumTo_real, Int.cast_natCast]
  have emid : ((((L : ℤ) - 1 : ℤ) : ℝ) / 2) = ((L : ℝ) - 1) / 2 := by push_cast; ring
  rw [eg, emid]
  simp only [Int.cast_natCast]
  rw [sumTo_real, sumTo_real]
  have hgR : RelS (1 / 2 ^ p) (L + 1) (g'.val : ℝ) g Y := mean_relS y L (by omega) hLp' Y hY
  have hd : ∀ j < L, Rel (1 / 2 ^ p) 1 ((dx * (((j : ℤ) : Binary p) - mid) : Binary p).val : ℝ) (dx.val * off L j) := by
    intro j hj
    have := hR.mul dx (((j : ℤ) : Binary p) - mid)
    rw [off_exact L j hj hLp' (by omega)] at this
    unfold Rel
    rw [pow_one, add_sub_cancel_left]
    exact this
  have hv := sumTo_relS (fun j => (dx * (((j : ℤ) : Binary p) - mid)) * (dx * (((j : ℤ) : Binary p) - mid))) (fun j => dx.val * off L j * (dx.val * off L j)) (fun j => |(dx.val : ℝ) * off L j| * |(dx.val : ℝ) * off L j|) 3 L
    (fun j hj => RelS.mul hu0 ((hd j hj).sized hu0 le_rfl le_rfl) ((hd j hj).sized hu0 le_rfl le_rfl) (hR.mul _ _))
  have hyg : ∀ j < L, RelS (1 / 2 ^ p) (L + 1 + 1) ((y j - g' : Binary p).val : ℝ) ((y j).val - g) (Y + Y) := fun j hj =>
    RelS.sub hu0 ((Rel.refl _ _).sized hu0 (Nat.zero_le _) (hY j hj)) hgR (hR.sub _ _)
  have hc := sumTo_relS (fun j => (dx * (((j : ℤ) : Binary p) - mid)) * (y j - g')) (fun j => dx.val * off L j * ((y j).val - g)) (fun j => |(dx.val : ℝ) * off L j| * (Y + Y)) (1 + (L + 1 + 1) + 1) L
    (fun j hj => RelS.mul hu0 ((hd j hj).sized hu0 le_rfl le_rfl) (hyg j hj) (hR.mul _ _))
  set v : Binary p := sumTo (fun j => (dx * (((j : ℤ) : Binary p) - mid)) * (dx * (((j : ℤ) : Binary p) - mid))) L with hvd
  set c : Binary p := sumTo (fun j => (dx * (((j : ℤ) : Binary p) - mid)) * (y j - g')) L with hcd
  set S2 := ∑ j ∈ range L, off L j * off L j with hS2
  set S1 := ∑ j ∈ range L, |off L j| with hS1
  have hS20 : 0 < S2 := by rw [hS2, sum_off_sq]; nlinarith [mul_pos hL0 hL0]
  have ev : ∑ j ∈ range L, |(dx.val : ℝ) * off L j| * |(dx.val : ℝ) * off L j| = dx.val * dx.val * S2 := by
    rw [hS2, mul_sum]; refine sum_congr rfl fun j _ => ?_; rw [abs_mul_abs_self]; ring
  have ev' : ∑ j ∈ range L, (dx.val : ℝ) * off L j * (dx.val * off L j) = dx.val * dx.val * S2 := by
    rw [hS2, mul_sum]; refine sum_congr rfl fun j _ => ?_; ring
  have ec : ∑ j ∈ range L, |(dx.val : ℝ) * off L j| * (Y + Y) = 2 * Y * |(dx.val : ℝ)| * S1 := by
    rw [hS1, mul_sum]; refine sum_congr rfl fun j _ => ?_; rw [abs_mul]; ring
  rw [ev, ev'] at hv
  rw [ec] at hc
  have pv := pow_units (1 / 2 ^ p) hu0 (3 + L) (by push_cast; linarith)
  have pc := pow_units (1 / 2 ^ p) hu0 (1 + (L + 1 + 1) + 1 + L) (by push_cast; linarith)
  have pg := pow_units (1 / 2 ^ p) hu0 (L + 1) (by push_cast; linarith)
  push_cast at pv pc pg
  have hV0 : 0 ≤ (dx.val : ℝ) * dx.val * S2 := mul_nonneg (mul_self_nonneg _) hS20.le
  have hC0 : 0 ≤ 2 * Y * |(dx.val : ℝ)| * S1 := by
    have : 0 ≤ S1 := sum_nonneg fun _ _ => abs_nonneg _
    positivity
  set C := ∑ j ∈ range L, (dx.val : ℝ) * off L j * ((y j).val - g) with hC
  have eC : ∑ x ∈ range L, (dx.val : ℝ) * ((x : ℝ) - ((L : ℝ) - 1) / 2) * ((y x).val - g) = C := rfl
  have eV : ∑ x ∈ range L, (dx.val : ℝ) * ((x : ℝ) - ((L : ℝ) - 1) / 2) * (dx.val * ((x : ℝ) - ((L : ℝ) - 1) / 2)) = dx.val * dx.val * S2 := ev'
  simp only [eC, eV]
  obtain ⟨v0, k1, k2⟩ := uniform_slope (1 / 2 ^ p) L Y dx.val S1 S2 c.val C v.val (c / v).val hu0 hL' hLu hY0 hdx' hS20 (sum_off_abs L hL)
    (hv.1.trans (mul_le_mul_of_nonneg_right (by linarith) hV0)) (hc.1.trans (mul_le_mul_of_nonneg_right (by linarith) hC0)) hc.2 (fun h => hR.div c v h)
  refine ⟨by calc _ ≤ _ := k2
             _ = _ := by ring, fun x => ?_⟩
  have hmidv : (mid.val : ℝ) = ((L : ℝ) - 1) / 2 := by
    have := off_exact (p := p) L 0 (by omega) hLp' (by omega)
    have h0 : (((0 : ℕ) : ℤ) : Binary p) - mid = (((0 : ℤ)) : Binary p) - mid := rfl
    have h1 : ((((0 : ℕ) : ℤ) : Binary p) - mid : Binary p).val = -mid.val := by
      show Binary.round p ((((0 : ℕ) : ℤ) : Binary p).val - mid.val) = _
      rw [show (((0 : ℕ) : ℤ) : Binary p).val = 0 from Binary.cast_exact p 0 (by simp)]
      rw [zero_sub]
      exact Binary.round_self (-mid)
    rw [h1, off] at this
    push_cast at this
    linarith
  have hm : RelS (1 / 2 ^ p) 2 ((x0 + dx * mid : Binary p).val : ℝ) (x0.val + dx.val * (((L : ℝ) - 1) / 2)) (|(x0.val : ℝ)| + |(dx.val : ℝ)| * (((L : ℝ) - 1) / 2)) := by
    have h1 : RelS (1 / 2 ^ p) 1 ((dx * mid : Binary p).val : ℝ) (dx.val * (((L : ℝ) - 1) / 2)) (|(dx.val : ℝ)| * (((L : ℝ) - 1) / 2)) :=
      RelS.mul hu0 ((Rel.refl _ _).sized hu0 le_rfl le_rfl) ((Rel.refl _ (((L : ℝ) - 1) / 2)).sized hu0 le_rfl (le_of_eq (abs_of_nonneg (by linarith)))) (by rw [← hmidv]; exact hR.mul dx mid)
    exact RelS.add hu0 ((Rel.refl _ _).sized hu0 (by norm_num) le_rfl) h1 (hR.add _ _)
  have h := uniform_value (1 / 2 ^ p) L Y |(dx.val : ℝ)| _ x.val (C / (dx.val * dx.val * S2)) (c / v).val _ (x0 + dx * mid).val g g'.val ((c / v) * (x0 + dx * mid)).val (g' - (c / v) * (x0 + dx * mid)).val
    ((c / v) * x).val ((g' - (c / v) * (x0 + dx * mid)) + (c / v) * x).val hu0 hu hL' hLu hY0 hdx0 k1 k2 hm hgR.2 (hgR.1.trans (mul_le_mul_of_nonneg_right (by linarith) hY0))
    (hR.mul _ _) (hR.sub _ _) (hR.mul _ _) (hR.add _ _)
  rw [show g - C / (dx.val * dx.val * S2) * (x0.val + dx.val * (((L : ℝ) - 1) / 2)) + C / (dx.val * dx.val * S2) * x.val = g + C / (dx.val * dx.val * S2) * (x.val - (x0.val + dx.val * (((L : ℝ) - 1) / 2))) by ring]
  refine h.trans (le_of_eq ?_)
  ring

/-- Four samples, 1/8 apart, in single precision: the slope is within `68·3·8/2^24` of the exact one. -/
example : ∃ f F, uniform ((List.range 4).map fun j => ((j : ℤ) : Binary 24)) 4 1 (1 / 8) = .ok f ∧ uniform ((List.range 4).map fun j => ((((j : ℤ) : Binary 24).val : ℚ) : ℝ)) 4 (((1 : Binary 24).val : ℚ) : ℝ) (((1 / 8 : Binary 24).val : ℚ) : ℝ) = .ok F ∧
    |(f.slope.val : ℝ) - F.slope| ≤ 1632 / 2 ^ 24 := by
  have h8 : (1 / 8 : Binary 24).val = 1 / 8 := by decide +kernel
  obtain ⟨f, F, h1, h2, h3, -⟩ := C94_uniform (p := 24) (by norm_num) (fun j => ((j : ℤ) : Binary 24)) 4 (by norm_num) (by norm_num) 3
    (fun j hj => by
      rw [Binary.cast_exact 24 (j : ℤ) (by rw [abs_of_nonneg (by omega)]; norm_num; omega)]
      have : (j : ℝ) ≤ 3 := by exact_mod_cast (by omega : j ≤ 3)
      push_cast
      rw [abs_of_nonneg (by positivity)]; exact this) 1 (1 / 8) (by rw [h8]; norm_num)
  refine ⟨f, F, h1, h2, h3.trans (le_of_eq ?_)⟩
  rw [h8]; norm_num

/-! ### Any places -/

theorem general_slope (u L X Y c C v V r : ℝ) (hu0 : 0 ≤ u) (hu : u ≤ 1 / 1000) (hL : 1 ≤ L) (hX : 0 < X) (hY : 0 ≤ Y) (hV : 0 < V) (hVX : V ≤ 4 * L * X ^ 2) (hk : 70 * (3 * L + 5) * (L * X ^ 2 / V) * u ≤ 1)
    (hv : |v - V| ≤ 1.1 * (3 * L + 5) * u * (4 * L * X ^ 2)) (hc : |c - C| ≤ 1.1 * (3 * L + 5) * u * (4 * L * X * Y)) (hr : v ≠ 0 → |r - c / v| ≤ u * |c / v|) :
    |r - C / V| ≤ 16 * (L + 2) * (L * X ^ 2 / V) * u * (Y / X + |C / V|) := by
  set κ := L * X ^ 2 / V with hκ
  have hκ0 : 1 / 4 ≤ κ := by rw [hκ, le_div_iff₀ hV]; linarith
  have e1 : L * X ^ 2 = κ * V := by rw [hκ]; field_simp
  have hb : 4.4 * (3 * L + 5) * κ * u ≤ 0.07 := by linarith
  have hku : 0 ≤ κ * u := by positivity
  obtain ⟨v0, q1, q2⟩ := quotient_error u _ (4.4 * (3 * L + 5) * κ * u) c C v V r hV (by positivity) hb (hv.trans (le_of_eq (by rw [show 4 * L * X ^ 2 = 4 * (L * X ^ 2) by ring, e1]; ring))) hc hr
  have e2 : 1.1 * (3 * L + 5) * u * (4 * L * X * Y) / V = 4.4 * (3 * L + 5) * κ * u * (Y / X) := by
    rw [hκ]; field_simp; ring
  rw [e2] at q1
  have hYX : 0 ≤ Y / X := by positivity
  set s := |C / V| with hs
  have hs0 : 0 ≤ s := abs_nonneg _
  set W := Y / X + s with hW
  have hW0 : 0 ≤ W := by positivity
  have q1' : |c / v - C / V| ≤ 4.752 * (3 * L + 5) * (κ * u) * W := q1.trans (le_of_eq (by rw [hW]; ring))
  have q3 : |c / v| ≤ W + 4.752 * (3 * L + 5) * (κ * u) * W := by
    have := abs_sub_abs_le_abs_sub (c / v) (C / V)
    have : s ≤ W := by linarith
    linarith
  have q4 : u * |c / v| ≤ u * W + u * (4.752 * (3 * L + 5) * (κ * u) * W) := by
    have := mul_le_mul_of_nonneg_left q3 hu0
    linarith
  have q5 : u * (4.752 * (3 * L + 5) * (κ * u) * W) ≤ 1 / 1000 * (4.752 * (3 * L + 5) * (κ * u) * W) := mul_le_mul_of_nonneg_right hu (by positivity)
  have q6 : u * W ≤ 4 * (κ * u) * W := by
    refine mul_le_mul_of_nonneg_right ?_ hW0
    nlinarith
  calc |r - C / V| ≤ |r - c / v| + |c / v - C / V| := abs_sub_le _ _ _
    _ ≤ 4 * (κ * u) * W + 1 / 1000 * (4.752 * (3 * L + 5) * (κ * u) * W) + 4.752 * (3 * L + 5) * (κ * u) * W := by linarith
    _ = (4 + 4.756752 * (3 * L + 5)) * ((κ * u) * W) := by ring
    _ ≤ 16 * (L + 2) * ((κ * u) * W) := mul_le_mul_of_nonneg_right (by linarith) (by positivity)
    _ = _ := by ring

/-- **C94** The regression at any places `x_j` (at most `X` in size) with the values `y_j` (at most `Y`) in floating point. The condition is `κ = l·X²/Σ(x_j - mean)²`, which is large if the places are
close together relative to their distance from the origin: when `70(3l + 5)κ` units of rounding are at most one, the slope is within `16(l + 2)κ` units of `Y/X + |slope|` of the least squares slope. -/
theorem C94_general (hp : 10 ≤ p) (x y : ℕ → Binary p) (L : ℕ) (hL : 1 ≤ L) (X Y : ℝ) (hX : ∀ j < L, |((x j).val : ℝ)| ≤ X) (hY : ∀ j < L, |((y j).val : ℝ)| ≤ Y)
    (V : ℝ) (hVdef : V = ∑ j ∈ range L, (((x j).val : ℝ) - (∑ i ∈ range L, ((x i).val : ℝ)) / L) ^ 2) (hV : 0 < V) (hκ : 70 * (3 * L + 5) * (L * X ^ 2 / V) ≤ 2 ^ p) :
    ∃ f F, general ((List.range L).map x) ((List.range L).map y) L = .ok f ∧ general ((List.range L).map fun j => ((x j).val : ℝ)) ((List.range L).map fun j => ((y j).val : ℝ)) L = .ok F ∧
      |(f.slope.val : ℝ) - F.slope| ≤ 16 * (L + 2) * (L * X ^ 2 / V) / 2 ^ p * (Y / X + |F.slope|) := by
  have hR := binary_roundedField p
  have hu := Win.unit_small p hp
  have hu0 : (0 : ℝ) ≤ 1 / 2 ^ p := by positivity
  have hL' : (1 : ℝ) ≤ L := by exact_mod_cast hL
  have hL0 : (0 : ℝ) < L := by linarith
  have hX0 : 0 ≤ X := (abs_nonneg _).trans (hX 0 (by omega))
  have hY0 : 0 ≤ Y := (abs_nonneg _).trans (hY 0 (by omega))
  set m : ℝ := (∑ j ∈ range L, ((x j).val : ℝ)) / L with hm
  set g : ℝ := (∑ j ∈ range L, ((y j).val : ℝ)) / L with hg
  have mean_le : ∀ (f : ℕ → ℝ) (B : ℝ), (∀ j < L, |f j| ≤ B) → |(∑ j ∈ range L, f j) / L| ≤ B := by
    intro f B h
    rw [abs_div, abs_of_pos hL0, div_le_iff₀ hL0]
    calc |∑ j ∈ range L, f j| ≤ ∑ j ∈ range L, |f j| := abs_sum_le_sum_abs _ _
      _ ≤ ∑ _j ∈ range L, B := sum_le_sum fun j hj => h j (mem_range.mp hj)
      _ = B * L := by rw [sum_const, card_range, nsmul_eq_mul]; ring
  have hdx : ∀ j < L, |((x j).val : ℝ) - m| ≤ X + X := fun j hj => (abs_sub _ _).trans (add_le_add (hX j hj) (mean_le _ X hX))
  have hVX : V ≤ 4 * L * X ^ 2 := by
    rw [hVdef]
    calc _ ≤ ∑ _j ∈ range L, (X + X) ^ 2 := sum_le_sum fun j hj => by
          rw [← sq_abs]; exact pow_le_pow_left₀ (abs_nonneg _) (hdx j (mem_range.mp hj)) 2
      _ = _ := by rw [sum_const, card_range, nsmul_eq_mul]; ring
  have hX1 : 0 < X := by
    rcases hX0.lt_or_eq with h | h
    · exact h
    · rw [← h] at hVX; norm_num at hVX; linarith
  have hκ' : 70 * (3 * (L : ℝ) + 5) * (L * X ^ 2 / V) * (1 / 2 ^ p) ≤ 1 := by
    rw [mul_one_div, div_le_one (by positivity)]; exact hκ
  have hκ0 : 1 / 4 ≤ L * X ^ 2 / V := by rw [le_div_iff₀ hV]; linarith
  have hsm : 10 * ((3 * (L : ℝ) + 5) * (1 / 2 ^ p)) ≤ 1 := by
    have h0 : 0 ≤ (3 * (L : ℝ) + 5) * (1 / 2 ^ p) := by positivity
    nlinarith [mul_le_mul_of_nonneg_left hκ0 h0]
  have hLp : L < 2 ^ p := by
    have h1 : 10 * (3 * (L : ℝ) + 5) ≤ 2 ^ p := by
      rw [mul_one_div, ← mul_div_assoc, div_le_one (by positivity)] at hsm; exact hsm
    have : (L : ℝ) < 2 ^ p := by linarith
    exact_mod_cast this
  refine ⟨_, _, general_eq' x y L, general_eq' _ _ L, ?_⟩
  simp only [finish]
  set m' : Binary p := sumTo x L / ((L : ℤ) : Binary p) with hm'
  set g' : Binary p := sumTo y L / ((L : ℤ) : Binary p) with hg'
  have eg : sumTo (fun j => ((y j).val : ℝ)) L / (((L : ℤ)) : ℝ) = g := by rw [sumTo_real, Int.cast_natCast]
  have em : sumTo (fun j => ((x j).val : ℝ)) L / (((L : ℤ)) : ℝ) = m := by rw [sumTo_real, Int.cast_natCast]
  rw [eg, em, sumTo_real, sumTo_real]
  have hmR : RelS (1 / 2 ^ p) (L + 1) (m'.val : ℝ) m X := mean_relS x L hL hLp X hX
  have hgR : RelS (1 / 2 ^ p) (L + 1) (g'.val : ℝ) g Y := mean_relS y L hL hLp Y hY
  have hx : ∀ j < L, RelS (1 / 2 ^ p) (L + 1 + 1) ((x j - m' : Binary p).val : ℝ) ((x j).val - m) (X + X) := fun j hj =>
    RelS.sub hu0 ((Rel.refl _ _).sized hu0 (Nat.zero_le _) (hX j hj)) hmR (hR.sub _ _)
  have hy : ∀ j < L, RelS (1 / 2 ^ p) (L + 1 + 1) ((y j - g' : Binary p).val : ℝ) ((y j).val - g) (Y + Y) := fun j hj =>
    RelS.sub hu0 ((Rel.refl _ _).sized hu0 (Nat.zero_le _) (hY j hj)) hgR (hR.sub _ _)
  have hv := sumTo_relS (fun j => (x j - m') * (x j - m')) (fun j => ((x j).val - m) * ((x j).val - m)) (fun _ => (X + X) * (X + X)) _ L (fun j hj => RelS.mul hu0 (hx j hj) (hx j hj) (hR.mul _ _))
  have hc := sumTo_relS (fun j => (x j - m') * (y j - g')) (fun j => ((x j).val - m) * ((y j).val - g)) (fun _ => (X + X) * (Y + Y)) _ L (fun j hj => RelS.mul hu0 (hx j hj) (hy j hj) (hR.mul _ _))
  rw [sum_const, card_range, nsmul_eq_mul] at hv hc
  have eV : ∑ j ∈ range L, (((x j).val : ℝ) - m) * (((x j).val : ℝ) - m) = V := by rw [hVdef]; exact sum_congr rfl fun j _ => (sq _).symm
  rw [eV] at hv ⊢
  have pw := pow_units (1 / 2 ^ p) hu0 (L + 1 + 1 + (L + 1 + 1) + 1 + L) (by push_cast; linarith)
  push_cast at pw
  have h := general_slope (1 / 2 ^ p) L X Y (sumTo (fun j => (x j - m') * (y j - g')) L).val (∑ j ∈ range L, (((x j).val : ℝ) - m) * ((y j).val - g)) (sumTo (fun j => (x j - m') * (x j - m')) L).val V
    ((sumTo (fun j => (x j - m') * (y j - g')) L) / (sumTo (fun j => (x j - m') * (x j - m')) L)).val hu0 hu hL' hX1 hY0 hV hVX hκ'
    (by
      refine hv.1.trans ?_
      calc _ ≤ (1.1 * (3 * (L : ℝ) + 5) * (1 / 2 ^ p)) * (L * ((X + X) * (X + X))) := mul_le_mul_of_nonneg_right (by linarith) (by positivity)
        _ = _ := by ring)
    (by
      refine hc.1.trans ?_
      calc _ ≤ (1.1 * (3 * (L : ℝ) + 5) * (1 / 2 ^ p)) * (L * ((X + X) * (Y + Y))) := mul_le_mul_of_nonneg_right (by linarith) (by positivity)
        _ = _ := by ring)
    (fun h0 => hR.div _ _ h0)
  refine h.trans (le_of_eq ?_)
  ring

/-- The places 1, 2, 4 in single precision, with the values 0, 1, 2. -/
example : ∃ f F, general ((List.range 3).map fun j => (((2 ^ j : ℕ) : ℤ) : Binary 24)) ((List.range 3).map fun j => ((j : ℤ) : Binary 24)) 3 = .ok f ∧
    general ((List.range 3).map fun j => (((((2 ^ j : ℕ) : ℤ) : Binary 24).val : ℚ) : ℝ)) ((List.range 3).map fun j => ((((j : ℤ) : Binary 24).val : ℚ) : ℝ)) 3 = .ok F ∧
    |(f.slope.val : ℝ) - F.slope| ≤ 1000 / 2 ^ 24 * (1 / 2 + |F.slope|) := by
  have hx : ∀ j < 3, ((((((2 ^ j : ℕ) : ℤ) : Binary 24).val : ℚ)) : ℝ) = 2 ^ j := by
    intro j hj
    rw [Binary.cast_exact 24 ((2 ^ j : ℕ) : ℤ) (by interval_cases j <;> norm_num)]
    push_cast; rfl
  have hV : ∑ j ∈ range 3, ((((((2 ^ j : ℕ) : ℤ) : Binary 24).val : ℚ) : ℝ) - (∑ i ∈ range 3, (((((2 ^ i : ℕ) : ℤ) : Binary 24).val : ℚ) : ℝ)) / (3 : ℕ)) ^ 2 = 14 / 3 := by
    rw [sum_congr rfl fun i hi => hx i (mem_range.mp hi), sum_congr rfl fun i hi => by rw [hx i (mem_range.mp hi)]]
    norm_num [sum_range_succ]
  obtain ⟨f, F, h1, h2, h3⟩ := C94_general (p := 24) (by norm_num) (fun j => (((2 ^ j : ℕ) : ℤ) : Binary 24)) (fun j => ((j : ℤ) : Binary 24)) 3 (by norm_num) 4 2
    (fun j hj => by rw [hx j hj]; interval_cases j <;> norm_num)
    (fun j hj => by
      rw [Binary.cast_exact 24 (j : ℤ) (by rw [abs_of_nonneg (by omega)]; norm_num; omega)]
      interval_cases j <;> norm_num) _ hV.symm (by norm_num) (by norm_num)
  refine ⟨f, F, h1, h2, h3.trans ?_⟩
  rw [show (2 : ℝ) / 4 = 1 / 2 by norm_num]
  exact mul_le_mul_of_nonneg_right (by norm_num) (by positivity)

end Regression
end DSP
