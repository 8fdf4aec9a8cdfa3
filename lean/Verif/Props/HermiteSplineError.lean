import Verif.Props.NaturalSplineError
import Verif.Props.HermiteSpline
import Verif.Lemmas.RelSize
import Verif.Lemmas.RoundedSum

/-!
# Cubic Hermite splines in floating point (C90)
-/

namespace DSP
namespace HermiteSpline

open Spec NaturalSpline

variable (p : ℕ) [NeZero p] (hp : 10 ≤ p)
include hp

theorem cast_small' (n : ℤ) (h : |n| ≤ 4) : ((n : ℤ) : Binary p).val = n := by
  have := cast_small p hp n h
  exact_mod_cast this

theorem twice (t : Binary p) : ((((2 : ℤ) : Binary p) * t).val : ℝ) = 2 * t.val := by
  have h : (((2 : ℤ) : Binary p) * t).val = 2 * t.val := by
    show Binary.round p (((2 : ℤ) : Binary p).val * t.val) = _
    rw [cast_small' p hp 2 (by norm_num), Int.cast_ofNat, Binary.round_two_mul, Binary.round_of_representable p _ t.representable]
  rw [h]
  push_cast
  rfl

theorem one_sub_rel (t : Binary p) : Rel (1 / 2 ^ p) 1 (((1 : ℤ) : Binary p) - t).val (1 - t.val) := by
  have h := (binary_roundedField p).sub ((1 : ℤ) : Binary p) t
  rw [cast_small p hp 1 (by norm_num)] at h
  push_cast at h
  unfold Rel
  rw [pow_one, add_sub_cancel_left]
  exact h

omit [NeZero p] hp in
theorem rel_one {u a z : ℝ} (h : |a - z| ≤ u * |z|) : Rel u 1 a z := by
  unfold Rel
  rw [pow_one, add_sub_cancel_left]
  exact h

theorem h00_rel (t : Binary p) : Rel (1 / 2 ^ p) 5 (Rounded.h00 t).val (h00 t.val) := by
  have hR := binary_roundedField p
  have hu0 : (0 : ℝ) ≤ 1 / 2 ^ p := by positivity
  have h1 := hR.add ((1 : ℤ) : Binary p) (((2 : ℤ) : Binary p) * t)
  rw [cast_small p hp 1 (by norm_num), twice p hp] at h1
  push_cast at h1
  have h2 := one_sub_rel p hp t
  exact Rel.mul hu0 (Rel.mul hu0 (rel_one h1) h2 (hR.mul _ _)) h2 (hR.mul _ _)

theorem h10_rel (t : Binary p) : Rel (1 / 2 ^ p) 4 (Rounded.h10 t).val (h10 t.val) := by
  have hR := binary_roundedField p
  have hu0 : (0 : ℝ) ≤ 1 / 2 ^ p := by positivity
  have h2 := one_sub_rel p hp t
  exact Rel.mul hu0 (Rel.mul hu0 (Rel.refl _ _) h2 (hR.mul _ _)) h2 (hR.mul _ _)

theorem h01_rel (t : Binary p) : Rel (1 / 2 ^ p) 3 (Rounded.h01 t).val (h01 t.val) := by
  have hR := binary_roundedField p
  have hu0 : (0 : ℝ) ≤ 1 / 2 ^ p := by positivity
  have h1 := hR.sub ((3 : ℤ) : Binary p) (((2 : ℤ) : Binary p) * t)
  rw [cast_small p hp 3 (by norm_num), twice p hp] at h1
  push_cast at h1
  exact Rel.mul hu0 (Rel.mul hu0 (Rel.refl _ _) (Rel.refl _ _) (hR.mul _ _)) (rel_one h1) (hR.mul _ _)

theorem h11_rel (t : Binary p) : Rel (1 / 2 ^ p) 3 (Rounded.h11 t).val (h11 t.val) := by
  have hR := binary_roundedField p
  have hu0 : (0 : ℝ) ≤ 1 / 2 ^ p := by positivity
  have h1 := hR.sub t ((1 : ℤ) : Binary p)
  rw [cast_small p hp 1 (by norm_num)] at h1
  push_cast at h1
  exact Rel.mul hu0 (Rel.mul hu0 (Rel.refl _ _) (Rel.refl _ _) (hR.mul _ _)) (rel_one h1) (hR.mul _ _)

omit hp [NeZero p] in
/-- The weights of the data add up to one, those of the slopes to little. -/
theorem weights (t B W : ℝ) (h0 : 0 ≤ t) (h1 : t ≤ 1) (hW : 0 ≤ W) : |h00 t| * B + |h10 t| * W + |h01 t| * B + |h11 t| * W ≤ B + W / 4 := by
  have a0 : 0 ≤ h00 t := by unfold h00; exact mul_nonneg (mul_nonneg (by linarith) (by linarith)) (by linarith)
  have a1 : 0 ≤ h10 t := by unfold h10; exact mul_nonneg (mul_nonneg (by linarith) (by linarith)) (by linarith)
  have a2 : 0 ≤ h01 t := by unfold h01; exact mul_nonneg (mul_nonneg (by linarith) (by linarith)) (by linarith)
  have a3 : h11 t ≤ 0 := by unfold h11; exact mul_nonpos_of_nonneg_of_nonpos (mul_nonneg (by linarith) (by linarith)) (by linarith)
  rw [abs_of_nonneg a0, abs_of_nonneg a1, abs_of_nonneg a2, abs_of_nonpos a3]
  have e : h00 t * B + h10 t * W + h01 t * B + -h11 t * W = B + (t * (1 - t)) * W := by simp only [h00, h10, h01, h11]; ring
  have hq : t * (1 - t) ≤ 1 / 4 := by nlinarith [sq_nonneg (t - 1 / 2)]
  have := mul_le_mul_of_nonneg_right hq hW
  rw [e]
  linarith

theorem blend_error (t y0 y1 w m0 m1 : Binary p) (h0 : 0 ≤ (t.val : ℝ)) (h1 : (t.val : ℝ) ≤ 1) (W M0 M1 B L : ℝ) (hW : 0 ≤ W) (hw : Rel (1 / 2 ^ p) 1 w.val W)
    (hm0 : RelS (1 / 2 ^ p) 6 m0.val M0 L) (hm1 : RelS (1 / 2 ^ p) 6 m1.val M1 L) (hy0 : |(y0.val : ℝ)| ≤ B) (hy1 : |(y1.val : ℝ)| ≤ B) :
    |((Rounded.blend t y0 y1 w m0 m1).val : ℝ) - blend t.val y0.val y1.val W M0 M1| ≤ 18 / 2 ^ p * (B + W * L / 4) := by
  have hR := binary_roundedField p
  have hu := Win.unit_small p hp
  have hu0 : (0 : ℝ) ≤ 1 / 2 ^ p := by positivity
  have hL : 0 ≤ L := (abs_nonneg _).trans hm0.2
  have hB : 0 ≤ B := (abs_nonneg _).trans hy0
  have hwW : |W| ≤ W := le_of_eq (abs_of_nonneg hW)
  have r0 := ((h00_rel p hp t).sized hu0 le_rfl le_rfl).mul hu0 ((Rel.refl (1 / 2 ^ p) (y0.val : ℝ)).sized hu0 le_rfl hy0) (hR.mul _ _)
  have r1 := (((h10_rel p hp t).sized hu0 le_rfl le_rfl).mul hu0 (hw.sized hu0 le_rfl hwW) (hR.mul _ _)).mul hu0 hm0 (hR.mul _ _)
  have r2 := ((h01_rel p hp t).sized hu0 le_rfl le_rfl).mul hu0 ((Rel.refl (1 / 2 ^ p) (y1.val : ℝ)).sized hu0 le_rfl hy1) (hR.mul _ _)
  have r3 := (((h11_rel p hp t).sized hu0 le_rfl le_rfl).mul hu0 (hw.sized hu0 le_rfl hwW) (hR.mul _ _)).mul hu0 hm1 (hR.mul _ _)
  have s1 := (r0.mono hu0 (by norm_num : 5 + 0 + 1 ≤ 4 + 1 + 1 + 6 + 1) le_rfl).add hu0 r1 (hR.add _ _)
  have s2 := s1.add hu0 (r2.mono hu0 (by norm_num) le_rfl) (hR.add _ _)
  have s3 := s2.add hu0 (r3.mono hu0 (by norm_num) le_rfl) (hR.add _ _)
  have hsum := weights t.val B (W * L) h0 h1 (by positivity)
  have s4 := s3.mono hu0 (le_refl _) (t := B + W * L / 4) (by simp only [mul_assoc] at hsum ⊢; exact hsum)
  have hpow := pow_units (1 / 2 ^ p) hu0 16 (by push_cast; linarith)
  refine s4.1.trans (mul_le_mul_of_nonneg_right (hpow.trans ?_) (by positivity))
  rw [show (18 : ℝ) / 2 ^ p = 18 * (1 / 2 ^ p) by ring]
  push_cast
  linarith

theorem blendU_error (t y0 y1 m0 m1 : Binary p) (h0 : 0 ≤ (t.val : ℝ)) (h1 : (t.val : ℝ) ≤ 1) (M0 M1 B L : ℝ)
    (hm0 : RelS (1 / 2 ^ p) 6 m0.val M0 L) (hm1 : RelS (1 / 2 ^ p) 6 m1.val M1 L) (hy0 : |(y0.val : ℝ)| ≤ B) (hy1 : |(y1.val : ℝ)| ≤ B) :
    |((Rounded.blendU t y0 y1 m0 m1).val : ℝ) - blend t.val y0.val y1.val 1 M0 M1| ≤ 18 / 2 ^ p * (B + L / 4) := by
  have hR := binary_roundedField p
  have hu := Win.unit_small p hp
  have hu0 : (0 : ℝ) ≤ 1 / 2 ^ p := by positivity
  have hL : 0 ≤ L := (abs_nonneg _).trans hm0.2
  have hB : 0 ≤ B := (abs_nonneg _).trans hy0
  have r0 := ((h00_rel p hp t).sized hu0 le_rfl le_rfl).mul hu0 ((Rel.refl (1 / 2 ^ p) (y0.val : ℝ)).sized hu0 le_rfl hy0) (hR.mul _ _)
  have r1 := ((h10_rel p hp t).sized hu0 le_rfl le_rfl).mul hu0 hm0 (hR.mul _ _)
  have r2 := ((h01_rel p hp t).sized hu0 le_rfl le_rfl).mul hu0 ((Rel.refl (1 / 2 ^ p) (y1.val : ℝ)).sized hu0 le_rfl hy1) (hR.mul _ _)
  have r3 := ((h11_rel p hp t).sized hu0 le_rfl le_rfl).mul hu0 hm1 (hR.mul _ _)
  have s1 := (r0.mono hu0 (by norm_num : 5 + 0 + 1 ≤ 4 + 6 + 1) le_rfl).add hu0 r1 (hR.add _ _)
  have s2 := s1.add hu0 (r2.mono hu0 (by norm_num) le_rfl) (hR.add _ _)
  have s3 := s2.add hu0 (r3.mono hu0 (by norm_num) le_rfl) (hR.add _ _)
  have hsum := weights t.val B L h0 h1 (by positivity)
  have s4 := s3.mono hu0 (le_refl _) (t := B + L / 4) hsum
  have hpow := pow_units (1 / 2 ^ p) hu0 14 (by push_cast; linarith)
  have e : blend t.val y0.val y1.val 1 M0 M1 = h00 t.val * y0.val + h10 t.val * M0 + h01 t.val * y1.val + h11 t.val * M1 := by simp only [blend]; ring
  rw [e]
  refine s4.1.trans (mul_le_mul_of_nonneg_right (hpow.trans ?_) (by positivity))
  rw [show (18 : ℝ) / 2 ^ p = 18 * (1 / 2 ^ p) by ring]
  push_cast
  linarith

/-! ### At the knots -/

omit hp in
theorem mul_val_zero (a b : Binary p) (h : b.val = 0) : (a * b).val = 0 := by
  show Binary.round p (a.val * b.val) = 0
  rw [h, mul_zero]
  simp [Binary.round, Binary.nearest]

omit hp in
theorem zero_add'' (a b : Binary p) (h : a.val = 0) : a + b = b := by
  refine Binary.val_injective p ?_
  show Binary.round p (a.val + b.val) = b.val
  rw [h, zero_add]
  exact Binary.round_of_representable p _ b.representable

omit hp in
theorem one_mul'' (a b : Binary p) (h : a.val = 1) : a * b = b := by
  refine Binary.val_injective p ?_
  show Binary.round p (a.val * b.val) = b.val
  rw [h, one_mul]
  exact Binary.round_of_representable p _ b.representable

theorem ends_zero (t : Binary p) (ht : t.val = 0) : (Rounded.h00 t).val = 1 ∧ (Rounded.h10 t).val = 0 ∧ (Rounded.h01 t).val = 0 ∧ (Rounded.h11 t).val = 0 := by
  have c1 := cast_small' p hp 1 (by norm_num)
  have r1 : Binary.round p 1 = 1 := by rw [← Int.cast_one]; exact c1
  have e1 : (((1 : ℤ) : Binary p) - t).val = 1 := by
    show Binary.round p (((1 : ℤ) : Binary p).val - t.val) = 1
    rw [c1, ht]; simpa using r1
  refine ⟨?_, ?_, ?_, ?_⟩
  · unfold Rounded.h00
    rw [add_zero' p _ _ (mul_val_zero p _ _ ht), one_mul'' p _ _ (by rw [one_mul'' p _ _ (by rw [c1]; norm_num)]; exact e1), e1]
  · exact zero_mul' p _ _ (zero_mul' p _ _ ht)
  · exact zero_mul' p _ _ (zero_mul' p _ _ ht)
  · exact zero_mul' p _ _ (zero_mul' p _ _ ht)

theorem ends_one (t : Binary p) (ht : t.val = 1) : (Rounded.h00 t).val = 0 ∧ (Rounded.h10 t).val = 0 ∧ (Rounded.h01 t).val = 1 ∧ (Rounded.h11 t).val = 0 := by
  have c1 := cast_small' p hp 1 (by norm_num)
  have c3 := cast_small' p hp 3 (by norm_num)
  have r0 : Binary.round p 0 = 0 := by simp [Binary.round, Binary.nearest]
  have r1 : Binary.round p 1 = 1 := by rw [← Int.cast_one]; exact c1
  have e1 : (((1 : ℤ) : Binary p) - t).val = 0 := by
    show Binary.round p (((1 : ℤ) : Binary p).val - t.val) = 0
    rw [c1, ht]; simpa using r0
  have e2 : (t - ((1 : ℤ) : Binary p)).val = 0 := by
    show Binary.round p (t.val - ((1 : ℤ) : Binary p).val) = 0
    rw [c1, ht]; simpa using r0
  have e3 : (((3 : ℤ) : Binary p) - ((2 : ℤ) : Binary p) * t).val = 1 := by
    show Binary.round p (((3 : ℤ) : Binary p).val - (((2 : ℤ) : Binary p) * t).val) = 1
    have h2 : (((2 : ℤ) : Binary p) * t).val = 2 := by
      have := twice p hp t
      rw [ht] at this
      push_cast at this
      exact_mod_cast this
    rw [c3, h2]
    norm_num
    exact r1
  refine ⟨?_, ?_, ?_, ?_⟩
  · exact mul_val_zero p _ _ e1
  · exact mul_val_zero p _ _ e1
  · unfold Rounded.h01
    rw [one_mul'' p _ _ (by rw [one_mul'' p _ _ ht]; exact ht), e3]
  · exact mul_val_zero p _ _ e2

theorem blend_zero (t y0 y1 w m0 m1 : Binary p) (ht : t.val = 0) : Rounded.blend t y0 y1 w m0 m1 = y0 ∧ Rounded.blendU t y0 y1 m0 m1 = y0 := by
  obtain ⟨a, b, c, d⟩ := ends_zero p hp t ht
  constructor
  · unfold Rounded.blend
    rw [add_zero' p _ _ (zero_mul' p _ _ (zero_mul' p _ _ d)), add_zero' p _ _ (zero_mul' p _ _ c), add_zero' p _ _ (zero_mul' p _ _ (zero_mul' p _ _ b)), one_mul'' p _ _ a]
  · unfold Rounded.blendU
    rw [add_zero' p _ _ (zero_mul' p _ _ d), add_zero' p _ _ (zero_mul' p _ _ c), add_zero' p _ _ (zero_mul' p _ _ b), one_mul'' p _ _ a]

theorem blend_one (t y0 y1 w m0 m1 : Binary p) (ht : t.val = 1) : Rounded.blend t y0 y1 w m0 m1 = y1 ∧ Rounded.blendU t y0 y1 m0 m1 = y1 := by
  obtain ⟨a, b, c, d⟩ := ends_one p hp t ht
  constructor
  · unfold Rounded.blend
    rw [add_zero' p _ _ (zero_mul' p _ _ (zero_mul' p _ _ d)), zero_add'' p _ _ (by rw [zero_add'' p _ _ (zero_mul' p _ _ a)]; exact zero_mul' p _ _ (zero_mul' p _ _ b)), one_mul'' p _ _ c]
  · unfold Rounded.blendU
    rw [add_zero' p _ _ (zero_mul' p _ _ d), zero_add'' p _ _ (by rw [zero_add'' p _ _ (zero_mul' p _ _ a)]; exact zero_mul' p _ _ b), one_mul'' p _ _ c]

/-! ### The code -/

omit hp

omit [NeZero p] in
theorem rd_table' (n : ℕ) (f : ℕ → Binary p) (i : ℤ) (h0 : 0 ≤ i) (h1 : i < n) : rd ((List.range n).map f) i = .ok (f i.toNat) := by
  apply rd_of_getElem? h0
  rw [List.getElem?_map, List.getElem?_range (by omega)]
  rfl

include hp in
theorem sub_ne (a b : Binary p) (h : a.val ≠ b.val) : ((a - b).val : ℝ) ≠ 0 := by
  intro h0
  have hs := (binary_roundedField p).sub a b
  have hu := Win.unit_small p hp
  simp only [h0, zero_sub, abs_neg] at hs
  have hd : 0 < |(a.val : ℝ) - b.val| := abs_pos.mpr (sub_ne_zero.mpr (by exact_mod_cast h))
  nlinarith

variable (half : Binary p) (n : ℕ) (x y : ℕ → Binary p)

/-- The slopes as computed. -/
def sl (k : ℕ) : Binary p := (y (k + 1) - y k) / (x (k + 1) - x k)

def mb (i : ℕ) : Binary p := if i = 0 then sl p x y 0 else if i + 1 = n then sl p x y (i - 1) else half * (sl p x y (i - 1) + sl p x y i)

/-- The same for equal distances. -/
def mu (i : ℕ) : Binary p := if i = 0 then y 1 - y 0 else if i + 1 = n then y i - y (i - 1) else half * (y (i + 1) - y (i - 1))

variable (hhalf : half.val = 1 / 2) (hx : ∀ i, i + 1 < n → (x i).val < (x (i + 1)).val)
include hp

section
include hx

theorem step_ne (k : ℕ) (hk : k + 1 < n) : ((x (k + 1) - x k).val : ℝ) ≠ 0 := sub_ne p hp _ _ (hx k hk).ne'

omit [NeZero p] hp in
theorem real_step (k : ℕ) (hk : k + 1 < n) : ((x k).val : ℝ) < (x (k + 1)).val := by exact_mod_cast hx k hk

theorem sl_rel (k : ℕ) (hk : k + 1 < n) : Rel (1 / 2 ^ p) 4 (sl p x y k).val (slope (fun i => ((x i).val : ℝ)) (fun i => ((y i).val : ℝ)) k) := by
  have hR := binary_roundedField p
  have hu := Win.unit_small p hp
  have hu0 : (0 : ℝ) ≤ 1 / 2 ^ p := by positivity
  have h := real_step p n x hx k hk
  exact ((rel_one (hR.sub (y (k + 1)) (y k))).div hu0 (by linarith) (rel_one (hR.sub (x (k + 1)) (x k))) (by intro h'; linarith) (by push_cast; linarith) (fun hb => hR.div _ _ hb)).2

include hhalf in
theorem mb_error (L : ℝ) (hL : ∀ k, k + 1 < n → |slope (fun i => ((x i).val : ℝ)) (fun i => ((y i).val : ℝ)) k| ≤ L) (hn : 3 ≤ n) (i : ℕ) (hi : i < n) :
    RelS (1 / 2 ^ p) 6 (mb p half n x y i).val (chordSlopes n (fun i => ((x i).val : ℝ)) (fun i => ((y i).val : ℝ)) i) L := by
  have hR := binary_roundedField p
  have hu0 : (0 : ℝ) ≤ 1 / 2 ^ p := by positivity
  unfold mb
  by_cases c0 : i = 0
  · subst c0
    rw [if_pos rfl, slopes_first]
    exact (sl_rel p hp n x y hx 0 (by omega)).sized hu0 (by norm_num) (hL 0 (by omega))
  · rw [if_neg c0]
    by_cases c1 : i + 1 = n
    · rw [if_pos c1]
      obtain rfl : i = n - 1 := by omega
      rw [slopes_last n _ _ (by omega)]
      exact (sl_rel p hp n x y hx _ (by omega)).sized hu0 (by norm_num) (hL _ (by omega))
    · rw [if_neg c1]
      have l := (sl_rel p hp n x y hx (i - 1) (by omega)).sized hu0 le_rfl (hL (i - 1) (by omega))
      have r := (sl_rel p hp n x y hx i (by omega)).sized hu0 le_rfl (hL i (by omega))
      have s := l.add hu0 r (hR.add _ _)
      have hh : |(half.val : ℝ)| ≤ 1 / 2 := by rw [hhalf]; norm_num
      have m := ((Rel.refl (1 / 2 ^ p) (half.val : ℝ)).sized hu0 le_rfl hh).mul hu0 s (hR.mul _ _)
      have e : chordSlopes n (fun i => ((x i).val : ℝ)) (fun i => ((y i).val : ℝ)) i =
          half.val * (slope (fun i => ((x i).val : ℝ)) (fun i => ((y i).val : ℝ)) (i - 1) + slope (fun i => ((x i).val : ℝ)) (fun i => ((y i).val : ℝ)) i) := by
        simp only [chordSlopes]
        rw [if_neg c0, if_neg c1, hhalf]
        simp only [slope]
        push_cast
        ring
      rw [e]
      exact m.mono hu0 (by norm_num) (by linarith)

theorem left_ok' (q : ℕ) (h0 : 1 ≤ q) (h1 : q < n) : Rounded.left ((List.range n).map x) ((List.range n).map y) q = .ok (sl p x y (q - 1)) := by
  obtain ⟨q, rfl⟩ : ∃ r, q = r + 1 := ⟨q - 1, by omega⟩
  simp only [Rounded.left, bind, Except.bind]
  rw [rd_table' p n y _ (by omega) (by omega), rd_table' p n y _ (by omega) (by omega), rd_table' p n x _ (by omega) (by omega),
    rd_table' p n x _ (by omega) (by omega)]
  simp only [Int.toNat_natCast, show (((q + 1 : ℕ) : ℤ) - 1).toNat = q by omega]
  rw [Fir.fdiv_ok' p _ _ (step_ne p hp n x hx q h1)]
  rfl

theorem right_ok' (q : ℕ) (h1 : q + 1 < n) : Rounded.right ((List.range n).map x) ((List.range n).map y) q = .ok (sl p x y q) := by
  simp only [Rounded.right, bind, Except.bind]
  rw [rd_table' p n y _ (by omega) (by omega), rd_table' p n y _ (by omega) (by omega), rd_table' p n x _ (by omega) (by omega),
    rd_table' p n x _ (by omega) (by omega)]
  simp only [Int.toNat_natCast, show (((q : ℕ) : ℤ) + 1).toNat = q + 1 by omega]
  rw [Fir.fdiv_ok' p _ _ (step_ne p hp n x hx q h1)]
  rfl

theorem central_ok' (q : ℕ) (h0 : 1 ≤ q) (h1 : q + 1 < n) : Rounded.central half ((List.range n).map x) ((List.range n).map y) q = .ok (mb p half n x y q) := by
  simp only [Rounded.central, bind, Except.bind, left_ok' p hp n x y hx q h0 (by omega), right_ok' p hp n x y hx q h1, pure, Except.pure]
  rw [mb, if_neg (by omega), if_neg (by omega)]

theorem segment_ok' (hn : 3 ≤ n) (t : Binary p) (k : ℤ) (j : ℕ) (hj : (k < 1 ∧ j = 0) ∨ (1 ≤ k ∧ k < (n : ℤ) - 2 ∧ (j : ℤ) = k) ∨ (n : ℤ) - 2 ≤ k ∧ j = n - 2) :
    Rounded.segment half ((List.range n).map x) ((List.range n).map y) t k n =
      .ok (Rounded.blend t (y j) (y (j + 1)) (x (j + 1) - x j) (mb p half n x y j) (mb p half n x y (j + 1))) := by
  unfold Rounded.segment
  by_cases c1 : k < 1
  · have hj : j = 0 := by omega
    subst hj
    rw [if_pos c1]
    have r := right_ok' p hp n x y hx 0 (by omega)
    have c := central_ok' p hp half n x y hx 1 le_rfl (by omega)
    rw [Nat.cast_zero] at r
    rw [Nat.cast_one] at c
    simp only [bind, Except.bind, pure, Except.pure, r, c]
    rw [rd_table' p n y _ (by omega) (by omega), rd_table' p n y _ (by omega) (by omega), rd_table' p n x _ (by omega) (by omega),
      rd_table' p n x _ (by omega) (by omega)]
    rfl
  · rw [if_neg c1]
    by_cases c2 : k < (n : ℤ) - 2
    · have hj : (j : ℤ) = k := by omega
      rw [if_pos c2, ← hj]
      have c := central_ok' p hp half n x y hx j (by omega) (by omega)
      have c' := central_ok' p hp half n x y hx (j + 1) (by omega) (by omega)
      rw [Nat.cast_add, Nat.cast_one] at c'
      simp only [bind, Except.bind, pure, Except.pure, c, c']
      rw [rd_table' p n y _ (by omega) (by omega), rd_table' p n y _ (by omega) (by omega), rd_table' p n x _ (by omega) (by omega),
        rd_table' p n x _ (by omega) (by omega)]
      simp only [Int.toNat_natCast, show (((j : ℕ) : ℤ) + 1).toNat = j + 1 by omega]
    · have hj : j = n - 2 := by omega
      subst hj
      rw [if_neg c2]
      have e2 : (n : ℤ) - 2 = ((n - 2 : ℕ) : ℤ) := by omega
      have e1 : (n : ℤ) - 1 = ((n - 1 : ℕ) : ℤ) := by omega
      have c := central_ok' p hp half n x y hx (n - 2) (by omega) (by omega)
      have l := left_ok' p hp n x y hx (n - 1) (by omega) (by omega)
      have em : mb p half n x y (n - 2 + 1) = sl p x y (n - 1 - 1) := by
        rw [mb, if_neg (by omega), if_pos (by omega), show n - 2 + 1 - 1 = n - 1 - 1 by omega]
      rw [e1, e2]
      simp only [bind, Except.bind, pure, Except.pure, c, l]
      rw [rd_table' p n y _ (by omega) (by omega), rd_table' p n y _ (by omega) (by omega), rd_table' p n x _ (by omega) (by omega),
        rd_table' p n x _ (by omega) (by omega), em, show n - 2 + 1 = n - 1 by omega]
      simp only [Int.toNat_natCast]

end

omit [NeZero p] hp in
theorem takeWhile_spec' (l : List (Binary p)) (q : Binary p → Bool) :
    (l.takeWhile q).length ≤ l.length ∧ (∀ i v, i < (l.takeWhile q).length → l[i]? = some v → q v = true) ∧
      ∀ v, l[(l.takeWhile q).length]? = some v → q v = false := by
  induction l with
  | nil => simp
  | cons a l ih =>
    obtain ⟨h1, h2, h3⟩ := ih
    rw [List.takeWhile_cons]
    by_cases c : q a = true
    · rw [if_pos c]
      refine ⟨by simpa using h1, ?_, ?_⟩
      · intro i v hi hv
        cases i with
        | zero => simp at hv; rw [← hv]; exact c
        | succ i => exact h2 i v (by simpa using hi) (by simpa using hv)
      · intro v hv; exact h3 v (by simpa using hv)
    · rw [if_neg c]
      refine ⟨by simp, by simp, ?_⟩
      intro v hv
      simp at hv
      rw [← hv]; simpa using c

/-- The position inside of a segment: between zero and one, and at its ends exactly. -/
theorem position_ok (a b t : Binary p) (h : a.val < b.val) (h0 : a.val ≤ t.val) (h1 : t.val ≤ b.val) :
    0 ≤ (((t - a) / (b - a)).val : ℝ) ∧ (((t - a) / (b - a)).val : ℝ) ≤ 1 ∧
      |((a.val : ℝ) + ((t - a) / (b - a)).val * (b.val - a.val)) - t.val| ≤ 4.4 / 2 ^ p * (t.val - a.val) ∧
      (t.val = a.val → ((t - a) / (b - a)).val = 0) ∧ (t.val = b.val → ((t - a) / (b - a)).val = 1) := by
  have hR := binary_roundedField p
  have hp0 : 0 < p := by omega
  have hu := Win.unit_small p hp
  have hu0 : (0 : ℝ) ≤ 1 / 2 ^ p := by positivity
  have r0 : Binary.round p 0 = 0 := by simp [Binary.round, Binary.nearest]
  have r1 : Binary.round p 1 = 1 := by
    have := cast_small' p hp 1 (by norm_num)
    rw [← Int.cast_one]; exact this
  have hba : (b - a).val ≠ 0 := by
    have := sub_ne p hp b a h.ne'
    exact_mod_cast this
  have q1 : 0 ≤ (t - a).val := by
    rw [← r0]; exact Binary.round_mono p hp0 _ _ (by linarith)
  have q2 : 0 < (b - a).val := by
    refine lt_of_le_of_ne ?_ hba.symm
    rw [← r0]; exact Binary.round_mono p hp0 _ _ (by linarith)
  have q3 : (t - a).val ≤ (b - a).val := Binary.round_mono p hp0 _ _ (by linarith)
  have s1 : 0 ≤ ((t - a) / (b - a)).val := by
    rw [← r0]; exact Binary.round_mono p hp0 _ _ (div_nonneg q1 q2.le)
  have s2 : ((t - a) / (b - a)).val ≤ 1 := by
    rw [← r1]; exact Binary.round_mono p hp0 _ _ ((div_le_one q2).mpr q3)
  have hr : (a.val : ℝ) < b.val := by exact_mod_cast h
  have hr0 : (a.val : ℝ) ≤ t.val := by exact_mod_cast h0
  refine ⟨by exact_mod_cast s1, by exact_mod_cast s2, ?_, ?_, ?_⟩
  · have g := ((rel_one (hR.sub t a)).div hu0 (by linarith) (rel_one (hR.sub b a)) (by intro h'; linarith) (by push_cast; linarith) (fun hb => hR.div _ _ hb)).2
    have g1 := g.trans (mul_le_mul_of_nonneg_right (pow_units (1 / 2 ^ p) hu0 (1 + 1 + 2) (by push_cast; linarith)) (abs_nonneg _))
    have hw : 0 < (b.val : ℝ) - a.val := by linarith
    have e : ((a.val : ℝ) + ((t - a) / (b - a)).val * (b.val - a.val)) - t.val = (((t - a) / (b - a)).val - (t.val - a.val) / (b.val - a.val)) * (b.val - a.val) := by
      field_simp
      ring
    rw [e, abs_mul, abs_of_pos hw]
    refine (mul_le_mul_of_nonneg_right g1 hw.le).trans (le_of_eq ?_)
    rw [abs_of_nonneg (div_nonneg (by linarith) hw.le)]
    push_cast
    field_simp
    ring
  · intro ht
    show Binary.round p ((t - a).val / (b - a).val) = 0
    have : (t - a).val = 0 := by
      show Binary.round p (t.val - a.val) = 0
      rw [ht, sub_self, r0]
    rw [this, zero_div, r0]
  · intro ht
    show Binary.round p ((t - a).val / (b - a).val) = 1
    have : (t - a).val = (b - a).val := by
      show Binary.round p (t.val - a.val) = Binary.round p (b.val - a.val)
      rw [ht]
    rw [this, div_self hba, r1]

include hhalf hx in
/-- **C90** The Hermite spline in floating point, with at least three increasing knots. Every evaluation inside of the data goes without a fault; at every knot the value is exactly the datum. Otherwise
the argument lies in a segment and the value is that of the exact spline at a place `x'` of the same segment, which differs from the argument by at most `4.4/2^p` of its distance to the start of the segment, with an error of at most
`18/2^p` times the largest datum plus a quarter of the length of the segment times the largest slope of the chords. -/
theorem C90_hermite (hn : 3 ≤ n) (B L : ℝ) (hB : ∀ i < n, |((y i).val : ℝ)| ≤ B) (hL : ∀ k, k + 1 < n → |(((y (k + 1)).val : ℝ) - (y k).val) / ((x (k + 1)).val - (x k).val)| ≤ L) :
    ∃ S, IsHermiteSpline n (fun i => ((x i).val : ℝ)) (fun i => ((y i).val : ℝ)) (chordSlopes n (fun i => ((x i).val : ℝ)) (fun i => ((y i).val : ℝ))) S ∧
      ∀ t : Binary p, (x 0).val ≤ t.val → t.val ≤ (x (n - 1)).val → ∃ r, Rounded.eval half (fun a b => decide (a.val < b.val)) ((List.range n).map x) ((List.range n).map y) t = .ok r ∧
        (∀ i < n, t.val = (x i).val → r = y i) ∧
        ∃ (k : ℕ) (x' : ℝ), k + 1 < n ∧ (x k).val ≤ t.val ∧ t.val ≤ (x (k + 1)).val ∧ (x k).val ≤ x' ∧ x' ≤ (x (k + 1)).val ∧ |x' - t.val| ≤ 4.4 / 2 ^ p * (t.val - (x k).val) ∧
          |(r.val : ℝ) - S x'| ≤ 18 / 2 ^ p * (B + ((x (k + 1)).val - (x k).val) * L / 4) := by
  have hR := binary_roundedField p
  have hu0 : (0 : ℝ) ≤ 1 / 2 ^ p := by positivity
  have hx' : ∀ i, i + 1 < n → (fun i => ((x i).val : ℝ)) i < (fun i => ((x i).val : ℝ)) (i + 1) := fun i hi => real_step p n x hx i hi
  refine ⟨S n _ _ _, S_hermite n (by omega) _ _ _ hx', fun t ht0 ht1 => ?_⟩
  obtain ⟨h1, h2, h3⟩ := takeWhile_spec' p ((List.range n).map x) (fun v => decide (v.val < t.val))
  simp only [Rounded.eval]
  generalize (((List.range n).map x).takeWhile (fun v => decide (v.val < t.val))).length = k at h1 h2 h3 ⊢
  simp only [List.length_map, List.length_range] at h1 ⊢
  have lt : ∀ i, i < k → (x i).val < t.val := fun i hi => by
    have := h2 i (x i) hi (by rw [List.getElem?_map, List.getElem?_range (by omega)]; rfl)
    simpa using this
  have ge : k < n → t.val ≤ (x k).val := fun hk => by
    have := h3 (x k) (by rw [List.getElem?_map, List.getElem?_range hk]; rfl)
    simpa using this
  have pos : ∀ j : ℕ, j + 1 < n → Rounded.position ((List.range n).map x) t j (j + 1) = .ok ((t - x j) / (x (j + 1) - x j)) := by
    intro j hj
    simp only [Rounded.position, bind, Except.bind]
    rw [rd_table' p n x _ (by omega) (by omega), rd_table' p n x _ (by omega) (by omega)]
    simp only [Int.toNat_natCast, show (((j : ℕ) : ℤ) + 1).toNat = j + 1 by omega]
    rw [Fir.fdiv_ok' p _ _ (step_ne p hp n x hx j hj)]
  have incr : ∀ i j, i < j → j < n → (x i).val < (x j).val := fun i j h hj => by
    have := increasing n _ hx' i j h hj
    exact_mod_cast this
  have hk : k < n := by
    by_contra c
    obtain rfl : k = n := by omega
    exact absurd (lt (k - 1) (by omega)) (not_lt.mpr ht1)
  -- what remains once the segment is known
  have main : ∀ j : ℕ, j + 1 < n → (x j).val ≤ t.val → t.val ≤ (x (j + 1)).val → (∀ i < n, t.val = (x i).val → i = j ∨ i = j + 1) →
      (∀ i < n, t.val = (x i).val → Rounded.blend ((t - x j) / (x (j + 1) - x j)) (y j) (y (j + 1)) (x (j + 1) - x j) (mb p half n x y j) (mb p half n x y (j + 1)) = y i) ∧
        ∃ (k : ℕ) (x' : ℝ), k + 1 < n ∧ (x k).val ≤ t.val ∧ t.val ≤ (x (k + 1)).val ∧ (x k).val ≤ x' ∧ x' ≤ (x (k + 1)).val ∧ |x' - t.val| ≤ 4.4 / 2 ^ p * (t.val - (x k).val) ∧
          |((Rounded.blend ((t - x j) / (x (j + 1) - x j)) (y j) (y (j + 1)) (x (j + 1) - x j) (mb p half n x y j) (mb p half n x y (j + 1))).val : ℝ) -
            S n (fun i => ((x i).val : ℝ)) (fun i => ((y i).val : ℝ)) (chordSlopes n (fun i => ((x i).val : ℝ)) (fun i => ((y i).val : ℝ))) x'| ≤
            18 / 2 ^ p * (B + ((x (k + 1)).val - (x k).val) * L / 4) := by
    intro j hj l0 l1 hi
    obtain ⟨p0, p1, p2, p3, p4⟩ := position_ok p hp (x j) (x (j + 1)) t (hx j hj) l0 l1
    have hw := real_step p n x hx j hj
    refine ⟨fun i hin hti => ?_, j, (x j).val + ((t - x j) / (x (j + 1) - x j)).val * ((x (j + 1)).val - (x j).val), hj, l0, l1, ?_, ?_, p2, ?_⟩
    · rcases hi i hin hti with rfl | rfl
      · exact (blend_zero p hp _ _ _ _ _ _ (p3 hti)).1
      · exact (blend_one p hp _ _ _ _ _ _ (p4 hti)).1
    · have := mul_nonneg p0 (by linarith : 0 ≤ ((x (j + 1)).val : ℝ) - (x j).val)
      linarith
    · have := mul_le_mul_of_nonneg_right p1 (by linarith : 0 ≤ ((x (j + 1)).val : ℝ) - (x j).val)
      linarith
    · have e := S_closed n (fun i => ((x i).val : ℝ)) (fun i => ((y i).val : ℝ)) (chordSlopes n (fun i => ((x i).val : ℝ)) (fun i => ((y i).val : ℝ))) hx' j (by omega) (by omega)
        ((x j).val + ((t - x j) / (x (j + 1) - x j)).val * ((x (j + 1)).val - (x j).val))
        (Or.inr (by
          have := mul_nonneg p0 (by linarith : 0 ≤ ((x (j + 1)).val : ℝ) - (x j).val)
          linarith))
        (Or.inr (by
          have := mul_le_mul_of_nonneg_right p1 (by linarith : 0 ≤ ((x (j + 1)).val : ℝ) - (x j).val)
          linarith))
      rw [e, q0]
      have e2 : ((x j).val + (((t - x j) / (x (j + 1) - x j)).val : ℝ) * ((x (j + 1)).val - (x j).val) - (x j).val) / ((x (j + 1)).val - (x j).val) = ((t - x j) / (x (j + 1) - x j)).val := by
        rw [add_sub_cancel_left, mul_div_assoc, div_self (by linarith), mul_one]
      rw [e2]
      exact blend_error p hp _ _ _ _ _ _ p0 p1 _ _ _ B L (by linarith) (rel_one (hR.sub _ _)) (mb_error p hp half n x y hhalf hx L hL hn j (by omega))
        (mb_error p hp half n x y hhalf hx L hL hn (j + 1) hj) (hB j (by omega)) (hB (j + 1) hj)
  by_cases c1 : (k : ℤ) < 1
  · rw [if_pos c1]
    have q := pos 0 (by omega)
    rw [Nat.cast_zero, zero_add] at q
    simp only [bind, Except.bind, q]
    rw [segment_ok' p hp half n x y hx hn _ 0 0 (Or.inl ⟨by omega, rfl⟩)]
    have hk0 : k = 0 := by omega
    subst hk0
    have ht : t.val = (x 0).val := le_antisymm (ge (by omega)) ht0
    refine ⟨_, rfl, main 0 (by omega) ht0 (by rw [ht]; exact (hx 0 (by omega)).le) fun i hi hti => Or.inl ?_⟩
    by_contra c
    exact absurd (hti.symm.trans ht) (incr 0 i (by omega) hi).ne'
  · rw [if_neg c1, if_pos (by omega)]
    obtain ⟨j, rfl⟩ : ∃ j, k = j + 1 := ⟨k - 1, by omega⟩
    have q := pos j (by omega)
    have e1 : ((j + 1 : ℕ) : ℤ) - 1 = j := by omega
    have e2 : ((j + 1 : ℕ) : ℤ) = (j : ℤ) + 1 := by omega
    rw [e1, e2]
    simp only [bind, Except.bind, q]
    rw [segment_ok' p hp half n x y hx hn _ j j (by omega)]
    refine ⟨_, rfl, main j hk (lt j (by omega)).le (ge hk) fun i hi hti => Or.inr ?_⟩
    rcases lt_trichotomy i (j + 1) with h | h | h
    · exact absurd (lt i h) (by rw [hti]; exact lt_irrefl _)
    · exact h
    · exact absurd (ge hk) (by rw [hti]; exact not_le.mpr (incr (j + 1) i h hi))

/-! ### Equal distances -/

omit hp in
theorem mu_error (B : ℝ) (hB : ∀ i < n, |((y i).val : ℝ)| ≤ B) (hhalf : half.val = 1 / 2) (hn : 3 ≤ n) (i : ℕ) (hi : i < n) :
    RelS (1 / 2 ^ p) 6 (mu p half n y i).val (chordSlopes n (fun i => (i : ℝ)) (fun i => ((y i).val : ℝ)) i) (2 * B) := by
  have hR := binary_roundedField p
  have hu0 : (0 : ℝ) ≤ 1 / 2 ^ p := by positivity
  have hd : ∀ a b : ℕ, a < n → b < n → |((y a).val : ℝ) - (y b).val| ≤ 2 * B := fun a b ha hb => by
    have h1 := hB a ha
    have h2 := hB b hb
    exact (abs_sub _ _).trans (by linarith)
  unfold mu
  by_cases c0 : i = 0
  · subst c0
    rw [if_pos rfl, slopes_first, slope]
    have e : (((y (0 + 1)).val : ℝ) - (y 0).val) / (((0 + 1 : ℕ) : ℝ) - ((0 : ℕ) : ℝ)) = (y 1).val - (y 0).val := by norm_num
    rw [e]
    exact (rel_one (hR.sub _ _)).sized hu0 (by norm_num) (hd 1 0 (by omega) (by omega))
  · rw [if_neg c0]
    obtain ⟨q, rfl⟩ : ∃ q, i = q + 1 := ⟨i - 1, by omega⟩
    rw [show q + 1 - 1 = q by omega]
    by_cases c1 : q + 1 + 1 = n
    · rw [if_pos c1]
      simp only [chordSlopes]
      rw [if_neg c0, if_pos c1, show q + 1 - 1 = q by omega]
      have e : (((y (q + 1)).val : ℝ) - (y q).val) / (((q + 1 : ℕ) : ℝ) - (q : ℝ)) = (y (q + 1)).val - (y q).val := by push_cast; simp
      rw [e]
      exact (rel_one (hR.sub _ _)).sized hu0 (by norm_num) (hd (q + 1) q (by omega) (by omega))
    · rw [if_neg c1]
      have s := (rel_one (hR.sub (y (q + 1 + 1)) (y q))).sized hu0 le_rfl (hd (q + 1 + 1) q (by omega) (by omega))
      have hh : |(half.val : ℝ)| ≤ 1 / 2 := by rw [hhalf]; norm_num
      have m := ((Rel.refl (1 / 2 ^ p) (half.val : ℝ)).sized hu0 le_rfl hh).mul hu0 s (hR.mul _ _)
      have hB0 : 0 ≤ B := (abs_nonneg _).trans (hB 0 (by omega))
      have e : chordSlopes n (fun i => (i : ℝ)) (fun i => ((y i).val : ℝ)) (q + 1) = half.val * ((y (q + 1 + 1)).val - (y q).val) := by
        simp only [chordSlopes]
        rw [if_neg c0, if_neg c1, hhalf, show q + 1 - 1 = q by omega]
        push_cast
        ring_nf
      rw [e]
      exact m.mono hu0 (by norm_num) (by linarith)

omit hp in
theorem segmentU_ok' (hn : 3 ≤ n) (t : Binary p) (k : ℤ) (j : ℕ) (hj : (k < 1 ∧ j = 0) ∨ (1 ≤ k ∧ k < (n : ℤ) - 2 ∧ (j : ℤ) = k) ∨ (n : ℤ) - 2 ≤ k ∧ j = n - 2) :
    Rounded.segmentU half ((List.range n).map y) t k n = .ok (Rounded.blendU t (y j) (y (j + 1)) (mu p half n y j) (mu p half n y (j + 1))) := by
  have cen : ∀ q : ℕ, 1 ≤ q → q + 1 < n → Rounded.centralU half ((List.range n).map y) q = .ok (mu p half n y q) := by
    intro q h0 h1
    simp only [Rounded.centralU, bind, Except.bind, pure, Except.pure]
    rw [rd_table' p n y _ (by omega) (by omega), rd_table' p n y _ (by omega) (by omega)]
    simp only [show ((q : ℤ) - 1).toNat = q - 1 by omega, show ((q : ℤ) + 1).toNat = q + 1 by omega]
    rw [mu, if_neg (by omega), if_neg (by omega)]
  unfold Rounded.segmentU
  by_cases c1 : k < 1
  · have hj : j = 0 := by omega
    subst hj
    rw [if_pos c1]
    have c := cen 1 le_rfl (by omega)
    rw [Nat.cast_one] at c
    simp only [bind, Except.bind, pure, Except.pure, c, Rounded.rightU]
    rw [rd_table' p n y _ (by omega) (by omega), rd_table' p n y _ (by omega) (by omega), zero_add, rd_table' p n y _ (by omega) (by omega)]
    rfl
  · rw [if_neg c1]
    by_cases c2 : k < (n : ℤ) - 2
    · have hj : (j : ℤ) = k := by omega
      rw [if_pos c2, ← hj]
      have c := cen j (by omega) (by omega)
      have c' := cen (j + 1) (by omega) (by omega)
      rw [Nat.cast_add, Nat.cast_one] at c'
      simp only [bind, Except.bind, pure, Except.pure, c, c']
      rw [rd_table' p n y _ (by omega) (by omega), rd_table' p n y _ (by omega) (by omega)]
      simp only [Int.toNat_natCast, show (((j : ℕ) : ℤ) + 1).toNat = j + 1 by omega]
    · have hj : j = n - 2 := by omega
      subst hj
      rw [if_neg c2]
      have e2 : (n : ℤ) - 2 = ((n - 2 : ℕ) : ℤ) := by omega
      have e1 : (n : ℤ) - 1 = ((n - 1 : ℕ) : ℤ) := by omega
      have c := cen (n - 2) (by omega) (by omega)
      have em : mu p half n y (n - 2 + 1) = y (n - 1) - y (n - 2) := by
        rw [mu, if_neg (by omega), if_pos (by omega), show n - 2 + 1 = n - 1 by omega, show n - 1 - 1 = n - 2 by omega]
      rw [e1, e2]
      simp only [bind, Except.bind, pure, Except.pure, c, Rounded.leftU]
      rw [rd_table' p n y _ (by omega) (by omega), rd_table' p n y _ (by omega) (by omega), rd_table' p n y _ (by omega) (by omega), em, show n - 2 + 1 = n - 1 by omega]
      simp only [Int.toNat_natCast, show (((n - 1 : ℕ) : ℤ) - 1).toNat = n - 2 by omega]

omit [NeZero p] hp in
/-- The fraction of a number is a number. -/
theorem fraction_representable (a : ℚ) (ha : Binary.Representable p a) (k : ℤ) (h0 : 0 ≤ k) (h1 : (k : ℚ) ≤ a) (h2 : a < k + 1) : Binary.Representable p (a - k) := by
  obtain ⟨m, e, hm, rfl⟩ := ha
  rcases le_or_gt 0 e with he | he
  · obtain ⟨j, rfl⟩ := Int.eq_ofNat_of_zero_le he
    refine ⟨0, 0, by positivity, ?_⟩
    have h1' : k ≤ m * 2 ^ j := by exact_mod_cast h1
    have h2' : m * 2 ^ j < k + 1 := by exact_mod_cast h2
    have : m * 2 ^ j = k := by omega
    have e : (m : ℚ) * 2 ^ ((j : ℕ) : ℤ) = k := by
      rw [zpow_natCast]
      exact_mod_cast this
    rw [e]; simp
  · obtain ⟨j, hj⟩ : ∃ j : ℕ, e = -(j : ℤ) := ⟨(-e).toNat, by omega⟩
    subst hj
    have hpos : (0 : ℚ) < 2 ^ j := by positivity
    have e1 : (2 : ℚ) ^ (-(j : ℤ)) = 1 / 2 ^ j := by rw [zpow_neg, zpow_natCast, one_div]
    rw [e1] at h1 h2
    refine ⟨m - k * 2 ^ j, -(j : ℤ), ?_, ?_⟩
    · have h3 : (k : ℚ) * 2 ^ j ≤ m := by
        rw [mul_one_div, le_div_iff₀ hpos] at h1
        exact h1
      have h4 : k * 2 ^ j ≤ m := by exact_mod_cast h3
      have h5 : 0 ≤ k * 2 ^ j := by positivity
      rw [abs_lt] at hm ⊢
      constructor <;> omega
    · rw [e1]
      push_cast
      field_simp

/-- **C90** The Hermite spline for data at equal distances, from zero to `n-1`: the position is computed with two roundings, the value inside of the data differs from that of the exact spline at the position so found by at most `27/2^p`
times the largest datum, and at all knots it is exactly the datum. -/
theorem C90_uniform (hn : 3 ≤ n) (hn2 : (n : ℤ) ≤ 2 ^ p) (hhalf : half.val = 1 / 2) (B : ℝ) (hB : ∀ i < n, |((y i).val : ℝ)| ≤ B) (x0 dx : Binary p) (hdx : dx.val ≠ 0) :
    ∃ S, IsHermiteSpline n (fun i => (i : ℝ)) (fun i => ((y i).val : ℝ)) (chordSlopes n (fun i => (i : ℝ)) (fun i => ((y i).val : ℝ))) S ∧
      ∀ x : Binary p, |((x.val : ℝ) - x0.val) / dx.val| ≤ 2000000000 → ∃ r τ : Binary p, Rounded.evalU half Binary.trunc ((List.range n).map y) x x0 dx = .ok r ∧
        |(τ.val : ℝ) - (x.val - x0.val) / dx.val| ≤ 2.01 / 2 ^ p * |((x.val : ℝ) - x0.val) / dx.val| ∧ (x0.val = 0 → dx.val = 1 → τ.val = x.val) ∧
        (0 ≤ τ.val → (τ.val : ℝ) ≤ n - 1 → |(r.val : ℝ) - S τ.val| ≤ 27 / 2 ^ p * B) ∧
        ∀ k < n, τ.val = (k : ℕ) → r = y k := by
  refine ⟨S n _ _ _, S_hermite n (by omega) _ _ _ (uniform n), fun x hx => ?_⟩
  have hdx' : (dx.val : ℝ) ≠ 0 := by exact_mod_cast hdx
  obtain ⟨t1, t2, t3⟩ := tx_ok p hp x x0 dx hdx' hx
  simp only [Rounded.evalU, bind, Except.bind]
  rw [Fir.fdiv_ok' p _ _ hdx']
  generalize (x - x0) / dx = tx at t1 t2 t3 ⊢
  obtain ⟨e3, k1, k2⟩ := trunc_ok p tx t2
  simp only [e3, List.length_map, List.length_range]
  generalize tx.trunc = k at e3 k1 k2 ⊢
  have hp1 : (1 : ℤ) < 2 ^ p := one_lt_pow₀ (by norm_num) (by omega)
  -- what remains once the segment is known
  have main : ∀ (j : ℕ) (t : Binary p), j + 1 < n → t.val = tx.val - j → (0 ≤ tx.val → (tx.val : ℝ) ≤ n - 1 → 0 ≤ t.val ∧ t.val ≤ 1) →
      ((0 ≤ tx.val → (tx.val : ℝ) ≤ n - 1 → |((Rounded.blendU t (y j) (y (j + 1)) (mu p half n y j) (mu p half n y (j + 1))).val : ℝ) - S n (fun i => (i : ℝ)) (fun i => ((y i).val : ℝ)) (chordSlopes n (fun i => (i : ℝ)) (fun i => ((y i).val : ℝ))) tx.val| ≤ 27 / 2 ^ p * B) ∧
        ∀ k < n, tx.val = (k : ℕ) → Rounded.blendU t (y j) (y (j + 1)) (mu p half n y j) (mu p half n y (j + 1)) = y k) := by
    intro j t hj ht hin
    have ht' : (t.val : ℝ) = tx.val - j := by rw [ht]; push_cast; rfl
    constructor
    · intro g0 g1
      obtain ⟨i0, i1⟩ := hin g0 g1
      have i0' : 0 ≤ (t.val : ℝ) := by exact_mod_cast i0
      have i1' : (t.val : ℝ) ≤ 1 := by exact_mod_cast i1
      rw [S_closed n (fun i => (i : ℝ)) (fun i => ((y i).val : ℝ)) _ (uniform n) j (by omega) (by omega) tx.val (Or.inr (by linarith)) (Or.inr (by push_cast; linarith))]
      have q : q0 (fun i => (i : ℝ)) (fun i => ((y i).val : ℝ)) (chordSlopes n (fun i => (i : ℝ)) (fun i => ((y i).val : ℝ))) j tx.val =
          blend t.val (y j).val (y (j + 1)).val 1 (chordSlopes n (fun i => (i : ℝ)) (fun i => ((y i).val : ℝ)) j) (chordSlopes n (fun i => (i : ℝ)) (fun i => ((y i).val : ℝ)) (j + 1)) := by
        simp only [q0, ht']
        congr 1 <;> push_cast <;> ring
      rw [q]
      refine (blendU_error p hp t _ _ _ _ i0' i1' _ _ B (2 * B) (mu_error p half n y B hB hhalf hn j (by omega)) (mu_error p half n y B hB hhalf hn (j + 1) hj) (hB j (by omega)) (hB (j + 1) hj)).trans (le_of_eq ?_)
      ring
    · intro k hk htk
      have hkn : (tx.val : ℝ) = k := by rw [htk]; norm_num
      obtain ⟨i0, i1⟩ := hin (by rw [htk]; positivity) (by
        rw [hkn]
        have : (k : ℝ) + 1 ≤ n := by exact_mod_cast hk
        linarith)
      rw [htk] at ht
      rw [ht] at i0 i1
      have h0 : j ≤ k := by
        have : (j : ℚ) ≤ k := by linarith
        exact_mod_cast this
      have h1 : k ≤ j + 1 := by
        have : (k : ℚ) ≤ j + 1 := by linarith
        exact_mod_cast this
      rcases (by omega : k = j ∨ k = j + 1) with rfl | rfl
      · exact (blend_zero p hp t _ _ (y k) _ _ (by rw [ht]; ring)).2
      · exact (blend_one p hp t _ _ (y j) _ _ (by rw [ht]; push_cast; ring)).2
  have close : ∀ (j : ℕ) (t : Binary p) (kk : ℤ), j + 1 < n → t.val = tx.val - j → (0 ≤ tx.val → (tx.val : ℝ) ≤ n - 1 → 0 ≤ t.val ∧ t.val ≤ 1) →
      ((kk < 1 ∧ j = 0) ∨ (1 ≤ kk ∧ kk < (n : ℤ) - 2 ∧ (j : ℤ) = kk) ∨ (n : ℤ) - 2 ≤ kk ∧ j = n - 2) →
      ∃ r τ : Binary p, Rounded.segmentU half ((List.range n).map y) t kk n = .ok r ∧
        |(τ.val : ℝ) - (x.val - x0.val) / dx.val| ≤ 2.01 / 2 ^ p * |((x.val : ℝ) - x0.val) / dx.val| ∧ (x0.val = 0 → dx.val = 1 → τ.val = x.val) ∧
        (0 ≤ τ.val → (τ.val : ℝ) ≤ n - 1 → |(r.val : ℝ) - S n (fun i => (i : ℝ)) (fun i => ((y i).val : ℝ)) (chordSlopes n (fun i => (i : ℝ)) (fun i => ((y i).val : ℝ))) τ.val| ≤ 27 / 2 ^ p * B) ∧
        ∀ k < n, τ.val = (k : ℕ) → r = y k := by
    intro j t kk hj ht hin hs
    obtain ⟨a, b⟩ := main j t hj ht hin
    exact ⟨_, tx, segmentU_ok' p half n y hn t kk j hs, t1, t3, a, b⟩
  by_cases c : 0 ≤ (tx.val : ℝ)
  · have k1 := k1 c
    have k0 : 0 ≤ k := by rw [k1]; exact Int.floor_nonneg.mpr c
    have l1 : (k : ℝ) ≤ tx.val := by rw [k1]; exact Int.floor_le _
    have l2 : (tx.val : ℝ) < k + 1 := by rw [k1]; exact Int.lt_floor_add_one _
    have l1' : (k : ℚ) ≤ tx.val := by exact_mod_cast l1
    have l2' : tx.val < k + 1 := by exact_mod_cast l2
    rw [if_neg (by omega)]
    by_cases c2 : k < (n : ℤ) - 1
    · rw [if_pos c2]
      have hkn : ((k.toNat : ℕ) : ℤ) = k := Int.toNat_of_nonneg k0
      have hkq : ((k.toNat : ℕ) : ℚ) = k := by rw [← Int.cast_natCast, hkn]
      have ht : (tx - (k : Binary p)).val = tx.val - (k.toNat : ℕ) := by
        show Binary.round p (tx.val - (k : Binary p).val) = _
        rw [Binary.cast_exact p k (by rw [abs_of_nonneg k0]; omega), hkq]
        exact Binary.round_of_representable p _ (fraction_representable p _ tx.representable k k0 l1' l2')
      refine close k.toNat _ k (by omega) ht (fun _ _ => ?_) (by omega)
      rw [ht, hkq]
      constructor <;> linarith
    · rw [if_neg c2]
      by_cases c3 : (tx.val : ℝ) ≤ n - 1
      · have hkn : k = (n : ℤ) - 1 := by
          have : (k : ℝ) ≤ ((n : ℤ) - 1 : ℤ) := by push_cast; linarith
          have : k ≤ (n : ℤ) - 1 := by exact_mod_cast this
          omega
        have htx : tx.val = (n : ℚ) - 1 := by
          have h5 : ((n : ℝ)) - 1 ≤ tx.val := by rw [hkn] at l1; push_cast at l1; exact l1
          have : (tx.val : ℝ) = n - 1 := le_antisymm c3 h5
          exact_mod_cast this
        have h2q : ((n - 2 : ℕ) : ℚ) = (n : ℚ) - 2 := by rw [Nat.cast_sub (by omega)]; push_cast; rfl
        have ht : (tx - (((n : ℤ) - 2 : ℤ) : Binary p)).val = tx.val - (n - 2 : ℕ) := by
          show Binary.round p (tx.val - (((n : ℤ) - 2 : ℤ) : Binary p).val) = _
          rw [Binary.cast_exact p _ (by rw [abs_of_nonneg (by omega)]; omega), htx, h2q]
          push_cast
          have e : (n : ℚ) - 1 - (n - 2) = 1 := by ring
          rw [e]
          exact Binary.round_of_representable p _ ⟨1, 0, by simpa using hp1, by simp⟩
        refine close (n - 2) _ _ (by omega) ht (fun _ _ => ?_) (by omega)
        rw [ht, h2q, htx]
        constructor <;> linarith
      · refine ⟨_, tx, segmentU_ok' p half n y hn _ _ (n - 2) (by omega), t1, t3, fun _ h => absurd h c3, fun i hi h => ?_⟩
        exfalso
        apply c3
        rw [h]
        have : (i : ℝ) + 1 ≤ n := by exact_mod_cast hi
        push_cast
        linarith
  · have c := not_le.mp c
    obtain ⟨-, k2⟩ := k2 c
    have cq : tx.val < 0 := by exact_mod_cast c
    by_cases c3 : k < 0
    · rw [if_pos c3]
      exact close 0 tx 0 (by omega) (by simp) (fun h => absurd h (not_le.mpr cq)) (by omega)
    · obtain rfl : k = 0 := by omega
      rw [if_neg c3, if_pos (by omega)]
      refine close 0 _ 0 (by omega) ?_ (fun h => absurd h (not_le.mpr cq)) (by omega)
      show Binary.round p (tx.val - ((0 : ℤ) : Binary p).val) = _
      rw [Binary.cast_exact p 0 (by simp), Binary.round_of_representable p _ (by simpa using tx.representable)]
      simp

example : ∀ i, i + 1 < 3 → ((fun i : ℕ => (((i : ℤ) ^ 2 : ℤ) : Binary 24)) i).val < ((fun i : ℕ => (((i : ℤ) ^ 2 : ℤ) : Binary 24)) (i + 1)).val := by
  intro i hi
  replace hi : i < 2 := by omega
  rw [Binary.cast_exact 24 _ (by interval_cases i <;> norm_num), Binary.cast_exact 24 _ (by interval_cases i <;> norm_num)]
  interval_cases i <;> norm_num

example : (Binary.literal 64 24 (1 / 2)).val = 1 / 2 := by decide +kernel

end HermiteSpline
end DSP
