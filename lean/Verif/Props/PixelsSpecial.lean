import Verif.Props.SamplesSpecial

/-!
# C136: pixels with infinities and NaN, and in IEEE arithmetic
-/

namespace DSP

open Ieee Spec FFT Bridge

namespace PixelsIeee

variable {F : Format}

/-- What is asked of `std::pow`: between zero and one it is right to three digits and does not exceed one, any power of one is one, and it passes on a NaN. -/
structure Power (pow : Ieee F → Ieee F → Ieee F) : Prop where
  near : ∀ x y : Ieee F, GoodIeee x → GoodIeee y → 0 < x.val → x.val ≤ 1 → 0 < y.val → y.val ≤ 1 →
    GoodIeee (pow x y) ∧ (pow x y).val ≤ 1 ∧ |((pow x y).val : ℝ) - (x.val : ℝ) ^ (y.val : ℝ)| ≤ 1 / 1000
  one : ∀ x y : Ieee F, GoodIeee x → GoodIeee y → x.val = 1 → (pow x y).val = 1
  nan : ∀ y : Ieee F, GoodIeee y → y.val ≠ 0 → pow nan y = nan

variable [NeZero F.p] (D : UnitCircle.Deep F)

section
include D

omit [NeZero F.p] in
theorem close {x y : ℝ} (h : |y - x| ≤ 1 / 2 ^ F.p * (|x| + 2 ^ (F.emin + F.p - 1))) : |y - x| ≤ 1 / 1000000 * (|x| + 1 / 1000000) := by
  have hu := NCO.unit_tiny D.wide
  have hf := NCO.floor_tiny D.wide
  have e0 : (0 : ℝ) ≤ 2 ^ (F.emin + F.p - 1) := by positivity
  have := abs_nonneg x
  exact h.trans (by gcongr)

omit [NeZero F.p] in
theorem room {x : ℝ} (h : |x| ≤ 100000) : |x| ≤ 2 ^ (F.emax - 1) := by
  have := D.high
  calc |x| ≤ 100000 := h
    _ ≤ 2 ^ (60 : ℤ) := by norm_num
    _ ≤ _ := zpow_le_zpow_right₀ (by norm_num) (by omega)

theorem lit_good (hp' : F.p ≤ 53) (q lo hi : ℚ) (h0 : 1 / 1000 ≤ q) (h1 : q ≤ 100) (hl : lo ≤ q - q / 524288) (hh : q + q / 524288 ≤ hi) :
    GoodIeee (Pnm.constant F q) ∧ (lo : ℝ) ≤ ((Pnm.constant F q).val : ℝ) ∧ ((Pnm.constant F q).val : ℝ) ≤ hi := by
  unfold Pnm.constant
  have e : |q| = q := abs_of_nonneg (by linarith)
  obtain ⟨s, -, -⟩ := UnitCircle.const_of D q 53 hp' (by rw [e]; exact le_trans (by norm_num) h0) (by rw [e]; exact h1)
  obtain ⟨a, b⟩ := Elementary.AtanIeee.literal_between 53 F.p D.wide.p hp' q lo hi (by rw [e]; exact hl) (by rw [e]; exact hh)
  refine ⟨⟨s.1, s.2.1⟩, ?_, ?_⟩ <;> rw [s.2.2] <;> exact_mod_cast ‹_›

/-- Clamping. -/
theorem clamp (x : Ieee F) (hn : x ≠ nan) (hx : x.Valid) : GoodIeee (stdMin (stdMax x 0) 1) ∧ 0 ≤ (stdMin (stdMax x 0) 1).val ∧ (stdMin (stdMax x 0) 1).val ≤ 1 ∧
    (x = inf false ∨ x.Finite ∧ 1 ≤ x.val → (stdMin (stdMax x 0) 1).val = 1) ∧ (x = inf true ∨ x.Finite ∧ x.val ≤ 0 → (stdMin (stdMax x 0) 1).val = 0) := by
  obtain ⟨s1, v1⟩ := SamplesIeee.int_same D 1 (by norm_num)
  obtain ⟨s0, v0⟩ := SamplesIeee.int_same D 0 (by norm_num)
  rw [Int.cast_one] at v1
  rw [Int.cast_zero] at v0
  have o : (1 : Ieee F) = ((1 : ℤ) : Ieee F) := rfl
  have z : Same (0 : Ieee F) ((0 : ℤ) : Binary F.p) := ⟨FMDRounded.zero_good.1.1, FMDRounded.zero_good.1.2, by rw [v0]; exact FMDRounded.zero_good.2⟩
  cases x with
  | nan => exact absurd rfl hn
  | inf s =>
    cases s with
    | true =>
      have e : stdMax (inf true : Ieee F) 0 = 0 := rfl
      have m := SamplesIeee.min_same z s1
      rw [e, o]
      rw [v0, v1, if_neg (by norm_num)] at m
      refine ⟨⟨m.1, m.2.1⟩, ?_, ?_, ?_, ?_⟩ <;> rw [m.2.2, v0]
      · norm_num
      · rintro (h | h)
        · cases h
        · exact h.1.elim
      · intro _; rfl
    | false =>
      have e : stdMax (inf false : Ieee F) 0 = inf false := rfl
      have e' : stdMin (inf false : Ieee F) 1 = 1 := by
        unfold stdMin
        rw [o]
        have := s1.1
        cases h : ((1 : ℤ) : Ieee F) with
        | nan => rw [h] at this; exact this.elim
        | inf => rw [h] at this; exact this.elim
        | num t m => rfl
      rw [e, e', o]
      refine ⟨⟨s1.1, s1.2.1⟩, ?_, ?_, ?_, ?_⟩ <;> rw [s1.2.2, v1]
      · norm_num
      · intro _; rfl
      · rintro (h | h)
        · cases h
        · exact h.1.elim
  | num s m =>
    have hs := FMDRounded.free_same (a := (num s m : Ieee F)) trivial hx
    have he := FMDRounded.free_val hx
    have mm := SamplesIeee.min_same (SamplesIeee.max_same hs z) s1
    rw [o]
    refine ⟨⟨mm.1, mm.2.1⟩, ?_, ?_, ?_, ?_⟩ <;> rw [mm.2.2]
    · split_ifs <;> simp only [v0, v1] at * <;> linarith
    · split_ifs <;> simp only [v0, v1] at * <;> linarith
    · rintro (h | ⟨-, h⟩)
      · cases h
      · rw [← he] at h
        split_ifs <;> simp only [v0, v1] at * <;> linarith
    · rintro (h | ⟨-, h⟩)
      · cases h
      · rw [← he] at h
        split_ifs <;> simp only [v0, v1] at * <;> linarith

/-- The conversion at the end. -/
theorem last (m : ℤ) (h0 : 0 ≤ m) (h1 : m ≤ 65535) (v : Ieee F) (g : GoodIeee v) (v0 : 0 ≤ (v.val : ℝ)) (v1 : (v.val : ℝ) ≤ 1 + 1 / 200000) :
    ∃ q, int32 (Ieee.code ((m : Ieee F) * v)) = .ok q ∧ 0 ≤ q ∧ q ≤ m ∧ (1 - 1 / 200000 ≤ (v.val : ℝ) → q = m) ∧ (v.val = 0 → q = 0) := by
  have U := NCO.usual_of_wide D.wide
  have sm := UnitCircle.same_int D m (by rw [abs_le]; omega)
  have vm : ((m : ℤ) : Ieee F).val = m := by
    rw [sm.2.2]
    refine WavBinary.cast_val m ?_
    have := pow_le_pow_right₀ (by norm_num : (1 : ℤ) ≤ 2) D.wide.p
    rw [abs_lt]
    norm_num at this
    omega
  have m0 : (0 : ℝ) ≤ m := by exact_mod_cast h0
  have m1 : (m : ℝ) ≤ 65535 := by exact_mod_cast h1
  have vm' : (((m : ℤ) : Ieee F).val : ℝ) = m := by rw [vm]; norm_cast
  have p0 : (0 : ℝ) ≤ m * v.val := mul_nonneg m0 v0
  have p1 : (m : ℝ) * v.val ≤ m + 1 / 3 := by nlinarith
  obtain ⟨gw, hw⟩ := good_mul U ((m : ℤ) : Ieee F) v ⟨sm.1, sm.2.1⟩ g (room D (by rw [vm', abs_of_nonneg p0]; linarith))
  have hw := close D hw
  rw [vm', abs_of_nonneg p0] at hw
  have hz : v.val = 0 → (((m : ℤ) : Ieee F) * v).val = 0 := by
    intro h
    have hp : 0 < F.p := Nat.pos_of_ne_zero (NeZero.ne _)
    rw [mul_val hp _ _ sm.1 g.1 sm.2.1 g.2 gw.1, h, mul_zero, roundTo_zero]
  generalize ((m : ℤ) : Ieee F) * v = w at *
  obtain ⟨gf, gv⟩ := gw
  obtain ⟨a, b⟩ := abs_le.mp hw
  have ec : Ieee.code w = Binary.nearest w.val := by
    cases w with
    | nan => exact gf.elim
    | inf => exact gf.elim
    | num s n => rfl
  have hr : |((Binary.nearest w.val : ℤ) : ℝ) - (w.val : ℝ)| ≤ 1 / 2 := by
    have h := Binary.nearest_near w.val
    have : ((|((Binary.nearest w.val : ℤ) : ℚ) - w.val| : ℚ) : ℝ) ≤ ((1 / 2 : ℚ) : ℝ) := by exact_mod_cast h
    push_cast at this
    exact this
  obtain ⟨c, d⟩ := abs_le.mp hr
  rw [ec]
  generalize hq : Binary.nearest w.val = q at *
  have q0 : (-1 : ℝ) < q := by linarith
  have q1 : (q : ℝ) < m + 1 := by linarith
  have q0' : -1 < q := by exact_mod_cast q0
  have q1' : q < m + 1 := by exact_mod_cast q1
  refine ⟨q, Wav.int32_ok (by omega), by omega, by omega, fun h => ?_, fun h => ?_⟩
  · have p2 : (m : ℝ) - 1 / 3 ≤ m * v.val := by nlinarith
    have q2 : (m : ℝ) - 1 < q := by linarith
    have q2' : m - 1 < q := by exact_mod_cast q2
    omega
  · rw [hz h] at hq
    rw [← hq]
    exact_mod_cast Binary.nearest_int 0

/-- The exponent. -/
theorem exponent (hp' : F.p ≤ 53) : GoodIeee (1 / (Pnm.constant F 2.4)) ∧ 0 < (1 / (Pnm.constant F 2.4)).val ∧
    (1 / (Pnm.constant F 2.4)).val ≤ 1 / 2 := by
  have U := NCO.usual_of_wide D.wide
  obtain ⟨g, a, b⟩ := lit_good D hp' 2.4 2.39 2.41 (by norm_num) (by norm_num) (by norm_num) (by norm_num)
  obtain ⟨g1, v1⟩ := FMDRounded.good_one U
  generalize (Pnm.constant F 2.4) = y at *
  norm_num at a b
  have l : (4 : ℝ) / 10 ≤ 1 / y.val := by rw [div_le_div_iff₀ (by norm_num) (by linarith)]; linarith
  have u : (1 : ℝ) / y.val ≤ 42 / 100 := by rw [div_le_div_iff₀ (by linarith) (by norm_num)]; linarith
  obtain ⟨h1, h2⟩ := FMDRounded.good_div U 1 y g1 g (by intro h; rw [h] at a; norm_num at a) (room D (by rw [v1, abs_le]; constructor <;> linarith))
  have h2 := close D h2
  rw [v1, abs_of_nonneg (a := (1 : ℝ) / y.val) (by linarith)] at h2
  obtain ⟨c, d⟩ := abs_le.mp h2
  have e1 : (0 : ℝ) < ((1 / y).val : ℝ) := by linarith
  have e2 : ((1 / y).val : ℝ) ≤ ((1 / 2 : ℚ) : ℝ) := by push_cast; linarith
  exact ⟨h1, by exact_mod_cast e1, by exact_mod_cast e2⟩

/-- The joint. -/
theorem joint (hp' : F.p ≤ 53) : GoodIeee ((Pnm.constant F 0.04045) / (Pnm.constant F 12.92)) ∧
    3 / 1000 ≤ (((Pnm.constant F 0.04045) / (Pnm.constant F 12.92)).val : ℝ) ∧
    (((Pnm.constant F 0.04045) / (Pnm.constant F 12.92)).val : ℝ) ≤ 4 / 1000 := by
  have U := NCO.usual_of_wide D.wide
  obtain ⟨g, a, b⟩ := lit_good D hp' 12.92 12.9 12.93 (by norm_num) (by norm_num) (by norm_num) (by norm_num)
  obtain ⟨g', a', b'⟩ := lit_good D hp' 0.04045 0.0404 0.0405 (by norm_num) (by norm_num) (by norm_num) (by norm_num)
  generalize (Pnm.constant F 12.92) = y at *
  generalize (Pnm.constant F 0.04045) = x at *
  norm_num at a b a' b'
  have l : (31 : ℝ) / 10000 ≤ x.val / y.val := by rw [div_le_div_iff₀ (by norm_num) (by linarith)]; linarith
  have u : (x.val : ℝ) / y.val ≤ 32 / 10000 := by rw [div_le_div_iff₀ (by linarith) (by norm_num)]; linarith
  obtain ⟨h1, h2⟩ := FMDRounded.good_div U x y g' g (by intro h; rw [h] at a; norm_num at a) (room D (by rw [abs_le]; constructor <;> linarith))
  have h2 := close D h2
  rw [abs_of_nonneg (a := (x.val : ℝ) / y.val) (by linarith)] at h2
  obtain ⟨c, d⟩ := abs_le.mp h2
  exact ⟨h1, by linarith, by linarith⟩

/-- Below the joint. -/
theorem low (hp' : F.p ≤ 53) (c : Ieee F) (g : GoodIeee c) (c0 : 0 ≤ (c.val : ℝ)) (c1 : (c.val : ℝ) ≤ 4 / 1000) :
    GoodIeee (c * (Pnm.constant F 12.92)) ∧ 0 ≤ ((c * (Pnm.constant F 12.92)).val : ℝ) ∧
    ((c * (Pnm.constant F 12.92)).val : ℝ) ≤ 6 / 100 ∧ (c.val = 0 → (c * (Pnm.constant F 12.92)).val = 0) := by
  have U := NCO.usual_of_wide D.wide
  have hp : 0 < F.p := Nat.pos_of_ne_zero (NeZero.ne _)
  obtain ⟨gy, a, b⟩ := lit_good D hp' 12.92 12.9 12.93 (by norm_num) (by norm_num) (by norm_num) (by norm_num)
  generalize (Pnm.constant F 12.92) = y at *
  norm_num at a b
  have p0 : (0 : ℝ) ≤ c.val * y.val := mul_nonneg c0 (by linarith)
  have p1 : (c.val : ℝ) * y.val ≤ 4 / 1000 * 13 := mul_le_mul c1 (by linarith) (by linarith) (by norm_num)
  obtain ⟨h1, h2⟩ := good_mul U c y g gy (room D (by rw [abs_of_nonneg p0]; linarith))
  have h2 := close D h2
  rw [abs_of_nonneg p0] at h2
  obtain ⟨e, d⟩ := abs_le.mp h2
  have ev := mul_val hp c y g.1 gy.1 g.2 gy.2 h1.1
  have p0' : 0 ≤ c.val * y.val := by exact_mod_cast p0
  refine ⟨h1, ?_, by linarith, fun h => by rw [ev, h, zero_mul, roundTo_zero]⟩
  rw [ev]
  exact_mod_cast roundTo_nonneg hp _ p0'

/-- Above the joint. -/
theorem high (hp' : F.p ≤ 53) {pow : Ieee F → Ieee F → Ieee F} (P : Power pow) (c : Ieee F) (g : GoodIeee c) (c0 : 3 / 1000 ≤ (c.val : ℝ)) (c1 : c.val ≤ 1) :
    GoodIeee ((1 + (Pnm.constant F 0.055)) * pow c (1 / (Pnm.constant F 2.4)) - (Pnm.constant F 0.055)) ∧
    0 ≤ (((1 + (Pnm.constant F 0.055)) * pow c (1 / (Pnm.constant F 2.4)) - (Pnm.constant F 0.055)).val : ℝ) ∧
    (((1 + (Pnm.constant F 0.055)) * pow c (1 / (Pnm.constant F 2.4)) - (Pnm.constant F 0.055)).val : ℝ) ≤ 1 + 1 / 200000 ∧
    (c.val = 1 → 1 - 1 / 200000 ≤ (((1 + (Pnm.constant F 0.055)) * pow c (1 / (Pnm.constant F 2.4)) - (Pnm.constant F 0.055)).val : ℝ)) := by
  have U := NCO.usual_of_wide D.wide
  obtain ⟨gy, y0, y1⟩ := exponent D hp'
  obtain ⟨ga, a, b⟩ := lit_good D hp' 0.055 0.0549 0.0551 (by norm_num) (by norm_num) (by norm_num) (by norm_num)
  obtain ⟨g1, v1⟩ := FMDRounded.good_one U
  generalize 1 / (Pnm.constant F 2.4) = y at *
  generalize (Pnm.constant F 0.055) = o at *
  norm_num at a b
  have cp : (0 : ℝ) < c.val := by linarith
  have cp' : 0 < c.val := by exact_mod_cast cp
  have c1' : (c.val : ℝ) ≤ 1 := by exact_mod_cast c1
  have y1' : (y.val : ℝ) ≤ 1 / 2 := by
    have : (y.val : ℝ) ≤ ((1 / 2 : ℚ) : ℝ) := by exact_mod_cast y1
    push_cast at this
    exact this
  obtain ⟨gp, q1, q2⟩ := P.near c y g gy cp' c1 y0 (y1.trans (by norm_num))
  have po := P.one c y g gy
  have q0 : (537 : ℝ) / 10000 ≤ (pow c y).val := by
    have h1 : (c.val : ℝ) ^ ((1 : ℝ) / 2) ≤ (c.val : ℝ) ^ (y.val : ℝ) := Real.rpow_le_rpow_of_exponent_ge cp c1' y1'
    have h2 : (547 : ℝ) / 10000 ≤ (c.val : ℝ) ^ ((1 : ℝ) / 2) := by
      rw [← Real.sqrt_eq_rpow]
      exact Real.le_sqrt_of_sq_le (by nlinarith)
    have := (abs_le.mp q2).1
    linarith
  have q1' : ((pow c y).val : ℝ) ≤ 1 := by exact_mod_cast q1
  generalize pow c y = w at *
  -- the sum
  obtain ⟨gs, hs⟩ := good_add U 1 o g1 ga (room D (by rw [v1, abs_le]; constructor <;> linarith))
  have hs := close D hs
  rw [v1, abs_of_nonneg (a := (1 : ℝ) + o.val) (by linarith)] at hs
  obtain ⟨s0, s1⟩ := abs_le.mp hs
  generalize 1 + o = s at *
  -- the product
  have sl : (10548 : ℝ) / 10000 ≤ s.val := by linarith
  have su : (s.val : ℝ) ≤ 10552 / 10000 := by linarith
  have m0 : (566 : ℝ) / 10000 ≤ s.val * w.val := by nlinarith
  have m1 : (s.val : ℝ) * w.val ≤ s.val := by nlinarith
  obtain ⟨gt, ht⟩ := good_mul U s w gs gp (room D (by rw [abs_le]; constructor <;> linarith))
  have ht := close D ht
  rw [abs_of_nonneg (a := (s.val : ℝ) * w.val) (by linarith)] at ht
  obtain ⟨t0, t1⟩ := abs_le.mp ht
  have mo : c.val = 1 → (s.val : ℝ) * w.val = s.val := by
    intro h
    rw [po h]; simp
  generalize s * w = t at *
  -- the difference
  obtain ⟨gd, hd⟩ := good_sub U t o gt ga (room D (by rw [abs_le]; constructor <;> linarith))
  have hd := close D hd
  rw [abs_of_nonneg (a := (t.val : ℝ) - o.val) (by linarith)] at hd
  obtain ⟨d0, d1⟩ := abs_le.mp hd
  exact ⟨gd, by linarith, by linarith, fun h => by have := mo h; linarith⟩

omit [NeZero F.p] D in
theorem at_most (c j : Ieee F) (gc : GoodIeee c) (gj : GoodIeee j) : (decide (c < j) || c == j) = true ↔ c.val ≤ j.val := by
  obtain ⟨fc, -⟩ := gc
  obtain ⟨fj, -⟩ := gj
  cases c with
  | nan => exact fc.elim
  | inf => exact fc.elim
  | num s m =>
    cases j with
    | nan => exact fj.elim
    | inf => exact fj.elim
    | num t n =>
      rw [Bool.or_eq_true, decide_eq_true_iff]
      have h1 : (num s m : Ieee F) < num t n ↔ signed s m < signed t n := decide_eq_true_iff
      have h2 : ((num s m : Ieee F) == num t n) = true ↔ signed s m = signed t n := decide_eq_true_iff
      rw [h1, h2]
      exact le_iff_lt_or_eq.symm

end

/-- `srgb` after clamping. -/
def curve (pow : Ieee F → Ieee F → Ieee F) (m : ℤ) (K0 a phi gamma c : Ieee F) : M Int :=
  int32 (Ieee.code ((m : Ieee F) * if decide (c < K0 / phi) || c == K0 / phi then c * phi else (1 + a) * pow c (1 / gamma) - a))

omit [NeZero F.p] in
theorem curve_eq (pow : Ieee F → Ieee F → Ieee F) (K0 a phi gamma : Ieee F) (m : ℤ) (x : Ieee F) : Pnm.srgbWith pow K0 a phi gamma m x = curve pow m K0 a phi gamma (stdMin (stdMax x 0) 1) := rfl

include D in
theorem curve_range (hp' : F.p ≤ 53) {pow : Ieee F → Ieee F → Ieee F} (P : Power pow) (m : ℤ) (h0 : 0 ≤ m) (h1 : m ≤ 65535) (c : Ieee F) (gc : GoodIeee c) (c0 : 0 ≤ c.val) (c1 : c.val ≤ 1) :
    ∃ q, curve pow m (Pnm.constant F 0.04045) (Pnm.constant F 0.055) (Pnm.constant F 12.92) (Pnm.constant F 2.4) c = .ok q ∧
      0 ≤ q ∧ q ≤ m ∧ (c.val = 1 → q = m) ∧ (c.val = 0 → q = 0) := by
  obtain ⟨gj, j0, j1⟩ := joint D hp'
  have lw := low D hp' c gc (by exact_mod_cast c0)
  have hg := fun h => high D hp' P c gc h c1
  generalize (Pnm.constant F 0.04045) = K0 at *
  generalize (Pnm.constant F 0.055) = a at *
  generalize (Pnm.constant F 12.92) = phi at *
  generalize (Pnm.constant F 2.4) = gamma at *
  unfold curve
  have hj := at_most c _ gc gj
  by_cases h : c.val ≤ (K0 / phi).val
  · rw [if_pos (hj.mpr h)]
    have h' : (c.val : ℝ) ≤ 4 / 1000 := le_trans (by exact_mod_cast h) j1
    obtain ⟨gv, w0, w1, wz⟩ := lw h'
    obtain ⟨q, e, q0, q1, qb, qd⟩ := last D m h0 h1 _ gv w0 (by linarith)
    refine ⟨q, e, q0, q1, fun hb => ?_, fun hd => qd (wz hd)⟩
    rw [hb] at h'
    norm_num at h'
  · rw [if_neg (fun k => h (hj.mp k))]
    have h' : 3 / 1000 ≤ (c.val : ℝ) := j0.trans (by exact_mod_cast (not_le.mp h).le)
    obtain ⟨gv, w0, w1, wb⟩ := hg h'
    obtain ⟨q, e, q0, q1, qb, qd⟩ := last D m h0 h1 _ gv w0 w1
    refine ⟨q, e, q0, q1, fun hb => qb (wb hb), fun hd => ?_⟩
    rw [hd] at h'
    norm_num at h'

omit [NeZero F.p] in
theorem curve_nan (pow : Ieee F → Ieee F → Ieee F) (m : ℤ) (K0 a phi gamma : Ieee F) (h : pow nan (1 / gamma) = nan) : curve pow m K0 a phi gamma nan = .error .overflow := by
  unfold curve
  have h2 : ∀ j : Ieee F, (decide ((nan : Ieee F) < j) || (nan : Ieee F) == j) = false := by intro j; cases j <;> rfl
  have h3 : ∀ o : Ieee F, nan - o = nan := fun o => nan_add _
  rw [h2, if_neg Bool.false_ne_true, h, mul_nan, h3, mul_nan]
  rfl

end PixelsIeee

open PixelsIeee Pnm

section
variable {F : Format} [NeZero F.p] (D : UnitCircle.Deep F) (hp' : F.p ≤ 53) {pow : Ieee F → Ieee F → Ieee F} (P : Power pow)
include D hp' P

/-- **C136** Every pixel that is not NaN, also an infinite one, becomes a code between zero and the greatest. What is one or more, also positive infinity, becomes the greatest code, what is zero or less, also negative infinity, becomes zero. -/
theorem C136_range (m : ℤ) (h0 : 0 ≤ m) (h1 : m ≤ 65535) (x : Ieee F) (hn : x ≠ nan) (hx : x.Valid) :
    ∃ q, srgbIeee pow m x = .ok q ∧ 0 ≤ q ∧ q ≤ m ∧ (x = inf false ∨ x.Finite ∧ 1 ≤ x.val → q = m) ∧ (x = inf true ∨ x.Finite ∧ x.val ≤ 0 → q = 0) := by
  obtain ⟨gc, c0, c1, cb, cd⟩ := PixelsIeee.clamp D x hn hx
  obtain ⟨q, e, q0, q1, qb, qd⟩ := curve_range D hp' P m h0 h1 _ gc c0 c1
  exact ⟨q, (curve_eq pow _ _ _ _ m x).trans e, q0, q1, fun h => qb (cb h), fun h => qd (cd h)⟩

/-- **C136** A NaN is converted to `int`, which is undefined. -/
theorem C136_nan (m : ℤ) : srgbIeee pow m nan = .error .overflow := by
  obtain ⟨gy, y0, -⟩ := exponent D hp'
  have h1 : stdMin (stdMax (nan : Ieee F) 0) 1 = nan := by
    have : ∀ o : Ieee F, stdMin nan o = nan := by
      intro o
      unfold stdMin
      rw [if_neg]
      cases o <;> exact Bool.false_ne_true
    exact this 1
  exact (curve_eq pow _ _ _ _ m nan).trans ((congrArg _ h1).trans (curve_nan pow m _ _ _ _ (P.nan _ gy y0.ne')))

end

/-- A power in steps of 1/1024 is good enough. -/
noncomputable def PixelsIeee.roughPow (F : Format) : Ieee F → Ieee F → Ieee F
  | nan, _ => nan
  | x, y => ((⌊(x.val : ℝ) ^ (y.val : ℝ) * 1024⌋ : ℤ) : Ieee F) / ((1024 : ℤ) : Ieee F)

theorem PixelsIeee.rough_power {F : Format} [NeZero F.p] (D : UnitCircle.Deep F) : Power (roughPow F) := by
  have step : ∀ k : ℤ, 0 ≤ k → k ≤ 1024 → GoodIeee (((k : ℤ) : Ieee F) / ((1024 : ℤ) : Ieee F)) ∧ (((k : ℤ) : Ieee F) / ((1024 : ℤ) : Ieee F)).val = k / 1024 := by
    intro k h0 h1
    have ds := SamplesIeee.decoded_same D k 1024 (by rw [abs_le]; omega) (by norm_num) (by norm_num)
    refine ⟨⟨ds.1, ds.2.1⟩, ?_⟩
    have small : ∀ n : ℤ, 0 ≤ n → n ≤ 1024 → |n| < 2 ^ F.p := fun n a b => WavBinary.small D.wide.p (by rw [abs_le]; omega)
    rw [ds.2.2]
    show Binary.round F.p (_ / _) = _
    rw [WavBinary.cast_val k (small k h0 h1), WavBinary.cast_val 1024 (small 1024 (by norm_num) (by norm_num))]
    exact Binary.round_of_representable F.p _ ⟨k, -10, small k h0 h1, by push_cast; norm_num; ring⟩
  refine ⟨fun x y gx gy x0 x1 y0 y1 => ?_, fun x y gx gy h => ?_, fun _ _ _ => rfl⟩
  · have e : roughPow F x y = ((⌊(x.val : ℝ) ^ (y.val : ℝ) * 1024⌋ : ℤ) : Ieee F) / ((1024 : ℤ) : Ieee F) := by
      obtain ⟨fx, -⟩ := gx
      cases x with
      | nan => exact fx.elim
      | inf => exact fx.elim
      | num => rfl
    have p0 : (0 : ℝ) < x.val := by exact_mod_cast x0
    have p1 : (x.val : ℝ) ≤ 1 := by exact_mod_cast x1
    have q0 : (0 : ℝ) < y.val := by exact_mod_cast y0
    have r0 := Real.rpow_pos_of_pos p0 (y.val : ℝ)
    have r1 := Real.rpow_le_one p0.le p1 q0.le
    rw [e]
    generalize (x.val : ℝ) ^ (y.val : ℝ) = r at *
    have f1 := Int.floor_le (r * 1024)
    have f2 := Int.lt_floor_add_one (r * 1024)
    have k0 : 0 ≤ ⌊r * 1024⌋ := Int.floor_nonneg.mpr (by positivity)
    have k1 : (⌊r * 1024⌋ : ℝ) ≤ 1024 := by linarith
    have k1' : ⌊r * 1024⌋ ≤ 1024 := by exact_mod_cast k1
    generalize ⌊r * 1024⌋ = k at *
    obtain ⟨g, v⟩ := step k k0 k1'
    refine ⟨g, ?_, ?_⟩
    · rw [v, div_le_one (by norm_num)]; exact_mod_cast k1'
    · rw [v]
      push_cast
      rw [abs_le]
      constructor <;> linarith
  · have e : roughPow F x y = ((⌊(x.val : ℝ) ^ (y.val : ℝ) * 1024⌋ : ℤ) : Ieee F) / ((1024 : ℤ) : Ieee F) := by
      obtain ⟨fx, -⟩ := gx
      cases x with
      | nan => exact fx.elim
      | inf => exact fx.elim
      | num => rfl
    have f : ⌊(x.val : ℝ) ^ (y.val : ℝ) * 1024⌋ = 1024 := by
      rw [h, Rat.cast_one, Real.one_rpow, one_mul]
      exact Int.floor_ofNat 1024
    rw [e, f, (step 1024 (by norm_num) (by norm_num)).2]
    norm_num

/-- Infinities in single precision, with a rough power. -/
example : srgbIeee (roughPow Format.single) 255 (inf false) = .ok 255 ∧ srgbIeee (roughPow Format.single) 255 (inf true) = .ok 0 := by
  have h := C136_range UnitCircle.deep_single (by decide) (rough_power UnitCircle.deep_single) 255 (by norm_num) (by norm_num)
  obtain ⟨q, e, -, -, h1, -⟩ := h (inf false) (by simp) trivial
  obtain ⟨r, e', -, -, -, h2⟩ := h (inf true) (by simp) trivial
  rw [h1 (.inl rfl)] at e
  rw [h2 (.inl rfl)] at e'
  exact ⟨e, e'⟩

/-- A NaN. -/
example : srgbIeee (roughPow Format.single) 255 nan = .error .overflow := C136_nan UnitCircle.deep_single (by decide) (rough_power UnitCircle.deep_single) 255

end DSP
