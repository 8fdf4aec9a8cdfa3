import Verif.Props.DecibelError

/-!
# C78: powers of ten in floating point
-/

set_option linter.unusedSectionVars false

namespace DSP
open Spec

namespace Elementary
open UnitCircle PolyBound

/-- The constants are as good as rounding twice makes them, and the short one is exact. -/
structure ExpConsts.Rounded {V : Type} (c : ExpConsts V) (val : V → ℝ) (u : ℝ) : Prop where
  LOG210 : |val c.LOG210 - 3.32192809488736234787e0| ≤ 2 * u * |(3.32192809488736234787e0 : ℝ)|
  LG102B : |val c.LG102B - 4.60503898119521373889E-6| ≤ 2 * u * |(4.60503898119521373889E-6 : ℝ)|
  P0 : |val c.P0 - 4.09962519798587023075E-2| ≤ 2 * u * |(4.09962519798587023075E-2 : ℝ)|
  P1 : |val c.P1 - 1.17452732554344059015E1| ≤ 2 * u * |(1.17452732554344059015E1 : ℝ)|
  P2 : |val c.P2 - 4.06717289936872725516E2| ≤ 2 * u * |(4.06717289936872725516E2 : ℝ)|
  P3 : |val c.P3 - 2.39423741207388267439E3| ≤ 2 * u * |(2.39423741207388267439E3 : ℝ)|
  Q0 : |val c.Q0 - 8.50936160849306532625E1| ≤ 2 * u * |(8.50936160849306532625E1 : ℝ)|
  Q1 : |val c.Q1 - 1.27209271178345121210E3| ≤ 2 * u * |(1.27209271178345121210E3 : ℝ)|
  Q2 : |val c.Q2 - 2.07960819286001865907E3| ≤ 2 * u * |(2.07960819286001865907E3 : ℝ)|

/-! ### Facts about real numbers -/

/-- A quotient of numbers that are off. -/
theorem quotient_off {n d n' d' q u a b D Z R : ℝ} (h0 : 0 ≤ u) (hu : u ≤ 1 / 2 ^ 20) (ha : 0 ≤ a) (hb : 0 ≤ b) (hb' : b ≤ 2 ^ 20 / 100) (hD : 1 ≤ D) (hd : D ≤ d) (hZ : |n / d| ≤ Z)
    (hn : |n' - n| ≤ a * u) (hd' : |d' - d| ≤ b * u) (hq : d' ≠ 0 → |q - n' / d'| ≤ u * |n' / d'|) (hR : 1.001 * ((a + Z * b) / (D - 0.01)) + Z ≤ R) : |q - n / d| ≤ R * u := by
  have hZ0 : 0 ≤ Z := (abs_nonneg _).trans hZ
  have hbu : b * u ≤ 0.01 := by
    calc b * u ≤ 2 ^ 20 / 100 * (1 / 2 ^ 20) := by gcongr
      _ = 0.01 := by norm_num
  have hd2 := abs_le.mp hd'
  have hpos : D - 0.01 ≤ d' := by linarith [hd2.1]
  have hp : 0 < D - 0.01 := by linarith
  have e : n' / d' - n / d = ((n' - n) - n / d * (d' - d)) / d' := by
    have : d ≠ 0 := by linarith
    have : d' ≠ 0 := by linarith
    field_simp
    ring
  have h1 : |n' / d' - n / d| ≤ (a + Z * b) / (D - 0.01) * u := by
    rw [e, abs_div, abs_of_pos (by linarith : 0 < d'), div_le_iff₀ (by linarith)]
    have k1 : |n' - n - n / d * (d' - d)| ≤ a * u + Z * (b * u) := by
      have := abs_sub (n' - n) (n / d * (d' - d))
      have h2 : |n / d * (d' - d)| ≤ Z * (b * u) := by rw [abs_mul]; gcongr
      linarith
    have k2 : (a + Z * b) / (D - 0.01) * u * (D - 0.01) ≤ (a + Z * b) / (D - 0.01) * u * d' := by
      have : 0 ≤ (a + Z * b) / (D - 0.01) * u := by positivity
      gcongr
    have k3 : (a + Z * b) / (D - 0.01) * u * (D - 0.01) = a * u + Z * (b * u) := by field_simp
    linarith
  have h2 := hq (by linarith)
  set Q := (a + Z * b) / (D - 0.01)
  have hQ : 0 ≤ Q := by positivity
  have h3 : |n' / d'| ≤ Z + Q * u := by
    have := abs_sub_abs_le_abs_sub (n' / d') (n / d)
    linarith
  have h4 := abs_add_le (q - n' / d') (n' / d' - n / d)
  rw [sub_add_sub_cancel] at h4
  have h5 : u * |n' / d'| ≤ u * (Z + Q * u) := by gcongr
  have h6 : u * (Q * u) ≤ 1 / 1000 * (Q * u) := by
    have : u ≤ 1 / 1000 := hu.trans (by norm_num)
    gcongr
  have h7 : (1.001 * Q + Z) * u ≤ R * u := by gcongr
  nlinarith

/-- From the absolute to the relative error, both signs of the reduced argument. -/
theorem relative {B P s pq q u : ℝ} (h0 : 0 ≤ u) (hu : u ≤ 1 / 2 ^ 20) (hB : 2079.6 ≤ B) (hP : |P| ≤ 363) {n' d' : ℝ} (hn : |n' - 2 * P| ≤ 3650 * u) (hd : |d' - (B - P)| ≤ 10365 * u)
    (hq : d' ≠ 0 → |q - n' / d'| ≤ u * |n' / d'|) (hs : s = 1 + q) (hpq : |pq - s| ≤ u * |s|) : |pq - (B + P) / (B - P)| ≤ 6.6 * u * ((B + P) / (B - P)) := by
  have hP' := abs_le.mp hP
  have hpos : 0 < B - P := by linarith
  have e : (B + P) / (B - P) = 1 + 2 * P / (B - P) := by field_simp; ring
  have hu' : u ≤ 1 / 1000 := hu.trans (by norm_num)
  have fin : ∀ K Y : ℝ, 0 ≤ K → |q - 2 * P / (B - P)| ≤ K * u → Y ≤ (B + P) / (B - P) → 0 < Y → 1.001 * K ≤ 5.6 * Y → |pq - (B + P) / (B - P)| ≤ 6.6 * u * ((B + P) / (B - P)) := by
    intro K Y hK0 hK hY hY0 hKY
    have hE : 0 < (B + P) / (B - P) := by linarith
    have h1 : |s - (B + P) / (B - P)| ≤ K * u := by rw [e, hs, add_sub_add_left_eq_sub]; exact hK
    set E := (B + P) / (B - P)
    have h2 : |s| ≤ E + K * u := by
      have := abs_sub_abs_le_abs_sub s E
      rw [abs_of_pos hE] at this
      linarith
    have h3 := abs_add_le (pq - s) (s - E)
    rw [sub_add_sub_cancel] at h3
    have h4 : u * |s| ≤ u * (E + K * u) := by gcongr
    have h5 : u * (K * u) ≤ 1 / 1000 * (K * u) := by gcongr
    have h6 : (1.001 * K) * u ≤ 5.6 * E * u := by
      have : 1.001 * K ≤ 5.6 * E := by linarith
      exact mul_le_mul_of_nonneg_right this h0
    nlinarith
  rcases le_total 0 P with c | c
  · have hZ : |2 * P / (B - P)| ≤ 0.424 := by
      rw [abs_of_nonneg (by positivity), div_le_iff₀ hpos]
      linarith
    have := quotient_off (R := 5.12) h0 hu (by norm_num) (by norm_num) (by norm_num) (D := 1716) (by norm_num) (by linarith) hZ hn hd hq (by norm_num)
    refine fin _ 1 (by norm_num) this ?_ (by norm_num) (by norm_num)
    rw [le_div_iff₀ hpos]
    linarith
  · have hZ : |2 * P / (B - P)| ≤ 0.298 := by
      rw [abs_of_nonpos (div_nonpos_of_nonpos_of_nonneg (by linarith) hpos.le), ← neg_div, div_le_iff₀ hpos]
      linarith
    have := quotient_off (R := 3.55) h0 hu (by norm_num) (by norm_num) (by norm_num) (D := 2079.6) (by norm_num) (by linarith) hZ hn hd hq (by norm_num)
    refine fin _ 0.7 (by norm_num) this ?_ (by norm_num) (by norm_num)
    rw [le_div_iff₀ hpos]
    linarith

/-- The reduced argument. -/
theorem reduction {x i L w M x1 m x2 u : ℝ} (h0 : 0 ≤ u) (hu : u ≤ 1 / 2 ^ 20) (hx : |x| ≤ 76.9) (hL : |L - 3.32192809488736234787e0| ≤ 2 * u * |(3.32192809488736234787e0 : ℝ)|)
    (hw : |w - x * L| ≤ u * |x * L|) (hi : |i - w| ≤ 1 / 2) (hM : |M - 4.60503898119521373889E-6| ≤ 2 * u * |(4.60503898119521373889E-6 : ℝ)|)
    (h1 : |x1 - (x - i * 3.01025390625000000000E-1)| ≤ u * |x - i * 3.01025390625000000000E-1|) (hm : |m - i * M| ≤ u * |i * M|) (h2 : |x2 - (x1 - m)| ≤ u * |x1 - m|) :
    |i| < 256 ∧ |x2 - (x - i * (3.01025390625000000000E-1 + 4.60503898119521373889E-6))| ≤ 0.307 * u ∧ |x2| ≤ 0.151 := by
  rw [abs_of_pos (by norm_num : (0 : ℝ) < 3.32192809488736234787e0)] at hL
  rw [abs_of_pos (by norm_num : (0 : ℝ) < 4.60503898119521373889E-6)] at hM
  have hu' : u ≤ 0.000000953675 := hu.trans (by norm_num)
  have hLu : |L| ≤ 3.322 := by
    have := abs_sub_abs_le_abs_sub L 3.32192809488736234787e0
    rw [abs_of_pos (by norm_num : (0 : ℝ) < 3.32192809488736234787e0)] at this
    linarith
  have a1 : |x * L| ≤ 255.47 := by
    rw [abs_mul]
    calc |x| * |L| ≤ 76.9 * 3.322 := by gcongr
      _ ≤ _ := by norm_num
  have a2 : |x * L - x * 3.32192809488736234787e0| ≤ 511 * u := by
    rw [← mul_sub, abs_mul]
    calc |x| * |L - 3.32192809488736234787e0| ≤ 76.9 * (2 * u * 3.32192809488736234787e0) := by gcongr
      _ ≤ _ := by norm_num; linarith
  have a3 : |i - x * 3.32192809488736234787e0| ≤ 0.50074 := by
    have k1 : u * |x * L| ≤ u * 255.47 := by gcongr
    have k2 := abs_le.mp hi
    have k3 := abs_le.mp (hw.trans k1)
    have k4 := abs_le.mp a2
    rw [abs_le]
    constructor <;> linarith [k2.1, k2.2, k3.1, k3.2, k4.1, k4.2]
  have a4 := abs_le.mp a3
  have hx' := abs_le.mp hx
  have i1 : |i| < 256 := by
    rw [abs_lt]
    constructor <;> norm_num at * <;> linarith [a4.1, a4.2, hx'.1, hx'.2]
  have i2 := abs_lt.mp i1
  have r0 : |x - i * (3.01025390625000000000E-1 + 4.60503898119521373889E-6)| ≤ 0.15075 := by
    rw [abs_le]
    constructor <;> norm_num at * <;> linarith [a4.1, a4.2, hx'.1, hx'.2]
  have r1 : |x - i * 3.01025390625000000000E-1| ≤ 0.15195 := by
    have := abs_le.mp r0
    rw [abs_le]
    constructor <;> norm_num at * <;> linarith [this.1, this.2, i2.1, i2.2]
  have b1 : |i * M| ≤ 0.00118 := by
    have : |M| ≤ 0.0000046051 := by
      have := abs_le.mp hM
      rw [abs_le]
      constructor <;> norm_num at * <;> nlinarith [this.1, this.2]
    rw [abs_mul]
    calc |i| * |M| ≤ 256 * 0.0000046051 := by gcongr
      _ ≤ _ := by norm_num
  have b2 : |i * M - i * 4.60503898119521373889E-6| ≤ 0.00236 * u := by
    rw [← mul_sub, abs_mul]
    calc |i| * |M - 4.60503898119521373889E-6| ≤ 256 * (2 * u * 4.60503898119521373889E-6) := by gcongr
      _ ≤ _ := by norm_num; linarith
  have b3 : |m - i * M| ≤ 0.00118 * u := hm.trans (by nlinarith)
  have b4 : |x1 - (x - i * 3.01025390625000000000E-1)| ≤ 0.15195 * u := h1.trans (by nlinarith)
  have b5 : |x1 - m - (x - i * (3.01025390625000000000E-1 + 4.60503898119521373889E-6))| ≤ 0.1555 * u := by
    have k1 := abs_le.mp b2
    have k2 := abs_le.mp b3
    have k3 := abs_le.mp b4
    rw [abs_le]
    constructor <;> linarith [k1.1, k1.2, k2.1, k2.2, k3.1, k3.2]
  have b6 : |x1 - m| ≤ 0.15076 := by
    have := abs_sub_abs_le_abs_sub (x1 - m) (x - i * (3.01025390625000000000E-1 + 4.60503898119521373889E-6))
    linarith
  have b7 : |x2 - (x - i * (3.01025390625000000000E-1 + 4.60503898119521373889E-6))| ≤ 0.307 * u := by
    have k := abs_add_le (x2 - (x1 - m)) (x1 - m - (x - i * (3.01025390625000000000E-1 + 4.60503898119521373889E-6)))
    rw [sub_add_sub_cancel] at k
    nlinarith
  refine ⟨i1, b7, ?_⟩
  have := abs_sub_abs_le_abs_sub x2 (x - i * (3.01025390625000000000E-1 + 4.60503898119521373889E-6))
  linarith

/-- From the reduced argument to the power. -/
theorem power {x y u : ℝ} {i : ℤ} (h0 : 0 ≤ u) (hu : u ≤ 1 / 2 ^ 20) (hi : |(i : ℝ)| < 256) (hy : |y| ≤ 0.151)
    (h : |y - (x - i * (3.01025390625000000000E-1 + 4.60503898119521373889E-6))| ≤ 0.307 * u) :
    |Exp.E y * 2 ^ i - (10 : ℝ) ^ x| ≤ (0.708 * u + 1 / 2 ^ 60) * (10 : ℝ) ^ x := by
  have he := Exp.E_error y hy
  have hE := Exp.E_pos y hy
  set η : ℝ := (Real.log (Exp.E y) + i * Real.log 2) - x * Real.log 10 with hη
  have h2 := abs_le.mp Digits.log_two
  have h10 := abs_le.mp Digits.log_ten
  have hη' : |η| ≤ 0.70692 * u + 6.1 / 10 ^ 19 := by
    have s1 : η = (Real.log (Exp.E y) - Digits.log10 * y) + Digits.log10 * (y - (x - i * (3.01025390625000000000E-1 + 4.60503898119521373889E-6))) +
        (x - i * (3.01025390625000000000E-1 + 4.60503898119521373889E-6)) * (Digits.log10 - Real.log 10) +
        i * (Real.log 2 - (3.01025390625000000000E-1 + 4.60503898119521373889E-6) * Real.log 10) := by
      rw [hη]
      ring
    set z := x - i * (3.01025390625000000000E-1 + 4.60503898119521373889E-6)
    have k1 : |(Digits.log10 : ℝ) - Real.log 10| ≤ 1 / 10 ^ 30 := by rw [abs_le]; constructor <;> linarith [h10.1, h10.2]
    have k2 : |Real.log 2 - (3.01025390625000000000E-1 + 4.60503898119521373889E-6) * Real.log 10| ≤ 1 / 10 ^ 24 := by
      rw [Digits.log2] at h2
      rw [Digits.log10] at h10
      push_cast at h2 h10
      rw [abs_le]
      constructor <;> norm_num at h2 h10 ⊢ <;> linarith [h2.1, h2.2, h10.1, h10.2]
    have kz : |z| ≤ 1 := by
      have := abs_sub_abs_le_abs_sub z y
      rw [abs_sub_comm z y] at this
      have : u ≤ 1 := hu.trans (by norm_num)
      linarith
    have k3 : |(Digits.log10 : ℝ)| ≤ 2.30259 := by rw [Digits.log10]; push_cast; rw [abs_of_pos (by norm_num)]; norm_num
    have t1 : |Real.log (Exp.E y) - Digits.log10 * y| ≤ 4 / 10 ^ 18 * 0.151 := he.trans (by gcongr)
    have t2 : |(Digits.log10 : ℝ) * (y - z)| ≤ 2.30259 * (0.307 * u) := by rw [abs_mul]; gcongr
    have t3 : |z * (Digits.log10 - Real.log 10)| ≤ 1 * (1 / 10 ^ 30) := by rw [abs_mul]; gcongr
    have t4 : |(i : ℝ) * (Real.log 2 - (3.01025390625000000000E-1 + 4.60503898119521373889E-6) * Real.log 10)| ≤ 256 * (1 / 10 ^ 24) := by rw [abs_mul]; gcongr
    rw [s1]
    refine (abs_add_le _ _).trans ((add_le_add ((abs_add_le _ _).trans (add_le_add ((abs_add_le _ _).trans (add_le_add t1 t2)) t3)) t4).trans ?_)
    norm_num
    linarith
  have hv : Exp.E y * 2 ^ i = (10 : ℝ) ^ x * Real.exp η := by
    rw [Real.rpow_def_of_pos (by norm_num), ← Real.exp_add, hη, show Real.log 10 * x + (Real.log (Exp.E y) + i * Real.log 2 - x * Real.log 10) = Real.log (Exp.E y) + i * Real.log 2 by ring,
      Real.exp_add, Real.exp_log hE, mul_comm (i : ℝ), ← Real.rpow_def_of_pos (by norm_num), Real.rpow_intCast]
  have hp : (0 : ℝ) < (10 : ℝ) ^ x := by positivity
  have hu' : u ≤ 0.000000953675 := hu.trans (by norm_num)
  have hη1 : |η| ≤ 0.000001 := by
    norm_num at hη' ⊢
    linarith
  have hq := Real.abs_exp_sub_one_sub_id_le (x := η) (hη1.trans (by norm_num))
  have h3 : |Real.exp η - 1| ≤ 0.708 * u + 1 / 2 ^ 60 := by
    have := abs_add_le (Real.exp η - 1 - η) η
    rw [sub_add_cancel] at this
    have h4 : η ^ 2 ≤ 0.000001 * |η| := by rw [← sq_abs, sq]; gcongr
    norm_num at hη' ⊢
    linarith
  rw [hv, show (10 : ℝ) ^ x * Real.exp η - (10 : ℝ) ^ x = (Real.exp η - 1) * (10 : ℝ) ^ x by ring, abs_mul, abs_of_pos hp]
  gcongr

section
variable {V : Type} [Zero V] [Add V] [Sub V] [Mul V] [IntCast V] [Neg V] [Div V] {val : V → ℝ} {u : ℝ} (hR : RoundedField V val u) (hu0 : 0 ≤ u) (hu : u ≤ 1 / 2 ^ 20)

include hR hu0 hu

/-- The rational function. -/
theorem rational_error {c : ExpConsts V} (hc : c.Rounded val u) (h2 : val ((2 : ℤ) : V) = 2) (x : V) (hx : |val x| ≤ 0.151) :
    |val (((1 : ℤ) : V) + ((2 : ℤ) : V) * (x * (x * x * (x * x * (x * x * c.P0 + c.P1) + c.P2) + c.P3)) /
      (x * x * (x * x * (x * x + c.Q0) + c.Q1) + c.Q2 - x * (x * x * (x * x * (x * x * c.P0 + c.P1) + c.P2) + c.P3))) - Exp.E (val x)| ≤ 6.6 * u * Exp.E (val x) := by
  have hu' : u ≤ 1 / 1000 := hu.trans (by norm_num)
  have o0 : Off val u (val x) x 0.151 0 := ⟨hx, by simp⟩
  have xx : Off val u (val x * val x) (x * x) 0.022801 0.0229 := by
    have := o0.mul hR hu0 hu' o0 (E := 0.0229) (by norm_num) (by norm_num) (by norm_num)
    exact ⟨this.1.trans (by norm_num), this.2⟩
  have step : ∀ {y k : ℝ} {b d : V} (Y f C P Z E : ℝ), Off val u y b Y f → 0 ≤ f → |k| ≤ C → |val d - k| ≤ 2 * u * |k| →
      (0.022801 + 0.0229 / 1000) * f + 0.0229 * Y + (0.022801 + 0.0229 / 1000) * (Y + f / 1000) ≤ P → 0.022801 * Y + C ≤ Z → 1.001 * (P + 2 * C) + Z ≤ E →
      Off val u (val x * val x * y + k) (x * x * b + d) Z E := by
    intro y k b d Y f C P Z E hy hf hk hd h1 h2 h3
    have m := xx.mul hR hu0 hu' hy (E := P) (by norm_num) hf h1
    have hC : 0 ≤ C := (abs_nonneg _).trans hk
    have hY : 0 ≤ Y := (abs_nonneg _).trans hy.1
    have hP : 0 ≤ P := le_trans (by positivity) h1
    refine m.add hR hu0 hu' (Off.const hu0 C hd hk) hP (by positivity) ?_ h3
    have h4 := abs_add_le (val x * val x * y) k
    have h5 := m.1
    linarith
  have p0 := Off.const hu0 0.041 hc.P0 (by rw [abs_of_pos (by norm_num)]; norm_num)
  have p1 := step 0.041 0.082 11.75 0.004 11.75094 35.3 ⟨p0.1, p0.2.trans (by norm_num)⟩ (by norm_num) (by rw [abs_of_pos (by norm_num)]; norm_num) hc.P1 (by norm_num) (by norm_num) (by norm_num)
  have p2 := step _ _ 406.72 1.4 407 1223 p1 (by norm_num) (by rw [abs_of_pos (by norm_num)]; norm_num) hc.P2 (by norm_num) (by norm_num) (by norm_num)
  have p3 := step _ _ 2394.3 47 2403.6 7245 p2 (by norm_num) (by rw [abs_of_pos (by norm_num)]; norm_num) hc.P3 (by norm_num) (by norm_num) (by norm_num)
  have py := o0.mul hR hu0 hu' p3 (E := 1460) (by norm_num) (by norm_num) (by norm_num)
  have q0 := xx.add hR hu0 hu' (Off.const hu0 85.1 hc.Q0 (by rw [abs_of_pos (by norm_num)]; norm_num)) (Z := 85.123) (E := 256) (by norm_num) (by norm_num) (by
    refine (abs_add_le _ _).trans ((add_le_add xx.1 (le_of_eq (abs_of_pos (by norm_num)))).trans (by norm_num))) (by norm_num)
  have q1 := step _ _ 1272.1 10 1274.1 3832 q0 (by norm_num) (by rw [abs_of_pos (by norm_num)]; norm_num) hc.Q1 (by norm_num) (by norm_num) (by norm_num)
  have q2 := step _ _ 2079.61 147 2108.7 6420 q1 (by norm_num) (by rw [abs_of_pos (by norm_num)]; norm_num) hc.Q2 (by norm_num) (by norm_num) (by norm_num)
  have d := q2.sub hR hu0 hu' py (Z := 2472) (E := 10362) (by norm_num) (by norm_num) (by
    refine (abs_sub _ _).trans ((add_le_add q2.1 py.1).trans (by norm_num))) (by norm_num)
  have two : Off val u 2 ((2 : ℤ) : V) 2 0 := ⟨by norm_num, by rw [h2]; norm_num⟩
  have n := two.mul hR hu0 hu' py (E := 3650) (by norm_num) (by norm_num) (by norm_num)
  have eA : val x * (val x * val x * (val x * val x * (val x * val x * 4.09962519798587023075E-2 + 1.17452732554344059015E1) + 4.06717289936872725516E2) + 2.39423741207388267439E3) =
      val x * eval Exp.A (val x * val x) := by
    simp only [Exp.A, eval_cons, eval_nil]
    push_cast
    ring
  have eB : val x * val x * (val x * val x * (val x * val x + 8.50936160849306532625E1) + 1.27209271178345121210E3) + 2.07960819286001865907E3 = eval Exp.B (val x * val x) := by
    simp only [Exp.B, eval_cons, eval_nil]
    push_cast
    ring
  rw [eA] at py n d
  rw [eB] at d
  have hB : 2079.6 ≤ eval Exp.B (val x * val x) := by
    rw [← eB]
    have := mul_self_nonneg (val x)
    have : 0 ≤ val x * val x * (val x * val x * (val x * val x + 8.50936160849306532625E1) + 1.27209271178345121210E3) := by positivity
    linarith
  have hadd := hR.add ((1 : ℤ) : V) (((2 : ℤ) : V) * (x * (x * x * (x * x * (x * x * c.P0 + c.P1) + c.P2) + c.P3)) /
      (x * x * (x * x * (x * x + c.Q0) + c.Q1) + c.Q2 - x * (x * x * (x * x * (x * x * c.P0 + c.P1) + c.P2) + c.P3)))
  rw [hR.one] at hadd
  exact relative hu0 hu hB (py.1.trans (by norm_num)) n.2 (d.2.trans (by gcongr; norm_num)) (hR.div _ _) rfl hadd

end

/-! ### Binary floating point -/

theorem representable_scale (p : ℕ) (x : ℚ) (k : ℤ) (h : Binary.Representable p x) : Binary.Representable p (x * 2 ^ k) := by
  obtain ⟨m, e, hm, rfl⟩ := h
  exact ⟨m, e + k, hm, by rw [zpow_add₀ (by norm_num)]; ring⟩

theorem representable_power (p : ℕ) [NeZero p] (k : ℤ) : Binary.Representable p (2 ^ k) :=
  ⟨1, k, by rw [abs_one]; exact one_lt_pow₀ (by norm_num) (NeZero.ne p), by simp⟩

theorem mul_power (p : ℕ) [NeZero p] (x t : Binary p) (k : ℤ) (ht : t.val = 2 ^ k) : (x * t).val = x.val * 2 ^ k := by
  show Binary.round p (x.val * t.val) = _
  rw [ht]
  exact Binary.round_of_representable p _ (representable_scale p _ k x.representable)

theorem div_power (p : ℕ) [NeZero p] (x t : Binary p) (k : ℤ) (ht : t.val = 2 ^ k) : (x / t).val = x.val * 2 ^ (-k) := by
  show Binary.round p (x.val / t.val) = _
  rw [ht, div_eq_mul_inv, ← zpow_neg]
  exact Binary.round_of_representable p _ (representable_scale p _ (-k) x.representable)

theorem cast_power (p : ℕ) [NeZero p] (k : ℕ) : (((2 ^ k : ℤ)) : Binary p).val = 2 ^ k := by
  show Binary.round p ((2 ^ k : ℤ) : ℚ) = _
  push_cast
  have := representable_power p k
  rw [zpow_natCast] at this
  exact Binary.round_of_representable p _ this

/-- The square of what the shift gives, which may be negative. -/
theorem shl_square (p : ℕ) [NeZero p] (k : ℕ) (h : k ≤ 31) : ∃ s, Exp.shl k = .ok s ∧ ((s : Binary p) * (s : Binary p)).val = 2 ^ (2 * k) := by
  by_cases c : k = 31
  · subst c
    refine ⟨-2147483648, rfl, ?_⟩
    have hm : ((-2147483648 : ℤ) : Binary p).val = -2147483648 := by
      have := Binary.round_of_representable p ((-2147483648 : ℤ) : ℚ) ⟨-1, 31, by rw [abs_neg, abs_one]; exact one_lt_pow₀ (by norm_num) (NeZero.ne p), by norm_num⟩
      exact_mod_cast this
    show Binary.round p (((-2147483648 : ℤ) : Binary p).val * ((-2147483648 : ℤ) : Binary p).val) = _
    rw [hm, show (-2147483648 : ℚ) * -2147483648 = 2 ^ (62 : ℤ) by norm_num, Binary.round_of_representable p _ (representable_power p 62)]
    norm_num
  · refine ⟨2 ^ k, Exp.shl_small k (by omega), ?_⟩
    rw [mul_power p _ _ k (by rw [cast_power, zpow_natCast]), cast_power, zpow_natCast, ← pow_add, two_mul]

/-- Powers of two are exact for every precision. -/
theorem C78_ldexp (p : ℕ) [NeZero p] (x : Binary p) (n : ℤ) (h1 : -255 ≤ n) (h2 : n ≤ 255) : ∃ v, ldexp x n = .ok v ∧ v.val = x.val * 2 ^ n := by
  have key : ∀ a : ℕ, a ≤ 255 → ∃ s : ℤ, Exp.shl (Int.tdiv a 8) = .ok s ∧ Exp.shl ((a : ℤ) - Int.tdiv a 8 * 8) = .ok (2 ^ (a % 8)) ∧
      (((s : Binary p) * s) * (s * s) * (s * s * (s * s)) * ((2 ^ (a % 8) : ℤ) : Binary p)).val = 2 ^ (a : ℤ) := by
    intro a ha
    have e1 : Int.tdiv (a : ℤ) 8 = ((a / 8 : ℕ) : ℤ) := by rw [Int.tdiv_eq_ediv_of_nonneg (by omega)]; omega
    have e2 : (a : ℤ) - ((a / 8 : ℕ) : ℤ) * 8 = ((a % 8 : ℕ) : ℤ) := by omega
    obtain ⟨s, hs, hs2⟩ := shl_square p (a / 8) (by omega)
    refine ⟨s, by rw [e1, hs], by rw [e1, e2, Exp.shl_small _ (by omega)], ?_⟩
    have k2 : ((s : Binary p) * s).val = 2 ^ ((2 * (a / 8) : ℕ) : ℤ) := by rw [hs2, zpow_natCast]
    have k4 : ((s : Binary p) * s * (s * s)).val = 2 ^ ((4 * (a / 8) : ℕ) : ℤ) := by
      rw [mul_power p _ _ _ k2, k2, ← zpow_add₀ (by norm_num)]
      congr 1
      push_cast
      ring
    have k8 : ((s : Binary p) * s * (s * s) * (s * s * (s * s))).val = 2 ^ ((8 * (a / 8) : ℕ) : ℤ) := by
      rw [mul_power p _ _ _ k4, k4, ← zpow_add₀ (by norm_num)]
      congr 1
      push_cast
      ring
    rw [mul_power p _ _ ((a % 8 : ℕ) : ℤ) (by rw [cast_power, zpow_natCast]), k8, ← zpow_add₀ (by norm_num)]
    congr 1
    omega
  unfold ldexp
  by_cases c : n < 0
  · obtain ⟨a, rfl⟩ : ∃ a : ℕ, n = -(a : ℤ) := ⟨n.natAbs, by omega⟩
    obtain ⟨s, k1, k2, k3⟩ := key a (by omega)
    have hi : int32 (- -(a : ℤ)) = .ok (a : ℤ) := by rw [neg_neg]; exact if_pos (by omega)
    have hi' : (if -(a : ℤ) < 0 then int32 (- -(a : ℤ)) else pure (-(a : ℤ))) = (.ok (a : ℤ) : M ℤ) := by rw [if_pos c, hi]
    simp only [bind, Except.bind, hi']
    rw [k1]
    simp only []
    rw [k2]
    simp only [if_pos c, pure, Except.pure]
    exact ⟨_, rfl, div_power p x _ _ k3⟩
  · obtain ⟨a, rfl⟩ : ∃ a : ℕ, n = (a : ℤ) := ⟨n.natAbs, by omega⟩
    obtain ⟨s, k1, k2, k3⟩ := key a (by omega)
    have hi' : (if (a : ℤ) < 0 then int32 (-(a : ℤ)) else pure (a : ℤ)) = (.ok (a : ℤ) : M ℤ) := by rw [if_neg c]; rfl
    simp only [bind, Except.bind, hi']
    rw [k1]
    simp only []
    rw [k2]
    simp only [if_neg c, pure, Except.pure]
    exact ⟨_, rfl, mul_power p x _ _ k3⟩

theorem binary_expConsts (p : ℕ) [NeZero p] (hp : p ≤ 53) : (ExpConsts.binary p).Rounded (fun a => (a.val : ℝ)) (1 / 2 ^ p) := by
  have lit : ∀ (q : ℚ) (r : ℝ), (q : ℝ) = r → |((Binary.literal 53 p q).val : ℝ) - r| ≤ 2 * (1 / 2 ^ p) * |r| := by
    rintro q r rfl
    exact literal_error 53 p hp q
  constructor
  · exact lit ExpConsts.decimal.LOG210 _ (by norm_num [ExpConsts.decimal])
  · exact lit ExpConsts.decimal.LG102B _ (by norm_num [ExpConsts.decimal])
  · exact lit ExpConsts.decimal.P0 _ (by norm_num [ExpConsts.decimal])
  · exact lit ExpConsts.decimal.P1 _ (by norm_num [ExpConsts.decimal])
  · exact lit ExpConsts.decimal.P2 _ (by norm_num [ExpConsts.decimal])
  · exact lit ExpConsts.decimal.P3 _ (by norm_num [ExpConsts.decimal])
  · exact lit ExpConsts.decimal.Q0 _ (by norm_num [ExpConsts.decimal])
  · exact lit ExpConsts.decimal.Q1 _ (by norm_num [ExpConsts.decimal])
  · exact lit ExpConsts.decimal.Q2 _ (by norm_num [ExpConsts.decimal])

/-- The product with the short constant is exact. -/
theorem short_exact (p : ℕ) [NeZero p] (hp : 20 ≤ p) (i : ℤ) (hi : |i| < 256) : ((i : Binary p) * (ExpConsts.binary p).LG102A).val = i * 0.301025390625 := by
  have h20 : (2 : ℤ) ^ 20 ≤ 2 ^ p := pow_le_pow_right₀ (by norm_num) hp
  have hiv : (i : Binary p).val = i := Binary.round_of_representable p (i : ℚ) ⟨i, 0, by omega, by simp⟩
  have e : (0.301025390625 : ℚ) = (1233 : ℤ) * 2 ^ (-12 : ℤ) := by norm_num
  have hs : Binary.Representable p (i * 0.301025390625 : ℚ) := ⟨1233 * i, -12, by rw [abs_mul]; norm_num; omega, by push_cast; norm_num; ring⟩
  have hA : (ExpConsts.binary p).LG102A.val = 0.301025390625 := by
    show Binary.round p (Binary.round 53 _) = _
    have h : (ExpConsts.decimal).LG102A = 0.301025390625 := by norm_num [ExpConsts.decimal]
    rw [h, e, Binary.round_of_representable 53 _ ⟨1233, -12, by norm_num, rfl⟩, Binary.round_of_representable p _ ⟨1233, -12, by norm_num; omega, rfl⟩]
  show Binary.round p ((i : Binary p).val * (ExpConsts.binary p).LG102A.val) = _
  rw [hiv, hA]
  exact Binary.round_of_representable p _ hs

theorem unit_le' (p : ℕ) (hp : 20 ≤ p) : (1 : ℝ) / 2 ^ p ≤ 1 / 2 ^ 20 := by
  have : (2 : ℝ) ^ 20 ≤ 2 ^ p := pow_le_pow_right₀ (by norm_num) hp
  gcongr

/-- The power of ten is off by at most `7.4` units of roundoff of itself and the error of the approximation. -/
theorem C78_exp10 (p : ℕ) [NeZero p] (hp : 20 ≤ p) (hp' : p ≤ 53) (x : Binary p) (hx : |(x.val : ℝ)| ≤ 76.9) :
    ∃ v, exp10 (fun a => Binary.nearest a.val) (ExpConsts.binary p) x = .ok v ∧ |(v.val : ℝ) - (10 : ℝ) ^ (x.val : ℝ)| ≤ (7.4 / 2 ^ p + 1.001 / 2 ^ 60) * (10 : ℝ) ^ (x.val : ℝ) := by
  have hR := binary_roundedField p
  have hu0 : (0 : ℝ) ≤ 1 / 2 ^ p := by positivity
  have hu := unit_le' p hp
  have hc := binary_expConsts p hp'
  have h20 : (2 : ℤ) ^ 20 ≤ 2 ^ p := pow_le_pow_right₀ (by norm_num) hp
  set c := ExpConsts.binary p with ec
  set i : ℤ := Binary.nearest (x * c.LOG210).val with hi
  have hin : |(i : ℝ) - ((x * c.LOG210).val : ℝ)| ≤ 1 / 2 := by
    have := Binary.nearest_near (x * c.LOG210).val
    rw [← hi] at this
    have h := (Rat.cast_le (K := ℝ)).mpr this
    push_cast at h
    exact h
  have hw := hR.mul x c.LOG210
  have hL := hc.LOG210
  -- the integer is small
  have hi0 : |(i : ℝ)| < 256 := (reduction (x1 := (x.val : ℝ) - i * 3.01025390625000000000E-1) (m := (i : ℝ) * (c.LG102B.val : ℝ))
    (x2 := ((x.val : ℝ) - i * 3.01025390625000000000E-1) - (i : ℝ) * (c.LG102B.val : ℝ)) hu0 hu hx hL hw hin hc.LG102B (by rw [sub_self, abs_zero]; positivity) (by rw [sub_self, abs_zero]; positivity) (by rw [sub_self, abs_zero]; positivity)).1
  have hiZ : |i| < 256 := by exact_mod_cast hi0
  have hiv : (i : Binary p).val = i := Binary.round_of_representable p (i : ℚ) ⟨i, 0, by omega, by simp⟩
  have hA : ((((i : Binary p) * c.LG102A).val : ℚ) : ℝ) = i * 3.01025390625000000000E-1 := by
    rw [short_exact p hp i hiZ]; push_cast; norm_num
  have s1 := hR.sub x ((i : Binary p) * c.LG102A)
  simp only [hA] at s1
  have s2 := hR.mul (i : Binary p) c.LG102B
  simp only [hiv, Rat.cast_intCast] at s2
  have s3 := hR.sub (x - (i : Binary p) * c.LG102A) ((i : Binary p) * c.LG102B)
  obtain ⟨-, hr, hr'⟩ := reduction hu0 hu hx hL hw hin hc.LG102B s1 s2 s3
  set y : Binary p := x - (i : Binary p) * c.LG102A - (i : Binary p) * c.LG102B with ey
  have h2 : ((((2 : ℤ) : Binary p).val : ℚ) : ℝ) = 2 := by
    have := Binary.round_of_representable p ((2 : ℤ) : ℚ) ⟨2, 0, by norm_num; omega, by simp⟩
    exact_mod_cast this
  have hE := rational_error hR hu0 hu hc h2 y hr'
  have hP := power hu0 hu hi0 hr' hr
  set pq : Binary p := ((1 : ℤ) : Binary p) + ((2 : ℤ) : Binary p) * (y * (y * y * (y * y * (y * y * c.P0 + c.P1) + c.P2) + c.P3)) /
      (y * y * (y * y * (y * y + c.Q0) + c.Q1) + c.Q2 - y * (y * y * (y * y * (y * y * c.P0 + c.P1) + c.P2) + c.P3)) with epq
  have hiA := abs_lt.mp hiZ
  obtain ⟨v, hv, hvv⟩ := C78_ldexp p pq i (by omega) (by omega)
  refine ⟨v, ?_, ?_⟩
  · have hi32 : int32 i = .ok i := if_pos (by omega)
    unfold exp10
    simp only [bind, Except.bind]
    rw [← hi, hi32]
    exact hv
  · have e : (v.val : ℝ) = (pq.val : ℝ) * 2 ^ i := by rw [hvv]; push_cast; rfl
    rw [e]
    have hEp := Exp.E_pos _ hr'
    set T : ℝ := (10 : ℝ) ^ (x.val : ℝ) with eT
    have hT : 0 < T := by positivity
    have h2i : (0 : ℝ) < 2 ^ i := by positivity
    set u : ℝ := 1 / 2 ^ p with eu
    have k1 : |(pq.val : ℝ) * 2 ^ i - Exp.E (y.val : ℝ) * 2 ^ i| ≤ 6.6 * u * (Exp.E (y.val : ℝ) * 2 ^ i) := by
      rw [← sub_mul, abs_mul, abs_of_pos h2i, ← mul_assoc]
      gcongr
    have k2 : Exp.E (y.val : ℝ) * 2 ^ i ≤ T + (0.708 * u + 1 / 2 ^ 60) * T := by linarith [(abs_le.mp hP).2]
    have k3 := abs_add_le ((pq.val : ℝ) * 2 ^ i - Exp.E (y.val : ℝ) * 2 ^ i) (Exp.E (y.val : ℝ) * 2 ^ i - T)
    rw [sub_add_sub_cancel] at k3
    have k4 : 6.6 * u * (Exp.E (y.val : ℝ) * 2 ^ i) ≤ 6.6 * u * (T + (0.708 * u + 1 / 2 ^ 60) * T) := by gcongr
    have k5 : u * (u * T) ≤ 1 / 2 ^ 20 * (u * T) := by gcongr
    have k6 : u * T ≤ 1 / 2 ^ 20 * T := by gcongr
    have e2 : (7.4 : ℝ) / 2 ^ p = 7.4 * u := by rw [eu]; ring
    have k7 : 0 ≤ u * T := by positivity
    rw [e2]
    norm_num at *
    nlinarith

/-- Zero gives one, for every precision. -/
theorem C78_zero (p : ℕ) [NeZero p] : ∃ v, exp10 (fun a => Binary.nearest a.val) (ExpConsts.binary p) ((0 : ℤ) : Binary p) = .ok v ∧ v.val = 1 := by
  have r0 : Binary.round p 0 = 0 := by simp [Binary.round, Binary.nearest]
  have z : ((0 : ℤ) : Binary p).val = 0 := by
    show Binary.round p ((0 : ℤ) : ℚ) = 0
    rw [Int.cast_zero, r0]
  have mz : ∀ a b : Binary p, a.val = 0 → (a * b).val = 0 := by
    intro a b h
    show Binary.round p (a.val * b.val) = 0
    rw [h, zero_mul, r0]
  have mz' : ∀ a b : Binary p, b.val = 0 → (a * b).val = 0 := by
    intro a b h
    show Binary.round p (a.val * b.val) = 0
    rw [h, mul_zero, r0]
  have sz : ∀ a b : Binary p, a.val = 0 → b.val = 0 → (a - b).val = 0 := by
    intro a b h h'
    show Binary.round p (a.val - b.val) = 0
    rw [h, h', sub_zero, r0]
  have dz : ∀ a b : Binary p, a.val = 0 → (a / b).val = 0 := by
    intro a b h
    show Binary.round p (a.val / b.val) = 0
    rw [h, zero_div, r0]
  have one : ∀ b : Binary p, b.val = 0 → (((1 : ℤ) : Binary p) + b).val = 1 := by
    intro b h
    have h1 := cast_power p 0
    rw [pow_zero, pow_zero] at h1
    have hr := Binary.round_of_representable p 1 (by simpa using representable_power p 0)
    show Binary.round p (((1 : ℤ) : Binary p).val + b.val) = 1
    rw [h, h1, add_zero, hr]
  have hn : Binary.nearest ((((0 : ℤ) : Binary p)) * (ExpConsts.binary p).LOG210).val = 0 := by
    rw [mz _ _ z]
    simp [Binary.nearest]
  have hx := sz _ _ (sz _ _ z (mz _ (ExpConsts.binary p).LG102A z)) (mz _ (ExpConsts.binary p).LG102B z)
  unfold exp10
  simp only [bind, Except.bind]
  rw [hn, show int32 0 = .ok 0 from rfl]
  obtain ⟨v, e, hv⟩ := C78_ldexp p (((1 : ℤ) : Binary p) + ((2 : ℤ) : Binary p) * _ / _) 0 (by norm_num) (by norm_num)
  refine ⟨v, e, ?_⟩
  rw [hv, one _ (dz _ _ (mz' _ _ (mz _ _ hx)))]
  norm_num

/-- How far a power of ten moves with the exponent. -/
theorem power_moves {a b e : ℝ} (h : |a - b| ≤ e) (he : e ≤ 0.0004) : |(10 : ℝ) ^ a - (10 : ℝ) ^ b| ≤ 2.305 * e * (10 : ℝ) ^ b := by
  have h10 := abs_le.mp Digits.log_ten
  rw [Digits.log10] at h10
  push_cast at h10
  have hl : Real.log 10 ≤ 2.3026 := by norm_num at h10 ⊢; linarith [h10.1, h10.2]
  have hlp : 0 < Real.log 10 := Real.log_pos (by norm_num)
  have hp : (0 : ℝ) < (10 : ℝ) ^ b := by positivity
  have e1 : (10 : ℝ) ^ a - (10 : ℝ) ^ b = (Real.exp (Real.log 10 * (a - b)) - 1) * (10 : ℝ) ^ b := by
    rw [show a = b + (a - b) by ring, Real.rpow_add (by norm_num), Real.rpow_def_of_pos (by norm_num) (a - b)]
    rw [show b + (a - b) - b = a - b by ring]
    ring
  set z := Real.log 10 * (a - b)
  have hz : |z| ≤ 2.3026 * e := by
    rw [abs_mul, abs_of_pos hlp]
    have : 0 ≤ e := (abs_nonneg _).trans h
    gcongr
  have hq := Real.abs_exp_sub_one_sub_id_le (x := z) (by linarith)
  have h4 : z ^ 2 ≤ 0.001 * |z| := by
    rw [← sq_abs, sq]
    have : |z| ≤ 0.001 := by linarith
    gcongr
  have h5 := abs_add_le (Real.exp z - 1 - z) z
  rw [sub_add_cancel] at h5
  rw [e1, abs_mul, abs_of_pos hp]
  have he0 : 0 ≤ e := (abs_nonneg _).trans h
  have : |Real.exp z - 1| ≤ 2.305 * e := by linarith
  gcongr

/-- `idecibel` adds the rounding error of the division by ten. -/
theorem C78_idecibel (p : ℕ) [NeZero p] (hp : 20 ≤ p) (hp' : p ≤ 53) (d : Binary p) (hd : |(d.val : ℝ)| ≤ 768) :
    ∃ v, idecibel (fun a => Binary.nearest a.val) (ExpConsts.binary p) d = .ok v ∧
      |(v.val : ℝ) - (10 : ℝ) ^ ((d.val : ℝ) / 10)| ≤ ((7.41 + 0.231 * |(d.val : ℝ)|) / 2 ^ p + 1.002 / 2 ^ 60) * (10 : ℝ) ^ ((d.val : ℝ) / 10) := by
  have hR := binary_roundedField p
  have h20 : (2 : ℤ) ^ 20 ≤ 2 ^ p := pow_le_pow_right₀ (by norm_num) hp
  have h10 : ((((10 : ℤ) : Binary p).val : ℚ) : ℝ) = 10 := by
    have := Binary.round_of_representable p ((10 : ℤ) : ℚ) ⟨10, 0, by norm_num; omega, by simp⟩
    exact_mod_cast this
  have hu := unit_le' p hp
  have hq := hR.div d ((10 : ℤ) : Binary p) (by rw [h10]; norm_num)
  simp only [h10] at hq
  set x : Binary p := d / ((10 : ℤ) : Binary p) with ex
  rw [abs_div, abs_of_pos (by norm_num : (0 : ℝ) < 10)] at hq
  have hu0 : (0 : ℝ) ≤ 1 / 2 ^ p := by positivity
  have e74 : (7.4 : ℝ) / 2 ^ p = 7.4 * (1 / 2 ^ p) := by ring
  have e741 : (7.41 + 0.231 * |(d.val : ℝ)|) / 2 ^ p = (7.41 + 0.231 * |(d.val : ℝ)|) * (1 / 2 ^ p) := by ring
  have hx : |(x.val : ℝ)| ≤ 76.9 := by
    have := abs_sub_abs_le_abs_sub (x.val : ℝ) ((d.val : ℝ) / 10)
    rw [abs_div, abs_of_pos (by norm_num : (0 : ℝ) < 10)] at this
    have k : (1 : ℝ) / 2 ^ p * (|(d.val : ℝ)| / 10) ≤ 1 / 2 ^ 20 * (768 / 10) := by gcongr
    norm_num at *
    linarith
  obtain ⟨v, hv, hvv⟩ := C78_exp10 p hp hp' x hx
  refine ⟨v, hv, ?_⟩
  rw [e741]
  rw [e74] at hvv
  set u : ℝ := 1 / 2 ^ p
  have hm := power_moves hq (by
    have k : u * (|(d.val : ℝ)| / 10) ≤ 1 / 2 ^ 20 * (768 / 10) := by gcongr
    refine k.trans (by norm_num))
  set T : ℝ := (10 : ℝ) ^ ((d.val : ℝ) / 10)
  set X : ℝ := (10 : ℝ) ^ (x.val : ℝ)
  have hT : 0 < T := by positivity
  set D := |(d.val : ℝ)|
  have hD0 : 0 ≤ D := abs_nonneg _
  have k1 : X ≤ 1.0002 * T := by
    have := (abs_le.mp hm).2
    have k : u * (D / 10) ≤ 1 / 2 ^ 20 * (768 / 10) := by gcongr
    have k' : 2.305 * (u * (D / 10)) * T ≤ 2.305 * (1 / 2 ^ 20 * (768 / 10)) * T := by gcongr
    norm_num at *
    linarith
  have k2 := abs_add_le ((v.val : ℝ) - X) (X - T)
  rw [sub_add_sub_cancel] at k2
  have k3 : (7.4 * u + 1.001 / 2 ^ 60) * X ≤ (7.4 * u + 1.001 / 2 ^ 60) * (1.0002 * T) := by gcongr
  have k4 : 0 ≤ u * T := by positivity
  have k5 : 0 ≤ u * D * T := by positivity
  norm_num at *
  nlinarith

/-- From decibels to a ratio and back, up to 399 dB. -/
theorem C78_round_trip (l p : ℕ) [NeZero p] (hp : 20 ≤ p) (hp' : p ≤ 53) (hl : p ≤ l) (d : Binary p) (hd : |(d.val : ℝ)| ≤ 399) :
    ∃ v, idecibel (fun a => Binary.nearest a.val) (ExpConsts.binary p) d = .ok v ∧
      |((decibel Binary.sqrt (DecibelConsts.binary l p) v).val : ℝ) - d.val| ≤ (9120 + 9.2 * |(d.val : ℝ)|) / 2 ^ p + 2 / 10 ^ 17 := by
  obtain ⟨v, hv, hvv⟩ := C78_idecibel p hp hp' d (hd.trans (by norm_num))
  refine ⟨v, hv, ?_⟩
  have hu := unit_le' p hp
  set T : ℝ := (10 : ℝ) ^ ((d.val : ℝ) / 10) with eT
  have hT : 0 < T := by positivity
  set D := |(d.val : ℝ)| with eD
  have hD0 : 0 ≤ D := abs_nonneg _
  set ε : ℝ := (7.41 + 0.231 * D) / 2 ^ p + 1.002 / 2 ^ 60 with eε
  have hε : ε ≤ 0.0001 := by
    have : (7.41 + 0.231 * D) / 2 ^ p ≤ (7.41 + 0.231 * 399) * (1 / 2 ^ 20) := by
      rw [div_eq_mul_one_div]
      gcongr
    norm_num at *
    linarith
  have hε0 : 0 ≤ ε := by positivity
  have hvp : 0 < (v.val : ℝ) := by
    have := (abs_le.mp hvv).1
    nlinarith
  have h10 := abs_le.mp Digits.log_ten
  rw [Digits.log10] at h10
  push_cast at h10
  have hl10 : 2.30258 ≤ Real.log 10 := by norm_num at h10 ⊢; linarith [h10.1, h10.2]
  -- the level of what idecibel gives
  have hlev : |10 * Real.logb 10 (v.val : ℝ) - d.val| ≤ 4.344 * ε := by
    have hlog : |Real.log ((v.val : ℝ) / T)| ≤ 1.0002 * ε := by
      have hr : |(v.val : ℝ) / T - 1| ≤ ε := by
        rw [div_sub_one hT.ne', abs_div, abs_of_pos hT, div_le_iff₀ hT]
        exact hvv
      have hrp : 0 < (v.val : ℝ) / T := by positivity
      have h1 := Real.log_le_sub_one_of_pos hrp
      have h2 := Real.one_sub_inv_le_log_of_pos hrp
      have hr' := abs_le.mp hr
      have h3 : (((v.val : ℝ) / T))⁻¹ ≤ 1 + 1.0002 * ε := by
        rw [inv_le_comm₀ hrp (by positivity), inv_eq_one_div, div_le_iff₀ (by positivity)]
        nlinarith
      rw [abs_le]
      constructor <;> nlinarith
    have e : 10 * Real.logb 10 (v.val : ℝ) - d.val = 10 * (Real.log ((v.val : ℝ) / T) / Real.log 10) := by
      have hlT : Real.log T = (d.val : ℝ) / 10 * Real.log 10 := Real.log_rpow (by norm_num) _
      rw [Real.log_div hvp.ne' hT.ne', hlT, ← Real.log_div_log]
      field_simp
    rw [e, abs_mul, abs_div, abs_of_pos (by norm_num : (0 : ℝ) < 10), abs_of_pos (by linarith : 0 < Real.log 10)]
    rw [← mul_div_assoc, div_le_iff₀ (by linarith)]
    nlinarith
  have hL : |10 * Real.logb 10 (v.val : ℝ)| ≤ D + 4.344 * ε := by
    have := abs_sub_abs_le_abs_sub (10 * Real.logb 10 (v.val : ℝ)) (d.val : ℝ)
    linarith
  have hb := C77_binary l p (by omega) hl v (by exact_mod_cast hvp) (by linarith)
  have h4 := abs_add_le (((decibel Binary.sqrt (DecibelConsts.binary l p) v).val : ℝ) - 10 * Real.logb 10 (v.val : ℝ)) (10 * Real.logb 10 (v.val : ℝ) - d.val)
  rw [sub_add_sub_cancel] at h4
  set L := |10 * Real.logb 10 (v.val : ℝ)|
  have hu0 : (0 : ℝ) ≤ 1 / 2 ^ p := by positivity
  have e1 : (9080 + 8.1 * L) / 2 ^ p = (9080 + 8.1 * L) * (1 / 2 ^ p) := by ring
  have e2 : (9120 + 9.2 * D) / 2 ^ p = (9120 + 9.2 * D) * (1 / 2 ^ p) := by ring
  have e3 : (7.41 + 0.231 * D) / 2 ^ p = (7.41 + 0.231 * D) * (1 / 2 ^ p) := by ring
  rw [e1] at hb
  rw [e2]
  rw [e3] at eε
  set u : ℝ := 1 / 2 ^ p
  have k1 : (9080 + 8.1 * L) * u ≤ (9080 + 8.1 * (D + 0.001)) * u := by gcongr; linarith
  have k2 : 0 ≤ u * D := by positivity
  norm_num at *
  nlinarith

/-- With real numbers this is the model of `Elementary.lean`. -/
theorem exp10_real (x : ℝ) (hx : |x| ≤ 76.9) : Exp.exp10 x = exp10 Pnm.nearbyint ExpConsts.real x := by
  have hl : ∀ (y : ℝ) (n : ℤ), Exp.ldexp y n = ldexp y n := by
    intro y n
    unfold Exp.ldexp ldexp
    have hs : ∀ k s, Exp.shl k = .ok s → ((s : ℝ)) ≠ 0 := by
      intro k s h
      unfold Exp.shl at h
      split at h
      · cases h
      · cases h
        split
        · norm_num
        · push_cast; positivity
    simp only [bind, Except.bind]
    rcases (if n < 0 then int32 (-n) else pure n : M ℤ) with e | a
    · rfl
    simp only []
    rcases h1 : Exp.shl (a.tdiv 8) with e | s
    · rfl
    simp only []
    rcases h2 : Exp.shl (a - a.tdiv 8 * 8) with e | r
    · rfl
    have n1 := hs _ _ h1
    have n2 := hs _ _ h2
    simp only []
    rw [fdiv_ok (by positivity)]
    rfl
  rw [Exp.exp10_ok x (hx.trans (by norm_num)), hl]
  have hr := Exp.reduced_small x (hx.trans (by norm_num))
  obtain ⟨-, h⟩ := Exp.positive _ hr
  rw [abs_lt] at h
  have hn := abs_le.mp (Pnm.nearbyint_near (x * 3.32192809488736234787e0))
  have hx' := abs_le.mp hx
  have hi : int32 (Pnm.nearbyint (x * 3.32192809488736234787e0)) = .ok (Pnm.nearbyint (x * 3.32192809488736234787e0)) := by
    generalize Pnm.nearbyint (x * 3.32192809488736234787e0) = i at hn
    apply if_pos
    constructor
    · have : ((-2147483648 : ℤ) : ℝ) ≤ i := by push_cast; norm_num at hn hx' ⊢; linarith [hn.1, hn.2, hx'.1, hx'.2]
      exact_mod_cast this
    · have : (i : ℝ) ≤ ((2147483647 : ℤ) : ℝ) := by push_cast; norm_num at hn hx' ⊢; linarith [hn.1, hn.2, hx'.1, hx'.2]
      exact_mod_cast this
  unfold exp10
  have c0 : ExpConsts.real.LOG210 = 3.32192809488736234787e0 := by norm_num [ExpConsts.real, ExpConsts.map, ExpConsts.decimal]
  simp only [bind, Except.bind]
  rw [c0, hi]
  simp only []
  congr 1
  have ey : x - ((Pnm.nearbyint (x * 3.32192809488736234787e0) : ℤ) : ℝ) * ExpConsts.real.LG102A - ((Pnm.nearbyint (x * 3.32192809488736234787e0) : ℤ) : ℝ) * ExpConsts.real.LG102B = Exp.reduced x := by
    rw [Exp.reduced]
    norm_num [ExpConsts.real, ExpConsts.map, ExpConsts.decimal]
  rw [ey]
  have eA : Exp.reduced x * (Exp.reduced x * Exp.reduced x * (Exp.reduced x * Exp.reduced x * (Exp.reduced x * Exp.reduced x * ExpConsts.real.P0 + ExpConsts.real.P1) + ExpConsts.real.P2) + ExpConsts.real.P3) =
      Exp.reduced x * eval Exp.A (Exp.reduced x * Exp.reduced x) := by
    simp only [Exp.A, eval_cons, eval_nil, ExpConsts.real, ExpConsts.map, ExpConsts.decimal]
    push_cast
    ring
  have eB : Exp.reduced x * Exp.reduced x * (Exp.reduced x * Exp.reduced x * (Exp.reduced x * Exp.reduced x + ExpConsts.real.Q0) + ExpConsts.real.Q1) + ExpConsts.real.Q2 =
      eval Exp.B (Exp.reduced x * Exp.reduced x) := by
    simp only [Exp.B, eval_cons, eval_nil, ExpConsts.real, ExpConsts.map, ExpConsts.decimal]
    push_cast
    ring
  rw [eA, eB, Exp.E]
  generalize eval Exp.B (Exp.reduced x * Exp.reduced x) = b at h ⊢
  generalize Exp.reduced x * eval Exp.A (Exp.reduced x * Exp.reduced x) = a at h ⊢
  have : b - a ≠ 0 := by linarith
  push_cast
  field_simp
  ring

/-! ### Cases -/

example : ∃ v, exp10 (fun a => Binary.nearest a.val) (ExpConsts.binary 24) ((3 : ℤ) : Binary 24) = .ok v ∧ |(v.val : ℝ) - 1000| ≤ 0.0005 := by
  have hv : ((3 : ℤ) : Binary 24).val = 3 := by decide +kernel
  obtain ⟨v, h1, h2⟩ := C78_exp10 24 (by norm_num) (by norm_num) ((3 : ℤ) : Binary 24) (by rw [hv]; norm_num [abs_of_pos])
  refine ⟨v, h1, ?_⟩
  rw [hv] at h2
  norm_num at h2 ⊢
  linarith

/-- What the function gives for three in single precision. -/
example : (exp10 (fun a => Binary.nearest a.val) (ExpConsts.binary 24) ((3 : ℤ) : Binary 24)).map (fun v => v.val) = .ok 1000 := by
  set_option maxRecDepth 100000 in
  decide +kernel

end Elementary
end DSP
