import Verif.Props.UnitCircle
import Verif.Lemmas.BinaryRounded

/-!
# C68: the rounding errors of unit_circle.hh
-/

namespace DSP
namespace UnitCircle

open Spec

/-- The constants, rounded to `TYPE`. From the decimals in the code they are rounded once or twice; one and a half are exact. -/
structure Coeffs.Rounded {V : Type} (c : Coeffs V) (val : V → ℝ) (u : ℝ) : Prop where
  a1 : val c.a1 = 1
  a2 : val c.a2 = -0.5
  a3 : |val c.a3 - Coeffs.real.a3| ≤ 2 * u * |Coeffs.real.a3|
  a4 : |val c.a4 - Coeffs.real.a4| ≤ 2 * u * |Coeffs.real.a4|
  a5 : |val c.a5 - Coeffs.real.a5| ≤ 2 * u * |Coeffs.real.a5|
  a6 : |val c.a6 - Coeffs.real.a6| ≤ 2 * u * |Coeffs.real.a6|
  a7 : |val c.a7 - Coeffs.real.a7| ≤ 2 * u * |Coeffs.real.a7|
  a8 : |val c.a8 - Coeffs.real.a8| ≤ 2 * u * |Coeffs.real.a8|
  a9 : |val c.a9 - Coeffs.real.a9| ≤ 2 * u * |Coeffs.real.a9|
  a10 : |val c.a10 - Coeffs.real.a10| ≤ 2 * u * |Coeffs.real.a10|
  a11 : |val c.a11 - Coeffs.real.a11| ≤ 2 * u * |Coeffs.real.a11|
  a12 : |val c.a12 - Coeffs.real.a12| ≤ 2 * u * |Coeffs.real.a12|
  a13 : |val c.a13 - Coeffs.real.a13| ≤ 2 * u * |Coeffs.real.a13|
  a14 : |val c.a14 - Coeffs.real.a14| ≤ 2 * u * |Coeffs.real.a14|
  twoPi : |val c.twoPi - Coeffs.real.twoPi| ≤ 2 * u * |Coeffs.real.twoPi|

/-- The machine number `a` is off `h` by at most `e` units, and `h` is not larger than `H`. -/
def Off {V : Type} (val : V → ℝ) (u : ℝ) (h : ℝ) (a : V) (H e : ℝ) : Prop := |h| ≤ H ∧ |val a - h| ≤ e * u

section

variable {V : Type} [Zero V] [Add V] [Sub V] [Mul V] [IntCast V] [Neg V] [Div V] {val : V → ℝ} {u : ℝ} (hR : RoundedField V val u) (hu0 : 0 ≤ u) (hu : u ≤ 1 / 1000)

include hR hu0 hu

/-- A product. -/
theorem Off.mul {x y : ℝ} {a b : V} {X Y e f E : ℝ} (hx : Off val u x a X e) (hy : Off val u y b Y f) (he : 0 ≤ e) (hf : 0 ≤ f)
    (hE : (X + e / 1000) * f + e * Y + (X + e / 1000) * (Y + f / 1000) ≤ E) : Off val u (x * y) (a * b) (X * Y) E := by
  obtain ⟨x1, x2⟩ := hx
  obtain ⟨y1, y2⟩ := hy
  have hX : 0 ≤ X := (abs_nonneg _).trans x1
  have hY : 0 ≤ Y := (abs_nonneg _).trans y1
  have heu : e * u ≤ e / 1000 := by nlinarith
  have hfu : f * u ≤ f / 1000 := by nlinarith
  have ha : |val a| ≤ X + e / 1000 := by
    calc |val a| = |(val a - x) + x| := by ring_nf
      _ ≤ _ := abs_add_le _ _
      _ ≤ _ := by linarith
  have hb : |val b| ≤ Y + f / 1000 := by
    calc |val b| = |(val b - y) + y| := by ring_nf
      _ ≤ _ := abs_add_le _ _
      _ ≤ _ := by linarith
  refine ⟨by rw [abs_mul]; gcongr, ?_⟩
  have h1 := hR.mul a b
  calc |val (a * b) - x * y| = |(val (a * b) - val a * val b) + (val a * (val b - y) + (val a - x) * y)| := by ring_nf
    _ ≤ |val (a * b) - val a * val b| + (|val a * (val b - y)| + |(val a - x) * y|) := (abs_add_le _ _).trans (add_le_add le_rfl (abs_add_le _ _))
    _ ≤ u * ((X + e / 1000) * (Y + f / 1000)) + ((X + e / 1000) * (f * u) + e * u * Y) := by
      rw [abs_mul, abs_mul]
      rw [abs_mul] at h1
      gcongr
      exact h1.trans (by gcongr)
    _ = ((X + e / 1000) * f + e * Y + (X + e / 1000) * (Y + f / 1000)) * u := by ring
    _ ≤ E * u := by gcongr

/-- A sum. -/
theorem Off.add {x y : ℝ} {a b : V} {X Y Z e f E : ℝ} (hx : Off val u x a X e) (hy : Off val u y b Y f) (he : 0 ≤ e) (hf : 0 ≤ f) (hZ : |x + y| ≤ Z)
    (hE : 1.001 * (e + f) + Z ≤ E) : Off val u (x + y) (a + b) Z E := by
  obtain ⟨x1, x2⟩ := hx
  obtain ⟨y1, y2⟩ := hy
  refine ⟨hZ, ?_⟩
  have h1 := hR.add a b
  have h2 : |val a + val b - (x + y)| ≤ (e + f) * u := by
    calc _ = |(val a - x) + (val b - y)| := by ring_nf
      _ ≤ _ := abs_add_le _ _
      _ ≤ _ := by linarith
  have h3 : |val a + val b| ≤ (e + f) / 1000 + Z := by
    have : (e + f) * u ≤ (e + f) / 1000 := by nlinarith
    calc _ = |(val a + val b - (x + y)) + (x + y)| := by ring_nf
      _ ≤ _ := abs_add_le _ _
      _ ≤ _ := by linarith
  calc |val (a + b) - (x + y)| = |(val (a + b) - (val a + val b)) + (val a + val b - (x + y))| := by ring_nf
    _ ≤ _ := abs_add_le _ _
    _ ≤ u * ((e + f) / 1000 + Z) + (e + f) * u := add_le_add (h1.trans (by gcongr)) h2
    _ = (1.001 * (e + f) + Z) * u := by ring
    _ ≤ E * u := by gcongr

/-- One step of the Horner scheme. -/
theorem Off.step {x y c : ℝ} {a b d : V} {Y f C g Z P E : ℝ} (hx : Off val u x a 0.61687 8.1) (hy : Off val u y b Y f) (hc : Off val u c d C g) (hf : 0 ≤ f) (hg : 0 ≤ g)
    (hP : (0.61687 + 8.1 / 1000) * f + 8.1 * Y + (0.61687 + 8.1 / 1000) * (Y + f / 1000) ≤ P) (hZ : 0.61687 * Y + C ≤ Z) (hE : 1.001 * (P + g) + Z ≤ E) :
    Off val u (x * y + c) (a * b + d) Z E := by
  have hY : 0 ≤ Y := (abs_nonneg _).trans hy.1
  have hm := hx.mul hR hu0 hu hy (by norm_num) hf hP
  refine hm.add hR hu0 hu hc ?_ hg ?_ hE
  · refine le_trans ?_ hP
    positivity
  · exact (abs_add_le _ _).trans ((add_le_add hm.1 hc.1).trans hZ)

omit [Zero V] [Add V] [Sub V] [Mul V] [IntCast V] [Neg V] [Div V] hR hu in
theorem Off.const {c : ℝ} {d : V} (C : ℝ) (h : |val d - c| ≤ 2 * u * |c|) (hC : |c| ≤ C) : Off val u c d C (2 * C) :=
  ⟨hC, h.trans (by nlinarith)⟩

/-- The inner part of the cosine of a value that is off by a few units. -/
theorem cosine_inner_off {c : Coeffs V} (hc : c.Rounded val u) {x : ℝ} {a : V} (hx : Off val u x a 0.7854 4.74) :
    Off val u (x * x) (a * a) 0.61687 8.1 ∧
      Off val u (x * x * (x * x * (x * x * (x * x * (x * x * (x * x * Coeffs.real.a14 + Coeffs.real.a12) + Coeffs.real.a10) + Coeffs.real.a8) + Coeffs.real.a6) + Coeffs.real.a4) + Coeffs.real.a2)
        (a * a * (a * a * (a * a * (a * a * (a * a * (a * a * c.a14 + c.a12) + c.a10) + c.a8) + c.a6) + c.a4) + c.a2) 0.527 0.989 ∧
      |x * x * (x * x * (x * x * (x * x * (x * x * (x * x * Coeffs.real.a14 + Coeffs.real.a12) + Coeffs.real.a10) + Coeffs.real.a8) + Coeffs.real.a6) + Coeffs.real.a4)| ≤ 0.027 := by
  have hxx : Off val u (x * x) (a * a) 0.61687 8.1 := by
    have := hx.mul hR hu0 hu hx (E := 8.1) (by norm_num) (by norm_num) (by norm_num)
    exact ⟨this.1.trans (by norm_num), this.2⟩
  have h0 := Off.const hu0 1.14e-11 hc.a14 (by simp only [Coeffs.real, Coeffs.map, Coeffs.decimal]; rw [abs_of_nonpos] <;> norm_num)
  have h1 := hxx.step hR hu0 hu h0 (Off.const hu0 2.09e-9 hc.a12 (by simp only [Coeffs.real, Coeffs.map, Coeffs.decimal]; rw [abs_of_nonneg] <;> norm_num)) (P := 1.14e-10) (Z := 2.1e-9) (E := 6.4e-9)
    (by norm_num) (by norm_num) (by norm_num) (by norm_num) (by norm_num)
  have h2 := hxx.step hR hu0 hu h1 (Off.const hu0 2.76e-7 hc.a10 (by simp only [Coeffs.real, Coeffs.map, Coeffs.decimal]; rw [abs_of_nonpos] <;> norm_num)) (P := 2.24e-8) (Z := 2.78e-7) (E := 8.53e-7)
    (by norm_num) (by norm_num) (by norm_num) (by norm_num) (by norm_num)
  have h3 := hxx.step hR hu0 hu h2 (Off.const hu0 2.49e-5 hc.a8 (by simp only [Coeffs.real, Coeffs.map, Coeffs.decimal]; rw [abs_of_nonneg] <;> norm_num)) (P := 2.96e-6) (Z := 2.51e-5) (E := 7.8e-5)
    (by norm_num) (by norm_num) (by norm_num) (by norm_num) (by norm_num)
  have h4 := hxx.step hR hu0 hu h3 (Off.const hu0 1.39e-3 hc.a6 (by simp only [Coeffs.real, Coeffs.map, Coeffs.decimal]; rw [abs_of_nonpos] <;> norm_num)) (P := 2.68e-4) (Z := 1.41e-3) (E := 4.47e-3)
    (by norm_num) (by norm_num) (by norm_num) (by norm_num) (by norm_num)
  have h5 := hxx.step hR hu0 hu h4 (Off.const hu0 4.17e-2 hc.a4 (by simp only [Coeffs.real, Coeffs.map, Coeffs.decimal]; rw [abs_of_nonneg] <;> norm_num)) (P := 1.51e-2) (Z := 4.26e-2) (E := 0.142)
    (by norm_num) (by norm_num) (by norm_num) (by norm_num) (by norm_num)
  have h6 := hxx.step hR hu0 hu h5 (c := Coeffs.real.a2) (d := c.a2) (C := 0.5) (g := 0) ⟨by norm_num [Coeffs.real, Coeffs.map, Coeffs.decimal], by rw [hc.a2]; norm_num [Coeffs.real, Coeffs.map, Coeffs.decimal]⟩
    (P := 0.461) (Z := 0.527) (E := 0.989) (by norm_num) (by norm_num) (by norm_num) (by norm_num) (by norm_num)
  refine ⟨hxx, h6, ?_⟩
  rw [abs_mul]
  calc _ ≤ (0.61687 : ℝ) * 4.26e-2 := mul_le_mul hxx.1 h5.1 (abs_nonneg _) (by norm_num)
    _ ≤ _ := by norm_num

/-- The cosine of a value that is off by a few units. -/
theorem cosineApprox_off {c : Coeffs V} (hc : c.Rounded val u) {x : ℝ} {a : V} (hx : Off val u x a 0.7854 4.74) :
    |val (cosineApprox c a) - cosineApprox Coeffs.real x| ≤ 6.6 * u := by
  obtain ⟨hxx, h6, -⟩ := cosine_inner_off hR hu0 hu hc hx
  have h7 := hxx.mul hR hu0 hu h6 (E := 5.22) (by norm_num) (by norm_num) (by norm_num)
  have one : Off val u Coeffs.real.a1 c.a1 1 0 := ⟨by norm_num [Coeffs.real, Coeffs.map, Coeffs.decimal], by rw [hc.a1]; norm_num [Coeffs.real, Coeffs.map, Coeffs.decimal]⟩
  exact (one.add hR hu0 hu h7 (Z := 1.33) (E := 6.6) (by norm_num) (by norm_num)
    ((abs_add_le _ _).trans ((add_le_add one.1 h7.1).trans (by norm_num))) (by norm_num)).2

/-- The sine of a value that is off by a few units. -/
theorem sineApprox_off {c : Coeffs V} (hc : c.Rounded val u) {x : ℝ} {a : V} (hx : Off val u x a 0.7854 4.74) :
    |val (sineApprox c a) - sineApprox Coeffs.real x| ≤ 8.6 * u := by
  have hxx : Off val u (x * x) (a * a) 0.61687 8.1 := by
    have := hx.mul hR hu0 hu hx (E := 8.1) (by norm_num) (by norm_num) (by norm_num)
    exact ⟨this.1.trans (by norm_num), this.2⟩
  have h0 := Off.const hu0 1.59e-10 hc.a13 (by simp only [Coeffs.real, Coeffs.map, Coeffs.decimal]; rw [abs_of_nonneg] <;> norm_num)
  have h1 := hxx.step hR hu0 hu h0 (Off.const hu0 2.51e-8 hc.a11 (by simp only [Coeffs.real, Coeffs.map, Coeffs.decimal]; rw [abs_of_nonpos] <;> norm_num)) (P := 1.59e-9) (Z := 2.52e-8) (E := 7.71e-8)
    (by norm_num) (by norm_num) (by norm_num) (by norm_num) (by norm_num)
  have h2 := hxx.step hR hu0 hu h1 (Off.const hu0 2.76e-6 hc.a9 (by simp only [Coeffs.real, Coeffs.map, Coeffs.decimal]; rw [abs_of_nonneg] <;> norm_num)) (P := 2.69e-7) (Z := 2.78e-6) (E := 8.58e-6)
    (by norm_num) (by norm_num) (by norm_num) (by norm_num) (by norm_num)
  have h3 := hxx.step hR hu0 hu h2 (Off.const hu0 1.99e-4 hc.a7 (by simp only [Coeffs.real, Coeffs.map, Coeffs.decimal]; rw [abs_of_nonpos] <;> norm_num)) (P := 2.97e-5) (Z := 2.01e-4) (E := 6.3e-4)
    (by norm_num) (by norm_num) (by norm_num) (by norm_num) (by norm_num)
  have h4 := hxx.step hR hu0 hu h3 (Off.const hu0 8.34e-3 hc.a5 (by simp only [Coeffs.real, Coeffs.map, Coeffs.decimal]; rw [abs_of_nonneg] <;> norm_num)) (P := 2.15e-3) (Z := 8.47e-3) (E := 2.74e-2)
    (by norm_num) (by norm_num) (by norm_num) (by norm_num) (by norm_num)
  have h5 := hxx.step hR hu0 hu h4 (Off.const hu0 0.167 hc.a3 (by simp only [Coeffs.real, Coeffs.map, Coeffs.decimal]; rw [abs_of_nonpos] <;> norm_num)) (P := 9.11e-2) (Z := 0.173) (E := 0.599)
    (by norm_num) (by norm_num) (by norm_num) (by norm_num) (by norm_num)
  have h6 := hxx.step hR hu0 hu h5 (c := Coeffs.real.a1) (d := c.a1) (C := 1) (g := 0) ⟨by norm_num [Coeffs.real, Coeffs.map, Coeffs.decimal], by rw [hc.a1]; norm_num [Coeffs.real, Coeffs.map, Coeffs.decimal]⟩
    (P := 1.89) (Z := 1.11) (E := 3.01) (by norm_num) (by norm_num) (by norm_num) (by norm_num) (by norm_num)
  exact (hx.mul hR hu0 hu h6 (E := 8.6) (by norm_num) (by norm_num) (by norm_num)).2

/-- The relative error of the argument. -/
theorem rad_relative {c : Coeffs V} (hc : c.Rounded val u) (j J : ℤ) (hJ : 1 ≤ J) :
    |val (c.twoPi * (j : V) / (J : V)) - Coeffs.real.twoPi * ((j : ℝ) / J)| ≤ 6.017012 * u * |Coeffs.real.twoPi * ((j : ℝ) / J)| := by
  have hJ' : (0 : ℝ) < J := by exact_mod_cast hJ
  have e1 := hc.twoPi
  have e2 := hR.cast j
  have e3 := hR.cast J
  have e4 := hR.mul c.twoPi (j : V)
  generalize Coeffs.real.twoPi = τ at *
  generalize val c.twoPi = τ' at *
  generalize hj : val (j : V) = j' at *
  generalize hJ2 : val (J : V) = J' at *
  generalize hm : val (c.twoPi * (j : V)) = m at *
  rw [abs_of_pos hJ'] at e3
  have f3 : 0.999 * (J : ℝ) ≤ J' := by
    have := (abs_le.mp e3).1
    nlinarith
  have hJ3 : 0 < J' := by linarith
  have e5 := hR.div (c.twoPi * (j : V)) (J : V) (by rw [hJ2]; exact hJ3.ne')
  rw [hm, hJ2] at e5
  have hA : 0 ≤ |τ| * |(j : ℝ)| := by positivity
  have g1 : |τ' * j' - τ * j| ≤ 3.002 * u * (|τ| * |(j : ℝ)|) := by
    have hτ' : |τ'| ≤ (1 + 2 * u) * |τ| := by
      calc |τ'| = |(τ' - τ) + τ| := by ring_nf
        _ ≤ _ := abs_add_le _ _
        _ ≤ _ := by linarith
    calc |τ' * j' - τ * j| = |τ' * (j' - j) + (τ' - τ) * j| := by ring_nf
      _ ≤ |τ'| * |j' - j| + |τ' - τ| * |(j : ℝ)| := by rw [← abs_mul, ← abs_mul]; exact abs_add_le _ _
      _ ≤ (1 + 2 * u) * |τ| * (u * |(j : ℝ)|) + 2 * u * |τ| * |(j : ℝ)| := by gcongr
      _ = (3 + 2 * u) * u * (|τ| * |(j : ℝ)|) := by ring
      _ ≤ _ := by gcongr; linarith
  have g2 : |m - τ * j| ≤ 4.006 * u * (|τ| * |(j : ℝ)|) := by
    have : |τ' * j'| ≤ 1.003002 * (|τ| * |(j : ℝ)|) := by
      calc |τ' * j'| = |(τ' * j' - τ * j) + τ * j| := by ring_nf
        _ ≤ _ := abs_add_le _ _
        _ ≤ 3.002 * u * (|τ| * |(j : ℝ)|) + |τ| * |(j : ℝ)| := by rw [abs_mul τ]; gcongr
        _ ≤ 3.002 * (1 / 1000) * (|τ| * |(j : ℝ)|) + |τ| * |(j : ℝ)| := by gcongr
        _ = _ := by ring
    calc |m - τ * j| = |(m - τ' * j') + (τ' * j' - τ * j)| := by ring_nf
      _ ≤ _ := abs_add_le _ _
      _ ≤ u * (1.003002 * (|τ| * |(j : ℝ)|)) + 3.002 * u * (|τ| * |(j : ℝ)|) := add_le_add (e4.trans (by gcongr)) g1
      _ = 4.005002 * u * (|τ| * |(j : ℝ)|) := by ring
      _ ≤ _ := by gcongr; norm_num
  have hQ : |τ * ((j : ℝ) / J)| = |τ| * |(j : ℝ)| / J := by rw [abs_mul, abs_div, abs_of_pos hJ']; ring
  have hQ0 := abs_nonneg (τ * ((j : ℝ) / J))
  have g3 : |m / J' - τ * ((j : ℝ) / J)| ≤ 5.012 * u * |τ * ((j : ℝ) / J)| := by
    have e : m / J' - τ * ((j : ℝ) / J) = ((m - τ * j) * J - τ * j * (J' - J)) / (J * J') := by field_simp; ring
    rw [e, abs_div, abs_of_pos (mul_pos hJ' hJ3), div_le_iff₀ (mul_pos hJ' hJ3), hQ]
    calc |(m - τ * j) * J - τ * j * (J' - J)| ≤ |(m - τ * j) * J| + |τ * j * (J' - J)| := abs_sub _ _
      _ = |m - τ * j| * J + |τ| * |(j : ℝ)| * |J' - J| := by rw [abs_mul, abs_mul, abs_mul τ, abs_of_pos hJ']
      _ ≤ 4.006 * u * (|τ| * |(j : ℝ)|) * J + |τ| * |(j : ℝ)| * (u * J) := by gcongr
      _ = 5.006 * u * (|τ| * |(j : ℝ)|) * J := by ring
      _ ≤ 5.012 * u * (|τ| * |(j : ℝ)|) * (0.999 * J) := by
        have : 0 ≤ u * (|τ| * |(j : ℝ)|) * J := by positivity
        nlinarith
      _ ≤ 5.012 * u * (|τ| * |(j : ℝ)|) * J' := by gcongr
      _ = _ := by field_simp
  have g4 : |m / J'| ≤ 1.005012 * |τ * ((j : ℝ) / J)| := by
    calc |m / J'| = |(m / J' - τ * ((j : ℝ) / J)) + τ * ((j : ℝ) / J)| := by ring_nf
      _ ≤ _ := abs_add_le _ _
      _ ≤ 5.012 * u * |τ * ((j : ℝ) / J)| + |τ * ((j : ℝ) / J)| := by gcongr
      _ ≤ 5.012 * (1 / 1000) * |τ * ((j : ℝ) / J)| + |τ * ((j : ℝ) / J)| := by gcongr
      _ = _ := by ring
  calc |val (c.twoPi * (j : V) / (J : V)) - τ * ((j : ℝ) / J)| = |(val (c.twoPi * (j : V) / (J : V)) - m / J') + (m / J' - τ * ((j : ℝ) / J))| := by ring_nf
    _ ≤ _ := abs_add_le _ _
    _ ≤ u * (1.005012 * |τ * ((j : ℝ) / J)|) + 5.012 * u * |τ * ((j : ℝ) / J)| := add_le_add (e5.trans (by gcongr)) g3
    _ = 6.017012 * u * |τ * ((j : ℝ) / J)| := by ring

/-- The argument. -/
theorem rad_off {c : Coeffs V} (hc : c.Rounded val u) (j J : ℤ) (hJ : 1 ≤ J) (h1 : -J ≤ 8 * j) (h2 : 8 * j ≤ J) :
    Off val u (Coeffs.real.twoPi * ((j : ℝ) / J)) (c.twoPi * (j : V) / (J : V)) 0.7854 4.74 := by
  have hJ' : (0 : ℝ) < J := by exact_mod_cast hJ
  have h1' : -(J : ℝ) ≤ 8 * j := by exact_mod_cast h1
  have h2' : 8 * (j : ℝ) ≤ J := by exact_mod_cast h2
  have hq : |(j : ℝ) / J| ≤ 1 / 8 := by
    rw [abs_div, abs_of_pos hJ', div_le_iff₀ hJ', abs_le]
    constructor <;> linarith
  have hτ : |Coeffs.real.twoPi| ≤ 6.2832 := by simp only [Coeffs.real, Coeffs.map, Coeffs.decimal]; rw [abs_of_nonneg] <;> norm_num
  have hX : |Coeffs.real.twoPi * ((j : ℝ) / J)| ≤ 0.7854 := by
    rw [abs_mul]
    calc _ ≤ (6.2832 : ℝ) * (1 / 8) := mul_le_mul hτ hq (abs_nonneg _) (by norm_num)
      _ = _ := by norm_num
  refine ⟨hX, (rad_relative hR hu0 hu hc j J hJ).trans ?_⟩
  calc _ ≤ 6.017012 * u * 0.7854 := by gcongr
    _ ≤ _ := by linarith

/-- Every result is one of both. -/
theorem reduced_rounded {c : Coeffs V} (hc : c.Rounded val u) (r : M V) (v : ℝ) (h : Reduced (Kernels.of c) r v) : ∃ a, r = .ok a ∧ |val a - v| ≤ 8.6 * u + 1 / 2 ^ 57 := by
  obtain ⟨neg, j, J, hJ, h1, h2, h3, h⟩ := h
  have hflip : ∀ (a : V) (x : ℝ), |val (flip neg a) - flip neg x| = |val a - x| := by
    intro a x
    cases neg
    · rfl
    · simp only [flip, if_true, hR.neg]
      rw [← abs_neg]
      congr 1; ring
  have hflip' : ∀ x y : ℝ, |flip neg x - flip neg y| = |x - y| := by
    intro x y
    cases neg
    · rfl
    · simp only [flip, if_true]
      rw [← abs_neg]
      congr 1; ring
  have hoff := rad_off hR hu0 hu hc j J hJ h1 h2
  rcases h with ⟨hr, hv⟩ | ⟨hr, hv⟩
  · obtain ⟨b, hb, hb'⟩ := reduced_error (.ok (flip neg (Kernels.code.cosine (Kernels.code.twoPi * (j : ℝ) / (J : ℝ))))) v ⟨neg, j, J, hJ, h1, h2, h3, Or.inl ⟨rfl, hv⟩⟩
    cases hb
    rw [hv, hflip'] at hb'
    refine ⟨_, hr, ?_⟩
    rw [hv, hflip]
    have := cosineApprox_off hR hu0 hu hc hoff
    rw [← mul_div_assoc] at this
    refine (abs_sub_le _ _ _).trans (add_le_add (this.trans ?_) hb'.le)
    linarith
  · obtain ⟨b, hb, hb'⟩ := reduced_error (.ok (flip neg (Kernels.code.sine (Kernels.code.twoPi * (j : ℝ) / (J : ℝ))))) v ⟨neg, j, J, hJ, h1, h2, h3, Or.inr ⟨rfl, hv⟩⟩
    cases hb
    rw [hv, hflip'] at hb'
    refine ⟨_, hr, ?_⟩
    rw [hv, hflip]
    have := sineApprox_off hR hu0 hu hc hoff
    rw [← mul_div_assoc] at this
    exact (abs_sub_le _ _ _).trans (add_le_add this hb'.le)

/-- **C68** In rounded arithmetic with relative errors up to `u`, and with rounded constants, the results differ from the true values by at most `8.6` units, besides the error of the
polynomials. -/
theorem C68_accurate (c : Coeffs V) (hc : c.Rounded val u) (n N : ℤ) (h1 : 1 ≤ N) (h2 : N ≤ 268435455) (h3 : -N ≤ n) (h4 : n ≤ N) :
    (∃ a, cos (Kernels.of c) n N = .ok a ∧ |val a - Real.cos (2 * Real.pi * n / N)| ≤ 8.6 * u + 1 / 2 ^ 57) ∧
      ∃ a, sin (Kernels.of c) n N = .ok a ∧ |val a - Real.sin (2 * Real.pi * n / N)| ≤ 8.6 * u + 1 / 2 ^ 57 :=
  ⟨reduced_rounded hR hu0 hu hc _ _ (cos_reduced _ n N h1 h2 h3 h4), reduced_rounded hR hu0 hu hc _ _ (sin_reduced _ n N h1 h2 h3 h4)⟩

end

/-! ### Binary floating point -/

/-- The constants of the code are rounded as assumed. -/
theorem binary_coeffs (l p : ℕ) [NeZero p] (h : p ≤ 53) (hl : p ≤ l) : (Coeffs.binary l p).Rounded (fun a => (a.val : ℝ)) (1 / 2 ^ p) where
  a1 := by
    have := literal_exact 53 p h 1 0 (by rw [abs_one]; exact one_lt_pow₀ (by norm_num) (NeZero.ne p))
    norm_num at this
    show ((Binary.literal 53 p 1).val : ℝ) = 1
    rw [this]; norm_num
  a2 := by
    have := literal_exact 53 p h (-1) (-1) (by rw [abs_neg, abs_one]; exact one_lt_pow₀ (by norm_num) (NeZero.ne p))
    norm_num at this
    have e : (-0.5 : ℚ) = -(1 / 2) := by norm_num
    show ((Binary.literal 53 p (-0.5)).val : ℝ) = -0.5
    rw [e, this]; norm_num
  a3 := literal_error 53 p h _
  a4 := literal_error 53 p h _
  a5 := literal_error 53 p h _
  a6 := literal_error 53 p h _
  a7 := literal_error 53 p h _
  a8 := literal_error 53 p h _
  a9 := literal_error 53 p h _
  a10 := literal_error 53 p h _
  a11 := literal_error 53 p h _
  a12 := literal_error 53 p h _
  a13 := literal_error 53 p h _
  a14 := literal_error 53 p h _
  twoPi := literal_error l p hl _

/-- **C68** With `p` bits, from eleven bits up to `double`, both functions are off by at most `9` units: `9 / 2^24` in single precision, `9 / 2^53` in double precision. -/
theorem C68_binary (l p : ℕ) [NeZero p] (hp : 10 ≤ p) (hp' : p ≤ 53) (hl : p ≤ l) (n N : ℤ) (h1 : 1 ≤ N) (h2 : N ≤ 268435455) (h3 : -N ≤ n) (h4 : n ≤ N) :
    (∃ a, cos (Kernels.of (Coeffs.binary l p)) n N = .ok a ∧ |(a.val : ℝ) - Real.cos (2 * Real.pi * n / N)| ≤ 9 / 2 ^ p) ∧
      ∃ a, sin (Kernels.of (Coeffs.binary l p)) n N = .ok a ∧ |(a.val : ℝ) - Real.sin (2 * Real.pi * n / N)| ≤ 9 / 2 ^ p := by
  have hu : (1 : ℝ) / 2 ^ p ≤ 1 / 1000 := by
    calc (1 : ℝ) / 2 ^ p ≤ 1 / 2 ^ 10 := by gcongr; norm_num
      _ ≤ _ := by norm_num
  have hb : 8.6 * ((1 : ℝ) / 2 ^ p) + 1 / 2 ^ 57 ≤ 9 / 2 ^ p := by
    have : (1 : ℝ) / 2 ^ 57 ≤ 1 / 2 ^ 4 * (1 / 2 ^ p) := by
      have h : (2 : ℝ) ^ 57 = 2 ^ 4 * 2 ^ 53 := by norm_num
      have h' : (2 : ℝ) ^ p ≤ 2 ^ 53 := pow_le_pow_right₀ (by norm_num) hp'
      rw [h, one_div_mul_one_div]
      gcongr
    rw [show (9 : ℝ) / 2 ^ p = 9 * (1 / 2 ^ p) by ring]
    have h0 : (0 : ℝ) ≤ 1 / 2 ^ p := by positivity
    linarith
  obtain ⟨⟨a, ha, ha'⟩, b, hb1, hb2⟩ := C68_accurate (binary_roundedField p) (by positivity) hu _ (binary_coeffs l p hp' hl) n N h1 h2 h3 h4
  exact ⟨⟨a, ha, ha'.trans hb⟩, b, hb1, hb2.trans hb⟩

/-- A third of the circle in single precision. -/
example : ∃ a, cos (Kernels.of (Coeffs.binary 64 24)) 1 3 = .ok a ∧ |(a.val : ℝ) - -(1 / 2)| ≤ 9 / 2 ^ 24 := by
  obtain ⟨⟨a, h, h'⟩, -⟩ := C68_binary 64 24 (by norm_num) (by norm_num) (by norm_num) 1 3 (by norm_num) (by norm_num) (by norm_num) (by norm_num)
  refine ⟨a, h, ?_⟩
  have : Real.cos (2 * Real.pi * ((1 : ℤ) : ℝ) / ((3 : ℤ) : ℝ)) = -(1 / 2) := by
    push_cast
    rw [show 2 * Real.pi * 1 / 3 = Real.pi - Real.pi / 3 by ring, Real.cos_pi_sub, Real.cos_pi_div_three]
  rwa [this] at h'

end UnitCircle
end DSP
