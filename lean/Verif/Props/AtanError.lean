import Verif.Model.AtanRounded
import Verif.Props.Atan
import Verif.Props.ExpError

/-!
# C79: atan and atan2 in floating point
-/

set_option linter.unusedSectionVars false

namespace DSP
open Spec

namespace Elementary
open UnitCircle PolyBound

/-- The constants are as good as rounding twice makes them. -/
structure AtanConsts.Rounded {V : Type} (c : AtanConsts V) (val : V → ℝ) (u : ℝ) : Prop where
  P0 : |val c.P0 - -8.750608600031904122785E-1| ≤ 2 * u * |(-8.750608600031904122785E-1 : ℝ)|
  P1 : |val c.P1 - -1.615753718733365076637E1| ≤ 2 * u * |(-1.615753718733365076637E1 : ℝ)|
  P2 : |val c.P2 - -7.500855792314704667340E1| ≤ 2 * u * |(-7.500855792314704667340E1 : ℝ)|
  P3 : |val c.P3 - -1.228866684490136173410E2| ≤ 2 * u * |(-1.228866684490136173410E2 : ℝ)|
  P4 : |val c.P4 - -6.485021904942025371773E1| ≤ 2 * u * |(-6.485021904942025371773E1 : ℝ)|
  Q0 : |val c.Q0 - 2.485846490142306297962E1| ≤ 2 * u * |(2.485846490142306297962E1 : ℝ)|
  Q1 : |val c.Q1 - 1.650270098316988542046E2| ≤ 2 * u * |(1.650270098316988542046E2 : ℝ)|
  Q2 : |val c.Q2 - 4.328810604912902668951E2| ≤ 2 * u * |(4.328810604912902668951E2 : ℝ)|
  Q3 : |val c.Q3 - 4.853903996359136964868E2| ≤ 2 * u * |(4.853903996359136964868E2 : ℝ)|
  Q4 : |val c.Q4 - 1.945506571482613964425E2| ≤ 2 * u * |(1.945506571482613964425E2 : ℝ)|
  morebits : |val c.morebits - 6.123233995736765886130E-17| ≤ 2 * u * |(6.123233995736765886130E-17 : ℝ)|
  low : |val c.low - 0.66| ≤ 2 * u * |(0.66 : ℝ)|
  high : |val c.high - 2.41421356237309504880| ≤ 2 * u * |(2.41421356237309504880 : ℝ)|
  half : |val c.half - 0.5| ≤ 2 * u * |(0.5 : ℝ)|
  pi : |val c.pi - Const.pi| ≤ 2 * u * |Const.pi|
  halfPi : |val c.halfPi - Const.halfPi| ≤ 2 * u * |Const.halfPi|
  fourthPi : |val c.fourthPi - Const.fourthPi| ≤ 2 * u * |Const.fourthPi|

/-! ### Facts about real numbers -/

theorem arctan_abs_le (x : ℝ) : |Real.arctan x| ≤ |x| := by
  have h : ∀ x : ℝ, 0 ≤ x → Real.arctan x ≤ x := by
    intro x hx
    rcases hx.eq_or_lt with rfl | hx
    · simp
    have h0 : 0 < Real.arctan x := by rw [← Real.arctan_zero]; exact Real.arctan_strictMono hx
    have := Real.lt_tan h0 (Real.arctan_lt_pi_div_two x)
    rw [Real.tan_arctan] at this
    exact this.le
  rcases le_total 0 x with c | c
  · have := h x c
    rw [abs_of_nonneg c, abs_of_nonneg (by rw [← Real.arctan_zero]; exact Real.arctan_strictMono.monotone c)]
    exact this
  · have := h (-x) (by linarith)
    rw [Real.arctan_neg] at this
    rw [abs_of_nonpos c, abs_of_nonpos (by rw [← Real.arctan_zero]; exact Real.arctan_strictMono.monotone c)]
    exact this

/-- The difference of two angles. -/
theorem arctan_sub_le (a b : ℝ) (h : 0 ≤ a * b) : |Real.arctan a - Real.arctan b| ≤ |a - b| / (1 + a * b) := by
  have e := Real.arctan_add (x := a) (y := -b) (by nlinarith)
  rw [Real.arctan_neg, ← sub_eq_add_neg] at e
  rw [e, show a + -b = a - b by ring, show 1 - a * -b = 1 + a * b by ring]
  refine (arctan_abs_le _).trans (le_of_eq ?_)
  rw [abs_div, abs_of_pos (by linarith : 0 < 1 + a * b)]

theorem arctan_lipschitz (a b : ℝ) : |Real.arctan a - Real.arctan b| ≤ |a - b| := by
  have key : ∀ a b : ℝ, a ≤ b → |Real.arctan a - Real.arctan b| ≤ |a - b| := by
    intro a b hab
    rcases le_total 0 (a * b) with c | c
    · refine (arctan_sub_le a b c).trans ?_
      rw [div_le_iff₀ (by linarith)]
      nlinarith [abs_nonneg (a - b)]
    · have ha : a ≤ 0 := by
        by_contra h
        push Not at h
        nlinarith
      have hb : 0 ≤ b := by
        by_contra h
        push Not at h
        nlinarith
      have h1 := abs_le.mp (arctan_abs_le a)
      have h2 := abs_le.mp (arctan_abs_le b)
      rw [abs_of_nonpos ha] at h1
      rw [abs_of_nonneg hb] at h2
      have h3 := Real.arctan_strictMono.monotone hab
      rw [abs_of_nonpos (by linarith), abs_of_nonpos (by linarith)]
      linarith [h1.1, h2.2]
  rcases le_total a b with c | c
  · exact key a b c
  · rw [abs_sub_comm, abs_sub_comm a b]
    exact key b a c

/-- The angle does not feel more than half of the relative error of its tangent. -/
theorem arctan_relative {a b u : ℝ} (hu0 : 0 ≤ u) (hu : u ≤ 1 / 1000) (h : |b - a| ≤ u * |a|) : |Real.arctan b - Real.arctan a| ≤ 0.51 * u := by
  obtain ⟨δ, hδ, rfl⟩ := EstimatorError.factor hu0 h
  have hδ' := abs_le.mp hδ
  have e : a * (1 + δ) * a = a ^ 2 * (1 + δ) := by ring
  have hp : 0 ≤ a ^ 2 * (1 + δ) := mul_nonneg (sq_nonneg a) (by linarith)
  refine (arctan_sub_le _ a (by rw [e]; exact hp)).trans ?_
  rw [e, div_le_iff₀ (by linarith)]
  have k : 0.999 * a ^ 2 ≤ a ^ 2 * (1 + δ) := by nlinarith [sq_nonneg a]
  have k2 : u * |a| ≤ 0.51 * u * (1 + 0.999 * a ^ 2) := by
    have : |a| ≤ 0.51 * (1 + 0.999 * a ^ 2) := by
      rw [← sq_abs a]
      nlinarith [sq_nonneg (|a| - 1)]
    nlinarith
  have k3 : 0.51 * u * (1 + 0.999 * a ^ 2) ≤ 0.51 * u * (1 + a ^ 2 * (1 + δ)) := by gcongr
  linarith

/-- The rounding errors of the fraction. -/
theorem fraction {X s t p q P Q n r u : ℝ} (h0 : 0 ≤ u) (hu : u ≤ 1 / 2 ^ 20) (hs : |s - X * X| ≤ u * |X * X|) (ht : |t - X * s| ≤ u * |X * s|) (hp : |p - P| ≤ 10.21 * u * |P|)
    (hq : |q - Q| ≤ 14.28 * u * |Q|) (hQ : Q ≠ 0) (hn : |n - t * p| ≤ u * |t * p|) (hr : q ≠ 0 → |r - n / q| ≤ u * |n / q|) :
    |r - X * (X * X) * P / Q| ≤ 28.6 * u * |X * (X * X) * P / Q| := by
  have hu' : u ≤ 0.000000953675 := hu.trans (by norm_num)
  obtain ⟨a, ha, rfl⟩ := EstimatorError.factor h0 hs
  obtain ⟨b, hb, rfl⟩ := EstimatorError.factor h0 ht
  obtain ⟨d, hd, rfl⟩ := EstimatorError.factor (by linarith) hp
  obtain ⟨f, hf, rfl⟩ := EstimatorError.factor (by linarith) hq
  obtain ⟨c, hc, rfl⟩ := EstimatorError.factor h0 hn
  have hf' := abs_le.mp hf
  have hf1 : 1 + f ≠ 0 := by
    intro h
    linarith [hf'.1]
  obtain ⟨e, he, rfl⟩ := EstimatorError.factor h0 (hr (mul_ne_zero hQ hf1))
  have one : ∀ {a b A B : ℝ}, 0 ≤ A → |a| ≤ A * u → |b| ≤ B * u → ∃ c, |c| ≤ (A + B + A * B * u) * u ∧ (1 + a) * (1 + b) = 1 + c := by
    intro a b A B hA ha hb
    refine ⟨a + b + a * b, ?_, by ring⟩
    have h1 : |a * b| ≤ A * u * (B * u) := by rw [abs_mul]; gcongr
    have h2 := abs_add_le (a + b) (a * b)
    have h3 := abs_add_le a b
    nlinarith
  have wk : ∀ {c A B : ℝ}, |c| ≤ A * u → A ≤ B → |c| ≤ B * u := fun h h' => h.trans (by gcongr)
  obtain ⟨w1, h1, e1⟩ := one (A := 1) (B := 1) (by norm_num) (by linarith : |a| ≤ 1 * u) (by linarith : |b| ≤ 1 * u)
  have h1' := wk h1 (B := 2.01) (by linarith)
  obtain ⟨w2, h2, e2⟩ := one (A := 2.01) (B := 10.21) (by norm_num) h1' hd
  have h2' := wk h2 (B := 12.23) (by linarith)
  obtain ⟨w3, h3, e3⟩ := one (A := 12.23) (B := 1) (by norm_num) h2' (by linarith : |c| ≤ 1 * u)
  have h3' := wk h3 (B := 13.24) (by linarith)
  obtain ⟨w4, h4, e4⟩ := one (A := 13.24) (B := 1) (by norm_num) h3' (by linarith : |e| ≤ 1 * u)
  have h4' := wk h4 (B := 14.25) (by linarith)
  have key : X * (X * X * (1 + a)) * (1 + b) * (P * (1 + d)) * (1 + c) / (Q * (1 + f)) * (1 + e) - X * (X * X) * P / Q = ((w4 - f) / (1 + f)) * (X * (X * X) * P / Q) := by
    have : (1 + w4) = (1 + a) * (1 + b) * (1 + d) * (1 + c) * (1 + e) := by rw [← e4, ← e3, ← e2, ← e1]
    have e5 : w4 - f = (1 + a) * (1 + b) * (1 + d) * (1 + c) * (1 + e) - (1 + f) := by rw [← this]; ring
    rw [e5]
    field_simp
  rw [key, abs_mul]
  gcongr
  have hf2 : 0.9999 ≤ 1 + f := by linarith [hf'.1]
  rw [abs_div, abs_of_pos (by linarith : 0 < 1 + f), div_le_iff₀ (by linarith)]
  have := abs_sub w4 f
  have k : 28.6 * u * 0.9999 ≤ 28.6 * u * (1 + f) := by gcongr
  linarith

theorem checkSmall : check (add (smul 0.117 Atan.Q) (mul [0, 1] Atan.P)) 0 0.4356132001 4 = true := by decide +kernel

/-- The fraction takes away at most `0.117` of the argument. -/
theorem fraction_small (x : ℝ) (hx : |x| ≤ 0.66001) : ∃ w, 0 ≤ w ∧ w ≤ 0.117 ∧ x * (x * x) * eval Atan.P (x * x) / eval Atan.Q (x * x) = -(w * x) := by
  have hxx : x * x ≤ 0.4356132001 := by
    rw [← abs_mul_abs_self]
    nlinarith [abs_nonneg x]
  have hQ := Atan.Q_pos (x * x) (mul_self_nonneg x)
  have h := check_sound _ 0 0.4356132001 4 checkSmall (x * x) (by rw [Rat.cast_zero]; exact mul_self_nonneg x) (by push_cast; linarith) (by norm_num) (by norm_num)
  simp only [eval_add, eval_mul, eval_smul, eval_cons, eval_nil] at h
  push_cast at h
  have hP : eval Atan.P (x * x) ≤ 0 := by
    simp only [Atan.P, eval_cons, eval_nil]
    push_cast
    have := mul_self_nonneg x
    have h2 : 0 ≤ x * x * (1.228866684490136173410E2 + x * x * (7.500855792314704667340E1 + x * x * (1.615753718733365076637E1 + x * x * 8.750608600031904122785E-1))) := by positivity
    nlinarith
  refine ⟨-(x * x * eval Atan.P (x * x)) / eval Atan.Q (x * x), ?_, ?_, ?_⟩
  · apply div_nonneg _ hQ.le
    nlinarith [mul_self_nonneg x]
  · rw [div_le_iff₀ hQ]
    linarith
  · field_simp

/-- The range of large numbers. -/
theorem upper_range {u H m s k v A B : ℝ} (h0 : 0 ≤ u) (hu : u ≤ 0.000000953675) (hH : |H - Real.pi / 2| ≤ 3.1416 * u + 1 / 10 ^ 19) (hm0 : 0 ≤ m) (hm1 : m ≤ 6.125 / 10 ^ 17)
    (hs : |s - (H + m)| ≤ u * |H + m|) (hk0 : 0 ≤ k) (hk1 : k ≤ 0.4143) (hk : |k - B| ≤ 4.4 * u * 0.41423 + 1.24 / 10 ^ 16) (hB : |B - A| ≤ u * 0.41422) (hv : |v - (s - k)| ≤ u * |s - k|) :
    |v - (Real.pi / 2 - A)| ≤ 8.6 * u + 1.86 / 10 ^ 16 := by
  have hp1 := Real.pi_gt_d6
  have hp2 := Real.pi_lt_d6
  have cH := abs_le.mp hH
  have s1b : |H + m| ≤ 1.5709 := by
    rw [abs_le]
    constructor <;> linarith [cH.1, cH.2]
  have s1 := abs_le.mp (hs.trans (by gcongr : _ ≤ u * 1.5709))
  have s2b : |s - k| ≤ 1.571 := by
    rw [abs_le]
    constructor <;> linarith [cH.1, cH.2, s1.1, s1.2]
  have s2 := abs_le.mp (hv.trans (by gcongr : _ ≤ u * 1.571))
  have k1 := abs_le.mp hk
  have k2 := abs_le.mp hB
  rw [abs_le]
  constructor <;> linarith [cH.1, cH.2, s1.1, s1.2, s2.1, s2.2, k1.1, k1.2, k2.1, k2.2]

/-- Half of the correction. -/
theorem tiny_product {u h m r : ℝ} (h0 : 0 ≤ u) (hu : u ≤ 0.000000953675) (hh : |h - 0.5| ≤ 2 * u * 0.5) (hm0 : 0 ≤ m) (hm1 : m ≤ 6.125 / 10 ^ 17) (hr : |r - h * m| ≤ u * |h * m|) :
    0 ≤ r ∧ r ≤ 3.08 / 10 ^ 17 := by
  have hh' := abs_le.mp hh
  have hb1 : 0 ≤ h := by linarith [hh'.1]
  have hb2 : h ≤ 0.501 := by linarith [hh'.2]
  have hp : 0 ≤ h * m := mul_nonneg hb1 hm0
  have hq : h * m ≤ 0.501 * (6.125 / 10 ^ 17) := mul_le_mul hb2 hm1 hm0 (by norm_num)
  rw [abs_of_nonneg hp] at hr
  have h2 : u * (h * m) ≤ 1 / 1000 * (h * m) := mul_le_mul_of_nonneg_right (by linarith) hp
  have h := abs_le.mp (hr.trans h2)
  constructor <;> linarith [h.1, h.2]

/-- The range in the middle. -/
theorem middle_range {u F m s k v A B : ℝ} (h0 : 0 ≤ u) (hu : u ≤ 0.000000953675) (hF : |F - Real.pi / 4| ≤ 1.5708 * u + 1 / 10 ^ 19) (hm0 : 0 ≤ m) (hm1 : m ≤ 3.08 / 10 ^ 17)
    (hs : |s - (F + m)| ≤ u * |F + m|) (hk0 : |k| ≤ 0.4143) (hk : |k - B| ≤ 4.4 * u * 0.41423 + 1.24 / 10 ^ 16) (hB : |B - A| ≤ 301 / 100 * u * 0.41422) (hv : |v - (s + k)| ≤ u * |s + k|) :
    |v - (Real.pi / 4 + A)| ≤ 8.6 * u + 1.86 / 10 ^ 16 := by
  have hp1 := Real.pi_gt_d6
  have hp2 := Real.pi_lt_d6
  have cF := abs_le.mp hF
  have s1b : |F + m| ≤ 0.7855 := by
    rw [abs_le]
    constructor <;> linarith [cF.1, cF.2]
  have s1 := abs_le.mp (hs.trans (by gcongr : _ ≤ u * 0.7855))
  have k0 := abs_le.mp hk0
  have s2b : |s + k| ≤ 1.21 := by
    rw [abs_le]
    constructor <;> linarith [cF.1, cF.2, s1.1, s1.2, k0.1, k0.2]
  have s2 := abs_le.mp (hv.trans (by gcongr : _ ≤ u * 1.21))
  have k1 := abs_le.mp hk
  have k2 := abs_le.mp hB
  rw [abs_le]
  constructor <;> linarith [cF.1, cF.2, s1.1, s1.2, s2.1, s2.2, k1.1, k1.2, k2.1, k2.2]

section
variable {V : Type} [Zero V] [Add V] [Sub V] [Mul V] [IntCast V] [Neg V] [Div V] [LinearOrder V] {val : V → ℝ} {u : ℝ} (hR : RoundedField V val u) (hu0 : 0 ≤ u) (hu : u ≤ 1 / 2 ^ 20)

include hR hu0 hu

/-- The kernel. -/
theorem atanKernel_error {c : AtanConsts V} (hc : c.Rounded val u) (x : V) (hx : |val x| ≤ 0.66001) : |val (atanKernel c x) - Atan.K (val x)| ≤ 4.4 * u * |val x| := by
  have hu' : u ≤ 1 / 1000 := hu.trans (by norm_num)
  have o0 : Off val u (val x) x 0.66001 0 := ⟨hx, by simp⟩
  have xx : Off val u (val x * val x) (x * x) 0.435614 0.43566 := by
    have := o0.mul hR hu0 hu' o0 (E := 0.43566) (by norm_num) (by norm_num) (by norm_num)
    exact ⟨this.1.trans (by norm_num), this.2⟩
  have step : ∀ {y k : ℝ} {b d : V} (Y f C P Z E : ℝ), Off val u y b Y f → 0 ≤ f → |k| ≤ C → |val d - k| ≤ 2 * u * |k| →
      (0.435614 + 0.43566 / 1000) * f + 0.43566 * Y + (0.435614 + 0.43566 / 1000) * (Y + f / 1000) ≤ P → 0.435614 * Y + C ≤ Z → 1.001 * (P + 2 * C) + Z ≤ E →
      Off val u (val x * val x * y + k) (x * x * b + d) Z E := by
    intro y k b d Y f C P Z E hy hf hk hd h1 h2 h3
    have m := xx.mul hR hu0 hu' hy (E := P) (by norm_num) hf h1
    have hC : 0 ≤ C := (abs_nonneg _).trans hk
    have hY : 0 ≤ Y := (abs_nonneg _).trans hy.1
    have hP : 0 ≤ P := le_trans (by positivity) h1
    refine m.add hR hu0 hu' (Off.const hu0 C hd hk) hP (by positivity) ?_ h3
    have h4 := abs_add_le (val x * val x * y) k
    have h5 := m.1
    linarith
  have p0 := Off.const hu0 0.8751 hc.P0 (by rw [abs_of_neg (by norm_num)]; norm_num)
  have p1 := step _ _ 16.158 1.527 16.5393 50.42 p0 (by norm_num) (by rw [abs_of_neg (by norm_num)]; norm_num) hc.P1 (by norm_num) (by norm_num) (by norm_num)
  have p2 := step _ _ 75.009 36.43 82.214 268.86 p1 (by norm_num) (by rw [abs_of_neg (by norm_num)]; norm_num) hc.P2 (by norm_num) (by norm_num) (by norm_num)
  have p3 := step _ _ 122.887 189.03 158.701 593.95 p2 (by norm_num) (by rw [abs_of_neg (by norm_num)]; norm_num) hc.P3 (by norm_num) (by norm_num) (by norm_num)
  have p4 := step _ _ 64.851 397.6 133.984 661.84 p3 (by norm_num) (by rw [abs_of_neg (by norm_num)]; norm_num) hc.P4 (by norm_num) (by norm_num) (by norm_num)
  have q0 := xx.add hR hu0 hu' (Off.const hu0 24.859 hc.Q0 (by rw [abs_of_pos (by norm_num)]; norm_num)) (Z := 25.295) (E := 75.5) (by norm_num) (by norm_num) (by
    refine (abs_add_le _ _).trans ((add_le_add xx.1 (le_of_eq (abs_of_pos (by norm_num)))).trans (by norm_num))) (by norm_num)
  have q1 := step _ _ 165.03 55.01 176.05 561.52 q0 (by norm_num) (by rw [abs_of_pos (by norm_num)]; norm_num) hc.Q1 (by norm_num) (by norm_num) (by norm_num)
  have q2 := step _ _ 432.89 398.57 509.581 1775.22 q1 (by norm_num) (by rw [abs_of_pos (by norm_num)]; norm_num) hc.Q2 (by norm_num) (by norm_num) (by norm_num)
  have q3 := step _ _ 485.4 1219.08 707.381 2899.5 q2 (by norm_num) (by rw [abs_of_pos (by norm_num)]; norm_num) hc.Q3 (by norm_num) (by norm_num) (by norm_num)
  have q4 := step _ _ 194.56 1882.3 502.706 2776.5 q3 (by norm_num) (by rw [abs_of_pos (by norm_num)]; norm_num) hc.Q4 (by norm_num) (by norm_num) (by norm_num)
  have eP : val x * val x * (val x * val x * (val x * val x * (val x * val x * (-8.750608600031904122785E-1) + (-1.615753718733365076637E1)) + (-7.500855792314704667340E1)) +
      (-1.228866684490136173410E2)) + (-6.485021904942025371773E1) = eval Atan.P (val x * val x) := by
    simp only [Atan.P, eval_cons, eval_nil]
    push_cast
    ring
  have eQ : val x * val x * (val x * val x * (val x * val x * (val x * val x * (val x * val x + 2.485846490142306297962E1) + 1.650270098316988542046E2) + 4.328810604912902668951E2) +
      4.853903996359136964868E2) + 1.945506571482613964425E2 = eval Atan.Q (val x * val x) := by
    simp only [Atan.Q, eval_cons, eval_nil]
    push_cast
    ring
  rw [eP] at p4
  rw [eQ] at q4
  have s0 := mul_self_nonneg (val x)
  have hP : 64.85 ≤ |eval Atan.P (val x * val x)| := by
    rw [← eP, ← abs_neg]
    refine le_trans ?_ (le_abs_self _)
    have : 0 ≤ val x * val x * (val x * val x * (val x * val x * (val x * val x * 8.750608600031904122785E-1 + 1.615753718733365076637E1) + 7.500855792314704667340E1) + 1.228866684490136173410E2) := by
      positivity
    linarith
  have hQ : 194.55 ≤ |eval Atan.Q (val x * val x)| := by
    rw [← eQ]
    refine le_trans ?_ (le_abs_self _)
    have : 0 ≤ val x * val x * (val x * val x * (val x * val x * (val x * val x * (val x * val x + 2.485846490142306297962E1) + 1.650270098316988542046E2) + 4.328810604912902668951E2) +
        4.853903996359136964868E2) := by positivity
    linarith
  have hQ0 := (Atan.Q_pos (val x * val x) s0).ne'
  have hf := fraction hu0 hu (hR.mul x x) (hR.mul x (x * x)) (p4.2.trans (by nlinarith)) (q4.2.trans (by nlinarith)) hQ0 (hR.mul _ _) (hR.div _ _)
  obtain ⟨w, w0, w1, ew⟩ := fraction_small (val x) hx
  have ha := hR.add x (x * (x * x) * (x * x * (x * x * (x * x * (x * x * c.P0 + c.P1) + c.P2) + c.P3) + c.P4) / (x * x * (x * x * (x * x * (x * x * (x * x + c.Q0) + c.Q1) + c.Q2) + c.Q3) + c.Q4))
  rw [ew] at hf
  rw [Atan.K, ew]
  show |val (x + x * (x * x) * (x * x * (x * x * (x * x * (x * x * c.P0 + c.P1) + c.P2) + c.P3) + c.P4) / (x * x * (x * x * (x * x * (x * x * (x * x + c.Q0) + c.Q1) + c.Q2) + c.Q3) + c.Q4)) -
    (val x + -(w * val x))| ≤ _
  set r := val (x * (x * x) * (x * x * (x * x * (x * x * (x * x * c.P0 + c.P1) + c.P2) + c.P3) + c.P4) / (x * x * (x * x * (x * x * (x * x * (x * x + c.Q0) + c.Q1) + c.Q2) + c.Q3) + c.Q4))
  have hw : |-(w * val x)| ≤ 0.117 * |val x| := by
    rw [abs_neg, abs_mul, abs_of_nonneg w0]
    gcongr
  have hf2 : |r - -(w * val x)| ≤ 3.3463 * u * |val x| := hf.trans (by
    calc 28.6 * u * |-(w * val x)| ≤ 28.6 * u * (0.117 * |val x|) := by gcongr
      _ ≤ _ := by nlinarith [mul_nonneg hu0 (abs_nonneg (val x))])
  have hs : |val x + r| ≤ |val x| + 0.004 * |val x| := by
    have e : val x + r = (1 - w) * val x + (r - -(w * val x)) := by ring
    rw [e]
    refine (abs_add_le _ _).trans (add_le_add ?_ (hf2.trans ?_))
    · rw [abs_mul, abs_of_nonneg (by linarith)]
      nlinarith [abs_nonneg (val x)]
    · have : 3.3463 * u ≤ 0.004 := by linarith
      gcongr
  have h3 : u * |val x + r| ≤ u * (|val x| + 0.004 * |val x|) := by gcongr
  have h4 := abs_add_le (val (x + x * (x * x) * (x * x * (x * x * (x * x * (x * x * c.P0 + c.P1) + c.P2) + c.P3) + c.P4) /
    (x * x * (x * x * (x * x * (x * x * (x * x + c.Q0) + c.Q1) + c.Q2) + c.Q3) + c.Q4)) - (val x + r)) (r - -(w * val x))
  have h5 := mul_nonneg hu0 (abs_nonneg (val x))
  calc _ = |val (x + x * (x * x) * (x * x * (x * x * (x * x * (x * x * c.P0 + c.P1) + c.P2) + c.P3) + c.P4) /
    (x * x * (x * x * (x * x * (x * x * (x * x + c.Q0) + c.Q1) + c.Q2) + c.Q3) + c.Q4)) - (val x + r) + (r - -(w * val x))| := by ring_nf
    _ ≤ _ := by nlinarith

/-- The kernel keeps the sign. -/
theorem atanKernel_sign {c : AtanConsts V} (hc : c.Rounded val u) (x : V) (hx : |val x| ≤ 0.66001) :
    (0 ≤ val x → 0 ≤ val (atanKernel c x)) ∧ (0 < val x → 0 < val (atanKernel c x)) ∧ |val (atanKernel c x)| ≤ 1.0001 * |val x| := by
  have h := atanKernel_error hR hu0 hu hc x hx
  obtain ⟨w, w0, w1, ew⟩ := fraction_small (val x) hx
  rw [Atan.K, ew, show val x + -(w * val x) = (1 - w) * val x by ring] at h
  have h2 : 4.4 * u * |val x| ≤ 0.0001 * |val x| := by
    have : 4.4 * u ≤ 0.0001 := by linarith
    gcongr
  have h3 := abs_le.mp (h.trans h2)
  refine ⟨fun h0 => ?_, fun h0 => ?_, ?_⟩
  · rw [abs_of_nonneg h0] at h3
    nlinarith [h3.1]
  · rw [abs_of_pos h0] at h3
    nlinarith [h3.1]
  · have h4 := abs_sub_abs_le_abs_sub (val (atanKernel c x)) ((1 - w) * val x)
    rw [abs_mul, abs_of_nonneg (by linarith : 0 ≤ 1 - w)] at h4
    nlinarith [abs_nonneg (val x)]

/-- The kernel against the angle. -/
theorem atanKernel_arctan {c : AtanConsts V} (hc : c.Rounded val u) (x : V) (hx : |val x| ≤ 0.66001) :
    |val (atanKernel c x) - Real.arctan (val x)| ≤ 4.4 * u * |val x| + 1.24 / 10 ^ 16 ∧ |val (atanKernel c x) - Real.arctan (val x)| ≤ (4.4 * u + 1 / 10 ^ 15) * |val x| := by
  have h := atanKernel_error hR hu0 hu hc x hx
  have h1 := Atan.kernel_absolute (val x) hx
  have h2 := Atan.kernel_relative (val x) hx
  have h3 := abs_add_le (val (atanKernel c x) - Atan.K (val x)) (Atan.K (val x) - Real.arctan (val x))
  rw [sub_add_sub_cancel] at h3
  constructor <;> linarith

theorem rounded_pos {a b : ℝ} (h : |b - a| ≤ u * |a|) (ha : 0 < a) : 0 < b := by
  rw [abs_of_pos ha] at h
  have := (abs_le.mp h).1
  have : u ≤ 1 / 1000 := hu.trans (by norm_num)
  nlinarith

/-- Numbers that are not negative. -/
theorem atanApprox_error (hO : ∀ a b : V, a ≤ b ↔ val a ≤ val b) {c : AtanConsts V} (hc : c.Rounded val u) (x : V) (hx : 0 ≤ val x) :
    |val (atanApprox c x) - Real.arctan (val x)| ≤ 8.6 * u + 1.86 / 10 ^ 16 ∧ (0 < val x → 0 < val (atanApprox c x)) ∧
      (val x ≤ 0.6599 → |val (atanApprox c x) - Real.arctan (val x)| ≤ (4.4 * u + 1 / 10 ^ 15) * |val x|) := by
  have hu1 : u ≤ 0.000000953675 := hu.trans (by norm_num)
  have hu' : u ≤ 1 / 1000 := hu.trans (by norm_num)
  obtain ⟨-, hh, hf⟩ := Atan.pi_const
  have cl := hc.low
  have ch := hc.high
  have cm := hc.morebits
  have chf := hc.half
  have cH : |val c.halfPi - Real.pi / 2| ≤ 3.1416 * u + 1 / 10 ^ 19 := by
    have h1 := hc.halfPi
    rw [abs_of_pos (by unfold Const.halfPi; norm_num : 0 < Const.halfPi)] at h1
    have h2 : Const.halfPi ≤ 1.5708 := by unfold Const.halfPi; norm_num
    have := abs_add_le (val c.halfPi - Const.halfPi) (Const.halfPi - Real.pi / 2)
    rw [sub_add_sub_cancel] at this
    nlinarith
  have cF : |val c.fourthPi - Real.pi / 4| ≤ 1.5708 * u + 1 / 10 ^ 19 := by
    have h1 := hc.fourthPi
    rw [abs_of_pos (by unfold Const.fourthPi; norm_num : 0 < Const.fourthPi)] at h1
    have h2 : Const.fourthPi ≤ 0.7854 := by unfold Const.fourthPi; norm_num
    have := abs_add_le (val c.fourthPi - Const.fourthPi) (Const.fourthPi - Real.pi / 4)
    rw [sub_add_sub_cancel] at this
    nlinarith
  rw [abs_of_pos (by norm_num : (0 : ℝ) < 0.66)] at cl
  rw [abs_of_pos (by norm_num : (0 : ℝ) < 2.41421356237309504880)] at ch
  rw [abs_of_pos (by norm_num : (0 : ℝ) < 6.123233995736765886130E-17)] at cm
  rw [abs_of_pos (by norm_num : (0 : ℝ) < 0.5)] at chf
  have cl' := abs_le.mp cl
  have ch' := abs_le.mp ch
  have cm' := abs_le.mp cm
  have chf' := abs_le.mp chf
  have um : u * 6.123233995736765886130E-17 ≤ 0.001 / 10 ^ 17 := by
    have : u * 6.123233995736765886130E-17 ≤ 0.000000953675 * 6.123233995736765886130E-17 := by gcongr
    norm_num at this ⊢
    linarith
  have m0 : 0 ≤ val c.morebits ∧ val c.morebits ≤ 6.125 / 10 ^ 17 := by
    constructor <;> norm_num at cm' um ⊢ <;> linarith [cm'.1, cm'.2]
  unfold atanApprox
  by_cases c1 : x ≤ c.low
  · rw [if_pos c1]
    rw [hO] at c1
    have hx' : |val x| ≤ 0.66001 := by
      rw [abs_of_nonneg hx]
      linarith [cl'.2]
    obtain ⟨k1, k2⟩ := atanKernel_arctan hR hu0 hu hc x hx'
    refine ⟨k1.trans ?_, (atanKernel_sign hR hu0 hu hc x hx').2.1, fun _ => k2⟩
    have : 4.4 * u * |val x| ≤ 4.4 * u * 0.66001 := by gcongr
    norm_num at this ⊢
    linarith
  rw [if_neg c1]
  rw [hO] at c1
  push Not at c1
  have hxl : 0.65999 ≤ val x := by linarith [cl'.1]
  have hx0 : 0 < val x := by linarith
  have hang : 0.4 ≤ Real.arctan (val x) := by
    have h1 := Real.arctan_strictMono.monotone hxl
    have h2 := abs_le.mp (Atan.kernel_absolute 0.65999 (by norm_num [abs_le]))
    have h3 : 0.5 ≤ Atan.K 0.65999 := by
      simp only [Atan.K, Atan.P, Atan.Q, eval_cons, eval_nil]
      push_cast
      norm_num
    norm_num at h2
    linarith [h2.1, h2.2]
  have fin : ∀ v : ℝ, |v - Real.arctan (val x)| ≤ 8.6 * u + 1.86 / 10 ^ 16 → |v - Real.arctan (val x)| ≤ 8.6 * u + 1.86 / 10 ^ 16 ∧ (0 < val x → 0 < v) ∧
      (val x ≤ 0.6599 → |v - Real.arctan (val x)| ≤ (4.4 * u + 1 / 10 ^ 15) * |val x|) := by
    intro v h
    refine ⟨h, fun _ => ?_, fun h => by linarith⟩
    have := (abs_le.mp h).1
    norm_num at this
    linarith
  by_cases c2 : x > c.high
  · rw [if_pos c2]
    have c2' : val c.high < val x := by
      rw [gt_iff_lt, lt_iff_not_ge, hO, not_le] at c2
      exact c2
    apply fin
    have hxh : 2.4142 ≤ val x := by linarith [ch'.1]
    have hd := hR.div ((1 : ℤ) : V) x hx0.ne'
    rw [hR.one] at hd
    set t := ((1 : ℤ) : V) / x
    have ht1 : 1 / val x ≤ 0.41422 := by rw [div_le_iff₀ hx0]; linarith
    have ht0 : 0 < 1 / val x := by positivity
    rw [abs_of_pos ht0] at hd
    have hd2 : |val t - 1 / val x| ≤ u * 0.41422 := hd.trans (by gcongr)
    have hd3 := abs_le.mp hd2
    have hdp := abs_le.mp hd
    have htp : 0 < val t := by nlinarith [hdp.1]
    have htu : val t ≤ 0.41423 := by linarith [hd3.2]
    have hta : |val t| ≤ 0.66001 := by rw [abs_of_pos htp]; linarith
    obtain ⟨k1, -⟩ := atanKernel_arctan hR hu0 hu hc t hta
    obtain ⟨k2, -, k8⟩ := atanKernel_sign hR hu0 hu hc t hta
    have k2' := k2 htp.le
    have k3 : 4.4 * u * |val t| ≤ 4.4 * u * 0.41423 := by rw [abs_of_pos htp]; gcongr
    have k4 := arctan_lipschitz (val t) (1 / val x)
    have ha : Real.arctan (val x) = Real.pi / 2 - Real.arctan (1 / val x) := by rw [one_div, Real.arctan_inv_of_pos hx0]; ring
    have k7 := (abs_le.mp k8).2
    rw [ha]
    exact upper_range hu0 hu1 cH m0.1 m0.2 (hR.add _ _) k2' (by rw [abs_of_pos htp] at k7; linarith) (k1.trans (add_le_add k3 le_rfl)) (k4.trans hd2) (hR.sub _ _)
  · rw [if_neg c2]
    have c2' : val x ≤ val c.high := by
      rw [gt_iff_lt, not_lt, hO] at c2
      exact c2
    apply fin
    have hxh : val x ≤ 2.41422 := by linarith [ch'.2]
    have n1 := hR.sub x ((1 : ℤ) : V)
    have n2 := hR.add x ((1 : ℤ) : V)
    rw [hR.one] at n1 n2
    have hd := EstimatorError.quotient hu' hu0 (by linarith : val x + 1 ≠ 0) n1 n2 (hR.div _ _)
    set t := (x - ((1 : ℤ) : V)) / (x + ((1 : ℤ) : V))
    have hT1 : -0.21 ≤ (val x - 1) / (val x + 1) := by rw [le_div_iff₀ (by linarith)]; linarith
    have hT2 : (val x - 1) / (val x + 1) ≤ 0.41422 := by rw [div_le_iff₀ (by linarith)]; linarith
    have ha : Real.arctan (val x) = Real.pi / 4 + Real.arctan ((val x - 1) / (val x + 1)) := by
      have h := Real.arctan_add (x := 1) (y := (val x - 1) / (val x + 1)) (by linarith)
      rw [Real.arctan_one] at h
      rw [h]
      congr 1
      have : 1 - (val x - 1) / (val x + 1) ≠ 0 := by linarith
      field_simp
      ring
    set T := (val x - 1) / (val x + 1)
    have hTa : |T| ≤ 0.41422 := by rw [abs_le]; constructor <;> linarith
    have hd2 : |val t - T| ≤ 301 / 100 * u * 0.41422 := hd.trans (by gcongr)
    have hd3 := abs_le.mp hd2
    have htu : |val t| ≤ 0.41423 := by
      rw [abs_le]
      constructor <;> linarith [hd3.1, hd3.2]
    have hta : |val t| ≤ 0.66001 := by linarith
    obtain ⟨k1, -⟩ := atanKernel_arctan hR hu0 hu hc t hta
    obtain ⟨-, -, k2⟩ := atanKernel_sign hR hu0 hu hc t hta
    have k3 : 4.4 * u * |val t| ≤ 4.4 * u * 0.41423 := by gcongr
    have k4 := arctan_lipschitz (val t) T
    have hm := hR.mul c.half c.morebits
    have hm1 := tiny_product hu0 hu1 chf m0.1 m0.2 hm
    rw [ha]
    exact middle_range hu0 hu1 cF hm1.1 hm1.2 (hR.add _ _) (k2.trans (by linarith)) (k1.trans (add_le_add k3 le_rfl)) (k4.trans hd2) (hR.add _ _)

/-- Both signs. -/
theorem atan_error (hO : ∀ a b : V, a ≤ b ↔ val a ≤ val b) {c : AtanConsts V} (hc : c.Rounded val u) (x : V) :
    |val (atan c x) - Real.arctan (val x)| ≤ 8.6 * u + 1.86 / 10 ^ 16 ∧ (0 < val x → 0 < val (atan c x)) ∧ (val x < 0 → val (atan c x) < 0) ∧
      (|val x| ≤ 0.6599 → |val (atan c x) - Real.arctan (val x)| ≤ (4.4 * u + 1 / 10 ^ 15) * |val x|) := by
  unfold atan
  by_cases h : x ≥ 0
  · rw [if_pos h]
    rw [ge_iff_le, hO, hR.zero] at h
    obtain ⟨h1, h2, h3⟩ := atanApprox_error hR hu0 hu hO hc x h
    exact ⟨h1, h2, fun h' => by linarith, fun h' => h3 (by rwa [abs_of_nonneg h] at h')⟩
  · rw [if_neg h, hR.neg]
    rw [ge_iff_le, hO, hR.zero, not_le] at h
    obtain ⟨h1, h2, h3⟩ := atanApprox_error hR hu0 hu hO hc (-x) (by rw [hR.neg]; linarith)
    rw [hR.neg, Real.arctan_neg] at h1 h3
    rw [hR.neg] at h2
    have e : -val (atanApprox c (-x)) - Real.arctan (val x) = -(val (atanApprox c (-x)) - -Real.arctan (val x)) := by ring
    rw [e, abs_neg]
    rw [abs_neg] at h3
    refine ⟨h1, fun h' => by linarith, fun h' => ?_, fun h' => h3 (by rwa [abs_of_neg h] at h')⟩
    have := h2 (by linarith)
    linarith

/-- The four quadrants and the axes. -/
theorem atan2_error (hO : ∀ a b : V, a ≤ b ↔ val a ≤ val b) {c : AtanConsts V} (hc : c.Rounded val u) (y x : V) (h : val x ≠ 0 ∨ val y ≠ 0) :
    |val (atan2 c (decide (val y < 0)) y x) - Complex.arg ⟨val x, val y⟩| ≤ 19 * u + 1.9 / 10 ^ 16 ∧
      (0 < val x → |val (atan2 c (decide (val y < 0)) y x) - Complex.arg ⟨val x, val y⟩| ≤ 9.2 * u + 1.9 / 10 ^ 16) := by
  have hu1 : u ≤ 0.000000953675 := hu.trans (by norm_num)
  have hu' : u ≤ 1 / 1000 := hu.trans (by norm_num)
  have hz : ∀ a : V, a = 0 ↔ val a = 0 := by
    intro a
    rw [le_antisymm_iff, hO, hO, hR.zero]
    exact ⟨fun ⟨h1, h2⟩ => le_antisymm h1 h2, fun h => ⟨h.le, h.ge⟩⟩
  have hlt : ∀ a b : V, a < b ↔ val a < val b := by
    intro a b
    rw [lt_iff_not_ge, hO, not_le]
  obtain ⟨hp, hh, -⟩ := Atan.pi_const
  have cP := hc.pi
  have cH := hc.halfPi
  rw [abs_of_pos (by unfold Const.pi; norm_num : 0 < Const.pi)] at cP
  rw [abs_of_pos (by unfold Const.halfPi; norm_num : 0 < Const.halfPi)] at cH
  have vP : Const.pi ≤ 3.1416 := by unfold Const.pi; norm_num
  have vH : Const.halfPi ≤ 1.5708 := by unfold Const.halfPi; norm_num
  have cP2 : |val c.pi - Real.pi| ≤ 6.2832 * u + 1 / 10 ^ 19 := by
    have := abs_add_le (val c.pi - Const.pi) (Const.pi - Real.pi)
    rw [sub_add_sub_cancel] at this
    nlinarith
  have cH2 : |val c.halfPi - Real.pi / 2| ≤ 3.1416 * u + 1 / 10 ^ 19 := by
    have := abs_add_le (val c.halfPi - Const.halfPi) (Const.halfPi - Real.pi / 2)
    rw [sub_add_sub_cancel] at this
    nlinarith
  unfold atan2
  by_cases cy : y = 0
  · rw [if_pos cy]
    rw [hz] at cy
    have hx : val x ≠ 0 := by
      rcases h with h | h
      · exact h
      · exact absurd cy h
    rw [cy]
    have e : (⟨val x, 0⟩ : ℂ) = ((val x : ℝ) : ℂ) := rfl
    rw [e]
    by_cases c0 : x ≥ 0
    · rw [if_pos c0]
      rw [ge_iff_le, hO, hR.zero] at c0
      rw [Complex.arg_ofReal_of_nonneg c0]
      simp only [copysign, lt_irrefl, decide_false, Bool.false_eq_true, if_false, hR.zero, sub_self, abs_zero]
      exact ⟨by positivity, fun _ => by positivity⟩
    · rw [if_neg c0]
      rw [ge_iff_le, hO, hR.zero, not_le] at c0
      rw [Complex.arg_ofReal_of_neg c0]
      simp only [copysign, lt_irrefl, decide_false, Bool.false_eq_true, if_false]
      refine ⟨cP2.trans ?_, fun h => by linarith⟩
      norm_num
      linarith
  rw [if_neg cy]
  rw [hz] at cy
  by_cases cx : x = 0
  · rw [if_pos cx]
    rw [hz] at cx
    rw [cx]
    have e : (⟨0, val y⟩ : ℂ) = ((val y : ℝ) : ℂ) * Complex.I := by apply Complex.ext <;> simp
    rw [e]
    refine ⟨?_, fun h => by linarith⟩
    refine le_trans ?_ (cH2.trans (by norm_num; linarith : 3.1416 * u + 1 / 10 ^ 19 ≤ 19 * u + 1.9 / 10 ^ 16))
    by_cases c0 : val y < 0
    · have e2 : ((val y : ℝ) : ℂ) * Complex.I = ((-val y : ℝ) : ℂ) * -Complex.I := by push_cast; ring
      rw [e2, Complex.arg_real_mul _ (by linarith), Complex.arg_neg_I]
      simp only [copysign, c0, decide_true, if_true, hR.neg]
      rw [show -val c.halfPi - -(Real.pi / 2) = -(val c.halfPi - Real.pi / 2) by ring, abs_neg]
    · have : 0 < val y := lt_of_le_of_ne (not_lt.mp c0) (Ne.symm cy)
      rw [Complex.arg_real_mul _ this, Complex.arg_I]
      simp only [copysign, c0, decide_false, Bool.false_eq_true, if_false]
      exact le_rfl
  rw [if_neg cx]
  rw [hz] at cx
  have hd := hR.div y x cx
  have ht := arctan_relative hu0 hu' hd
  obtain ⟨k1, k2, k3, -⟩ := atan_error hR hu0 hu hO hc (y / x)
  have k4 : |val (atan c (y / x)) - Real.arctan (val y / val x)| ≤ 9.11 * u + 1.86 / 10 ^ 16 := by
    have := abs_add_le (val (atan c (y / x)) - Real.arctan (val (y / x))) (Real.arctan (val (y / x)) - Real.arctan (val y / val x))
    rw [sub_add_sub_cancel] at this
    linarith
  have k4' := abs_le.mp k4
  have cP3 := abs_le.mp cP2
  have hp1 := Real.pi_gt_d6
  have hp2 := Real.pi_lt_d6
  simp only []
  by_cases c0 : x < 0
  · rw [if_pos c0]
    rw [hlt, hR.zero] at c0
    refine ⟨?_, fun h => by linarith⟩
    have hw := Atan.arg_right (-val y) (-val x) (by linarith)
    rw [neg_div_neg_eq] at hw
    have e : (⟨val x, val y⟩ : ℂ) = -⟨-val x, -val y⟩ := by apply Complex.ext <;> simp
    rw [e]
    have lim1 := Real.arctan_lt_pi_div_two (val y / val x)
    have lim2 := Real.neg_pi_div_two_lt_arctan (val y / val x)
    by_cases cp : val y < 0
    · have h1 : 0 < val y / val x := div_pos_of_neg_of_neg cp c0
      have h2 := k2 (rounded_pos hR hu0 hu hd h1)
      have h3 : 0 < Real.arctan (val y / val x) := by rw [← Real.arctan_zero]; exact Real.arctan_strictMono h1
      rw [if_pos (by rw [gt_iff_lt, hlt, hR.zero]; exact h2), Complex.arg_neg_eq_arg_sub_pi_of_im_pos (by show 0 < -val y; linarith), hw]
      have s := hR.sub (atan c (y / x)) c.pi
      have sb : |val (atan c (y / x)) - val c.pi| ≤ 3.142 := by
        rw [abs_le]
        norm_num at k4' cP3
        constructor <;> linarith [k4'.1, k4'.2, cP3.1, cP3.2]
      have sc := abs_le.mp (s.trans (by gcongr : _ ≤ u * 3.142))
      rw [abs_le]
      norm_num at k4' cP3 ⊢
      constructor <;> linarith [k4'.1, k4'.2, cP3.1, cP3.2, sc.1, sc.2]
    · have hy : 0 < val y := lt_of_le_of_ne (not_lt.mp cp) (Ne.symm cy)
      have h1 : val y / val x < 0 := div_neg_of_pos_of_neg hy c0
      have h2 := k3 (by
        have := rounded_pos hR hu0 hu (a := -(val y / val x)) (b := -val (y / x)) (by rw [abs_neg, ← abs_neg, show -(-val (y / x) - -(val y / val x)) = val (y / x) - val y / val x by ring]; exact hd) (by linarith)
        linarith)
      have h3 : Real.arctan (val y / val x) < 0 := by rw [← Real.arctan_zero]; exact Real.arctan_strictMono h1
      rw [if_neg (by rw [gt_iff_lt, hlt, hR.zero]; linarith), Complex.arg_neg_eq_arg_add_pi_of_im_neg (by show -val y < 0; linarith), hw]
      have s := hR.add (atan c (y / x)) c.pi
      have sb : |val (atan c (y / x)) + val c.pi| ≤ 3.142 := by
        rw [abs_le]
        norm_num at k4' cP3
        constructor <;> linarith [k4'.1, k4'.2, cP3.1, cP3.2]
      have sc := abs_le.mp (s.trans (by gcongr : _ ≤ u * 3.142))
      rw [abs_le]
      norm_num at k4' cP3 ⊢
      constructor <;> linarith [k4'.1, k4'.2, cP3.1, cP3.2, sc.1, sc.2]
  · rw [if_neg c0]
    rw [hlt, hR.zero, not_lt] at c0
    rw [Atan.arg_right (val y) (val x) (lt_of_le_of_ne c0 (Ne.symm cx))]
    norm_num at k4 ⊢
    constructor
    · linarith
    · intro
      linarith

end

/-! ### Binary floating point -/

theorem binary_atanConsts (l p : ℕ) [NeZero p] (hp : p ≤ 53) (hl : p ≤ l) : (AtanConsts.binary l p).Rounded (fun a => (a.val : ℝ)) (1 / 2 ^ p) := by
  have lit : ∀ (q : ℚ) (r : ℝ), (q : ℝ) = r → |((Binary.literal 53 p q).val : ℝ) - r| ≤ 2 * (1 / 2 ^ p) * |r| := by
    rintro q r rfl
    exact literal_error 53 p hp q
  have lit' : ∀ (q : ℚ) (r : ℝ), (q : ℝ) = r → |((Binary.literal l p q).val : ℝ) - r| ≤ 2 * (1 / 2 ^ p) * |r| := by
    rintro q r rfl
    exact literal_error l p hl q
  constructor
  · exact lit AtanConsts.decimal.P0 _ (by norm_num [AtanConsts.decimal])
  · exact lit AtanConsts.decimal.P1 _ (by norm_num [AtanConsts.decimal])
  · exact lit AtanConsts.decimal.P2 _ (by norm_num [AtanConsts.decimal])
  · exact lit AtanConsts.decimal.P3 _ (by norm_num [AtanConsts.decimal])
  · exact lit AtanConsts.decimal.P4 _ (by norm_num [AtanConsts.decimal])
  · exact lit AtanConsts.decimal.Q0 _ (by norm_num [AtanConsts.decimal])
  · exact lit AtanConsts.decimal.Q1 _ (by norm_num [AtanConsts.decimal])
  · exact lit AtanConsts.decimal.Q2 _ (by norm_num [AtanConsts.decimal])
  · exact lit AtanConsts.decimal.Q3 _ (by norm_num [AtanConsts.decimal])
  · exact lit AtanConsts.decimal.Q4 _ (by norm_num [AtanConsts.decimal])
  · exact lit AtanConsts.decimal.morebits _ (by norm_num [AtanConsts.decimal])
  · exact lit AtanConsts.decimal.low _ (by norm_num [AtanConsts.decimal])
  · exact lit AtanConsts.decimal.high _ (by norm_num [AtanConsts.decimal])
  · exact lit AtanConsts.decimal.half _ (by norm_num [AtanConsts.decimal])
  · exact lit' AtanConsts.decimal.pi _ (by norm_num [AtanConsts.decimal, Const.pi])
  · exact lit' AtanConsts.decimal.halfPi _ (by norm_num [AtanConsts.decimal, Const.halfPi])
  · exact lit' AtanConsts.decimal.fourthPi _ (by norm_num [AtanConsts.decimal, Const.fourthPi])

theorem binary_order (p : ℕ) (a b : Binary p) : a ≤ b ↔ (a.val : ℝ) ≤ (b.val : ℝ) := by
  rw [Rat.cast_le]
  rfl

/-- `atan` is off by at most `8.6` units of roundoff and the error of the approximation, near zero relative to the argument, and it has the right sign. -/
theorem C79_atan (l p : ℕ) [NeZero p] (hp : 20 ≤ p) (hp' : p ≤ 53) (hl : p ≤ l) (x : Binary p) :
    |((atan (AtanConsts.binary l p) x).val : ℝ) - Real.arctan x.val| ≤ 8.6 / 2 ^ p + 1.86 / 10 ^ 16 ∧
      (0 < x.val → 0 < (atan (AtanConsts.binary l p) x).val) ∧ (x.val < 0 → (atan (AtanConsts.binary l p) x).val < 0) ∧
      (|(x.val : ℝ)| ≤ 0.6599 → |((atan (AtanConsts.binary l p) x).val : ℝ) - Real.arctan x.val| ≤ (4.4 / 2 ^ p + 1 / 10 ^ 15) * |(x.val : ℝ)|) := by
  obtain ⟨h1, h2, h3, h4⟩ := atan_error (binary_roundedField p) (by positivity) (unit_le' p hp) (binary_order p) (binary_atanConsts l p hp' hl) x
  rw [mul_one_div] at h1 h4
  refine ⟨h1, fun h => ?_, fun h => ?_, h4⟩
  · exact_mod_cast h2 (by exact_mod_cast h)
  · exact_mod_cast h3 (by exact_mod_cast h)

/-- `atan` is an odd function, without any error. -/
theorem C79_odd (l p : ℕ) [NeZero p] (hp : 20 ≤ p) (hp' : p ≤ 53) (hl : p ≤ l) (x : Binary p) :
    (atan (AtanConsts.binary l p) (-x)).val = -(atan (AtanConsts.binary l p) x).val := by
  have hn : ∀ a : Binary p, - -a = a := fun a => Binary.val_injective p (neg_neg a.val)
  have hg : ∀ a : Binary p, a ≥ 0 ↔ 0 ≤ a.val := fun a => Iff.rfl
  rcases lt_trichotomy x.val 0 with h | h | h
  · unfold atan
    rw [if_pos ((hg _).2 (show 0 ≤ -x.val by linarith)), if_neg (fun h' => by rw [hg] at h'; linarith)]
    exact (neg_neg _).symm
  · have hx : x = 0 := Binary.val_injective p h
    have hx' : -x = 0 := Binary.val_injective p (show -x.val = 0 by rw [h, neg_zero])
    have h0 : (atan (AtanConsts.binary l p) 0).val = 0 := by
      have := (C79_atan l p hp hp' hl 0).2.2.2 (by show |((0 : ℚ) : ℝ)| ≤ _; norm_num)
      rw [show ((0 : Binary p).val) = 0 from rfl, Rat.cast_zero, abs_zero, mul_zero, Real.arctan_zero, sub_zero] at this
      exact_mod_cast abs_nonpos_iff.mp this
    rw [hx', hx, h0]
    exact (neg_zero (G := ℚ)).symm
  · unfold atan
    rw [if_neg (fun h' => by rw [hg] at h'; have : 0 ≤ -x.val := h'; linarith), if_pos ((hg _).2 h.le), hn]
    rfl

/-- `atan2` is off the argument of the complex number by at most `19` units of roundoff, on the right by at most `9.2`. -/
theorem C79_atan2 (l p : ℕ) [NeZero p] (hp : 20 ≤ p) (hp' : p ≤ 53) (hl : p ≤ l) (y x : Binary p) (h : x.val ≠ 0 ∨ y.val ≠ 0) :
    |((atan2 (AtanConsts.binary l p) (decide (y.val < 0)) y x).val : ℝ) - Complex.arg ⟨x.val, y.val⟩| ≤ 19 / 2 ^ p + 1.9 / 10 ^ 16 ∧
      (0 < x.val → |((atan2 (AtanConsts.binary l p) (decide (y.val < 0)) y x).val : ℝ) - Complex.arg ⟨x.val, y.val⟩| ≤ 9.2 / 2 ^ p + 1.9 / 10 ^ 16) := by
  have := atan2_error (binary_roundedField p) (by positivity) (unit_le' p hp) (binary_order p) (binary_atanConsts l p hp' hl) y x (by simpa only [ne_eq, Rat.cast_eq_zero] using h)
  simp only [Rat.cast_lt_zero, Rat.cast_pos] at this
  rw [mul_one_div, mul_one_div] at this
  exact this

/-- With a negative zero for `y` the half-axis of negative numbers is approached from below. -/
theorem C79_negative_zero (l p : ℕ) [NeZero p] (hp' : p ≤ 53) (hl : p ≤ l) (x : Binary p) (h : x.val < 0) :
    |((atan2 (AtanConsts.binary l p) true 0 x).val : ℝ) + Real.pi| ≤ 6.2832 / 2 ^ p + 1 / 10 ^ 19 := by
  have h0 : ¬ x ≥ 0 := fun h' => by
    have : 0 ≤ x.val := h'
    linarith
  have hc := (binary_atanConsts l p hp' hl).pi
  obtain ⟨hp, -, -⟩ := Atan.pi_const
  rw [abs_of_pos (by unfold Const.pi; norm_num : 0 < Const.pi)] at hc
  have vP : Const.pi ≤ 3.1416 := by unfold Const.pi; norm_num
  have hu : (0 : ℝ) ≤ 1 / 2 ^ p := by positivity
  unfold atan2
  rw [if_pos rfl, if_neg h0]
  show |((-(AtanConsts.binary l p).pi.val : ℚ) : ℝ) + Real.pi| ≤ _
  push_cast
  rw [show -((AtanConsts.binary l p).pi.val : ℝ) + Real.pi = -(((AtanConsts.binary l p).pi.val - Const.pi) + (Const.pi - Real.pi)) by ring, abs_neg]
  refine (abs_add_le _ _).trans (add_le_add (hc.trans ?_) hp)
  rw [← mul_one_div 6.2832]
  nlinarith

/-- Single precision, all three ranges. -/
example : |((atan (AtanConsts.binary 64 24) 3).val : ℝ) - Real.arctan ((3 : Binary 24).val)| ≤ 8.6 / 2 ^ 24 + 1.86 / 10 ^ 16 := (C79_atan 64 24 (by norm_num) (by norm_num) (by norm_num) 3).1

set_option maxRecDepth 100000 in
example : (atan (AtanConsts.binary 64 24) 1).val = 13176795 / 16777216 := by decide +kernel

set_option maxRecDepth 100000 in
example : (atan2 (AtanConsts.binary 64 24) false 1 (-1)).val = 9882596 / 4194304 := by decide +kernel

end Elementary
end DSP
