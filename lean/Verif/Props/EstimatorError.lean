import Verif.Lemmas.MedianBounds
import Verif.Lemmas.Estimators
import Verif.Lemmas.BinaryRounded
import Verif.Spec.Rounding
import Verif.Model.BinaryOrder
import Mathlib.Tactic.Ring
import Mathlib.Tactic.FieldSimp
import Mathlib.Tactic.Linarith
import Mathlib.Tactic.Positivity
import Mathlib.Tactic.GCongr

/-!
# C76: the robust estimators in floating point
-/

set_option linter.unusedSectionVars false

namespace DSP
open Spec

namespace Spec

/-- The real point a machine point stands for. -/
def point {V : Type} (val : V → ℝ) (p : V × V) : ℝ × ℝ := (val p.1, val p.2)

/-- Points near the line `y = c + m x`: at most `ε` above or below it, at most `X` to the left or right, and no two with different abscissae closer than `d`. -/
structure NearLine {V : Type} (val : V → ℝ) (m c ε X d : ℝ) (ps : List (V × V)) : Prop where
  dist : ∀ p ∈ ps, |val p.2 - (c + m * val p.1)| ≤ ε
  width : ∀ p ∈ ps, |val p.1| ≤ X
  gap : ∀ p ∈ ps, ∀ q ∈ ps, val q.1 ≠ val p.1 → d ≤ |val q.1 - val p.1|

end Spec

namespace EstimatorError


theorem factor {x x' u : ℝ} (hu : 0 ≤ u) (h : |x' - x| ≤ u * |x|) : ∃ δ, |δ| ≤ u ∧ x' = x * (1 + δ) := by
  by_cases hx : x = 0
  · subst hx
    exact ⟨0, by simpa using hu, by simpa using h⟩
  · refine ⟨(x' - x) / x, ?_, by field_simp; ring⟩
    rw [abs_div, div_le_iff₀ (abs_pos.2 hx)]
    exact h

theorem ratio {a b c u : ℝ} (hu : u ≤ 1 / 1000) (ha : |a| ≤ u) (hb : |b| ≤ u) (hc : |c| ≤ u) :
    |(1 + a) * (1 + c) / (1 + b) - 1| ≤ 301 / 100 * u := by
  rw [abs_le] at ha hb hc
  have hpos : 0 < 1 + b := by linarith
  rw [div_sub_one hpos.ne', abs_div, abs_of_pos hpos, div_le_iff₀ hpos]
  have h0 : 0 ≤ u := by linarith
  have h1 : |a * c| ≤ u * u := by
    rw [abs_mul]
    exact mul_le_mul (abs_le.2 ha) (abs_le.2 hc) (abs_nonneg _) h0
  rw [abs_le] at h1
  rw [abs_le]
  constructor <;> nlinarith

theorem ratio2 {b c u : ℝ} (hu : u ≤ 1 / 1000) (hb : |b| ≤ u) (hc : |c| ≤ u) :
    |(1 + c) / (1 + b) - 1| ≤ 201 / 100 * u := by
  rw [abs_le] at hb hc
  have hpos : 0 < 1 + b := by linarith
  rw [div_sub_one hpos.ne', abs_div, abs_of_pos hpos, div_le_iff₀ hpos]
  have h0 : 0 ≤ u := by linarith
  rw [abs_le]
  constructor <;> nlinarith

/-- A rounded quotient of rounded numbers. -/
theorem quotient {N D N' D' q u : ℝ} (hu : u ≤ 1 / 1000) (h0 : 0 ≤ u) (hD : D ≠ 0) (hN : |N' - N| ≤ u * |N|) (hD' : |D' - D| ≤ u * |D|)
    (hq : D' ≠ 0 → |q - N' / D'| ≤ u * |N' / D'|) : |q - N / D| ≤ 301 / 100 * u * |N / D| := by
  obtain ⟨a, ha, rfl⟩ := factor h0 hN
  obtain ⟨b, hb, rfl⟩ := factor h0 hD'
  have hb1 : 1 + b ≠ 0 := by rw [abs_le] at hb; intro h; linarith
  obtain ⟨c, hc, rfl⟩ := factor h0 (hq (mul_ne_zero hD hb1))
  have e : N * (1 + a) / (D * (1 + b)) * (1 + c) - N / D = ((1 + a) * (1 + c) / (1 + b) - 1) * (N / D) := by field_simp
  rw [e, abs_mul]
  exact mul_le_mul_of_nonneg_right (ratio hu ha hb hc) (abs_nonneg _)

/-- The slope through two points near a line. -/
theorem near_slope {x1 y1 x2 y2 m c ε d : ℝ} (hd : 0 < d) (h1 : |y1 - (c + m * x1)| ≤ ε) (h2 : |y2 - (c + m * x2)| ≤ ε) (h : d ≤ |x2 - x1|) :
    |(y2 - y1) / (x2 - x1) - m| ≤ 2 * ε / d := by
  have hne : x2 - x1 ≠ 0 := abs_pos.1 (hd.trans_le h)
  have e : (y2 - y1) / (x2 - x1) - m = ((y2 - (c + m * x2)) - (y1 - (c + m * x1))) / (x2 - x1) := by field_simp; ring
  rw [e, abs_div]
  have : |(y2 - (c + m * x2)) - (y1 - (c + m * x1))| ≤ 2 * ε := (abs_sub _ _).trans (by linarith)
  have h0 : 0 ≤ ε := (abs_nonneg _).trans h1
  exact div_le_div₀ (by linarith) this hd h

/-- One rounded slope. -/
theorem near_slope_rounded {q s m S u : ℝ} (h0 : 0 ≤ u) (hq : |q - s| ≤ 301 / 100 * u * |s|) (hs : |s - m| ≤ S) :
    |q - m| ≤ S + 301 / 100 * u * (|m| + S) := by
  have h1 : |s| ≤ |m| + S := by
    have := abs_sub_abs_le_abs_sub s m
    linarith
  have h2 : |q - m| ≤ |q - s| + |s - m| := by
    have := abs_add_le (q - s) (s - m)
    rwa [sub_add_sub_cancel] at this
  have h3 : 301 / 100 * u * |s| ≤ 301 / 100 * u * (|m| + S) := by gcongr
  linarith

/-- One rounded residual. -/
theorem residual {s x y P r u : ℝ} (hu : u ≤ 1 / 1000) (h0 : 0 ≤ u) (hP : |P - s * x| ≤ u * |s * x|) (hr : |r - (y - P)| ≤ u * |y - P|) :
    |r - (y - s * x)| ≤ u * |y - s * x| + 1001 / 1000 * u * |s * x| := by
  have h1 : |y - P| ≤ |y - s * x| + u * |s * x| := by
    have := abs_add_le (y - s * x) (s * x - P)
    rw [sub_add_sub_cancel, abs_sub_comm (s * x)] at this
    linarith
  have h2 : |r - (y - s * x)| ≤ |r - (y - P)| + |P - s * x| := by
    have := abs_sub (r - (y - P)) (P - s * x)
    rw [show r - (y - P) - (P - s * x) = r - (y - s * x) by ring] at this
    exact this
  have h3 : u * |y - P| ≤ u * (|y - s * x| + u * |s * x|) := by gcongr
  have h4 : u * (u * |s * x|) ≤ u * (1 / 1000 * |s * x|) := by gcongr
  linarith

/-- One rounded residual of a point near a line, with a slope near that of the line. -/
theorem near_residual {s x y m c ε X E u r : ℝ} (hu : u ≤ 1 / 1000) (h0 : 0 ≤ u) (hx : |x| ≤ X) (hp : |y - (c + m * x)| ≤ ε) (hs : |s - m| ≤ E)
    (hr : |r - (y - s * x)| ≤ u * |y - s * x| + 1001 / 1000 * u * |s * x|) :
    |r - c| ≤ u * |c| + 1001 / 1000 * u * |m| * X + 101 / 100 * (ε + E * X) := by
  have hX : 0 ≤ X := (abs_nonneg _).trans hx
  have hE : 0 ≤ E := (abs_nonneg _).trans hs
  have hε : 0 ≤ ε := (abs_nonneg _).trans hp
  have a1 : |(s - m) * x| ≤ E * X := by rw [abs_mul]; exact mul_le_mul hs hx (abs_nonneg _) hE
  have a2 : |y - s * x - c| ≤ ε + E * X := by
    have := abs_sub (y - (c + m * x)) ((s - m) * x)
    rw [show y - (c + m * x) - (s - m) * x = y - s * x - c by ring] at this
    linarith
  have a3 : |y - s * x| ≤ |c| + (ε + E * X) := by
    have := abs_sub_abs_le_abs_sub (y - s * x) c
    linarith
  have a4 : |s * x| ≤ |m| * X + E * X := by
    have := abs_add_le (m * x) ((s - m) * x)
    rw [show m * x + (s - m) * x = s * x by ring, abs_mul m] at this
    have : |m| * |x| ≤ |m| * X := by gcongr
    linarith
  have a5 : |r - c| ≤ |r - (y - s * x)| + |y - s * x - c| := by
    have := abs_add_le (r - (y - s * x)) (y - s * x - c)
    rwa [show r - (y - s * x) + (y - s * x - c) = r - c by ring] at this
  have a6 : u * |y - s * x| ≤ u * (|c| + (ε + E * X)) := by gcongr
  have a7 : 1001 / 1000 * u * |s * x| ≤ 1001 / 1000 * u * (|m| * X + E * X) := by gcongr
  have hEX : 0 ≤ E * X := by positivity
  have a8 : u * (ε + E * X) ≤ 1 / 1000 * (ε + E * X) := by gcongr
  have a9 : u * (E * X) ≤ 1 / 1000 * (E * X) := by gcongr
  linarith

/-- One rounded intercept `(x2 y1 - x1 y2) / (x2 - x1)` of two points near a line. -/
theorem near_intercept {x1 y1 x2 y2 m c ε d X Y u P Q N D q : ℝ} (hu : u ≤ 1 / 1000) (h0 : 0 ≤ u) (hd : 0 < d)
    (h1 : |y1 - (c + m * x1)| ≤ ε) (h2 : |y2 - (c + m * x2)| ≤ ε) (h : d ≤ |x2 - x1|) (hx1 : |x1| ≤ X) (hx2 : |x2| ≤ X) (hy1 : |y1| ≤ Y) (hy2 : |y2| ≤ Y)
    (hP : |P - x2 * y1| ≤ u * |x2 * y1|) (hQ : |Q - x1 * y2| ≤ u * |x1 * y2|) (hN : |N - (P - Q)| ≤ u * |P - Q|)
    (hD : |D - (x2 - x1)| ≤ u * |x2 - x1|) (hq : D ≠ 0 → |q - N / D| ≤ u * |N / D|) :
    |q - c| ≤ 31 / 10 * u * |c| + 21 / 10 * (X / d) * (ε + u * Y) := by
  have hX : 0 ≤ X := (abs_nonneg _).trans hx1
  have hY : 0 ≤ Y := (abs_nonneg _).trans hy1
  have hε : 0 ≤ ε := (abs_nonneg _).trans h1
  have hne : x2 - x1 ≠ 0 := abs_pos.1 (hd.trans_le h)
  have b1 : |x2 * y1| ≤ X * Y := by rw [abs_mul]; exact mul_le_mul hx2 hy1 (abs_nonneg _) hX
  have b2 : |x1 * y2| ≤ X * Y := by rw [abs_mul]; exact mul_le_mul hx1 hy2 (abs_nonneg _) hX
  have b3 : |P - Q - (x2 * y1 - x1 * y2)| ≤ 2 * u * (X * Y) := by
    have := abs_sub (P - x2 * y1) (Q - x1 * y2)
    rw [show P - x2 * y1 - (Q - x1 * y2) = P - Q - (x2 * y1 - x1 * y2) by ring] at this
    have t1 : u * |x2 * y1| ≤ u * (X * Y) := by gcongr
    have t2 : u * |x1 * y2| ≤ u * (X * Y) := by gcongr
    linarith
  -- the exact numerator
  have b4 : |x2 * y1 - x1 * y2 - c * (x2 - x1)| ≤ 2 * X * ε := by
    have e : x2 * y1 - x1 * y2 - c * (x2 - x1) = x2 * (y1 - (c + m * x1)) - x1 * (y2 - (c + m * x2)) := by ring
    rw [e]
    have t1 : |x2 * (y1 - (c + m * x1))| ≤ X * ε := by rw [abs_mul]; exact mul_le_mul hx2 h1 (abs_nonneg _) hX
    have t2 : |x1 * (y2 - (c + m * x2))| ≤ X * ε := by rw [abs_mul]; exact mul_le_mul hx1 h2 (abs_nonneg _) hX
    have := abs_sub (x2 * (y1 - (c + m * x1))) (x1 * (y2 - (c + m * x2)))
    linarith
  have b5 : |P - Q - c * (x2 - x1)| ≤ 2 * X * ε + 2 * u * (X * Y) := by
    have := abs_add_le (P - Q - (x2 * y1 - x1 * y2)) (x2 * y1 - x1 * y2 - c * (x2 - x1))
    rw [sub_add_sub_cancel] at this
    linarith
  have b6 : |(P - Q) / (x2 - x1) - c| ≤ 2 * (X / d) * (ε + u * Y) := by
    have e : (P - Q) / (x2 - x1) - c = (P - Q - c * (x2 - x1)) / (x2 - x1) := by field_simp
    rw [e, abs_div]
    refine (div_le_div₀ (by positivity) b5 hd h).trans (le_of_eq ?_)
    ring
  have b7 := quotient hu h0 hne hN hD hq
  have b8 := near_slope_rounded h0 b7 b6
  set G := X / d * (ε + u * Y) with hG
  have hG0 : 0 ≤ G := by positivity
  have e1 : 2 * (X / d) * (ε + u * Y) = 2 * G := by rw [hG]; ring
  have e2 : 21 / 10 * (X / d) * (ε + u * Y) = 21 / 10 * G := by rw [hG]; ring
  rw [e1] at b8
  rw [e2]
  have : u * (2 * G) ≤ 1 / 1000 * (2 * G) := by gcongr
  have : 0 ≤ u * |c| := by positivity
  linarith

/-- The same for any two points. -/
theorem intercept_rounded {x1 y1 x2 y2 W u P Q N D q : ℝ} (hu : u ≤ 1 / 1000) (h0 : 0 ≤ u) (hne : x2 - x1 ≠ 0)
    (hW1 : |x2 * y1 / (x2 - x1)| ≤ W) (hW2 : |x1 * y2 / (x2 - x1)| ≤ W)
    (hP : |P - x2 * y1| ≤ u * |x2 * y1|) (hQ : |Q - x1 * y2| ≤ u * |x1 * y2|) (hN : |N - (P - Q)| ≤ u * |P - Q|)
    (hD : |D - (x2 - x1)| ≤ u * |x2 - x1|) (hq : D ≠ 0 → |q - N / D| ≤ u * |N / D|) :
    |q - (y1 - (y2 - y1) / (x2 - x1) * x1)| ≤ 301 / 100 * u * |y1 - (y2 - y1) / (x2 - x1) * x1| + 201 / 100 * u * W := by
  have hpos : 0 < |x2 - x1| := abs_pos.2 hne
  have hW : 0 ≤ W := (abs_nonneg _).trans hW1
  have b3 : |(P - Q) / (x2 - x1) - (y1 - (y2 - y1) / (x2 - x1) * x1)| ≤ 2 * u * W := by
    have e : (P - Q) / (x2 - x1) - (y1 - (y2 - y1) / (x2 - x1) * x1) = (P - x2 * y1) / (x2 - x1) - (Q - x1 * y2) / (x2 - x1) := by
      field_simp; ring
    rw [e]
    have t1 : |(P - x2 * y1) / (x2 - x1)| ≤ u * W := by
      rw [abs_div, div_le_iff₀ hpos]
      rw [abs_div, div_le_iff₀ hpos] at hW1
      calc _ ≤ u * |x2 * y1| := hP
        _ ≤ u * (W * |x2 - x1|) := by gcongr
        _ = _ := by ring
    have t2 : |(Q - x1 * y2) / (x2 - x1)| ≤ u * W := by
      rw [abs_div, div_le_iff₀ hpos]
      rw [abs_div, div_le_iff₀ hpos] at hW2
      calc _ ≤ u * |x1 * y2| := hQ
        _ ≤ u * (W * |x2 - x1|) := by gcongr
        _ = _ := by ring
    have := abs_sub ((P - x2 * y1) / (x2 - x1)) ((Q - x1 * y2) / (x2 - x1))
    linarith
  have b8 := near_slope_rounded h0 (quotient hu h0 hne hN hD hq) b3
  have : u * (2 * u * W) ≤ 1 / 1000 * (2 * u * W) := by gcongr
  have : 0 ≤ u * W := by positivity
  linarith

theorem mono_hi {g e : ℝ} (h0 : 0 ≤ g) (h1 : g ≤ 1) : Monotone fun q : ℝ => q + (g * |q| + e) := by
  intro a b hab
  have := abs_sub_abs_le_abs_sub a b
  rw [abs_sub_comm, abs_of_nonneg (by linarith : 0 ≤ b - a)] at this
  have : g * (|a| - |b|) ≤ b - a := by
    rcases le_total (|a| - |b|) 0 with h | h
    · have := mul_nonpos_of_nonneg_of_nonpos h0 h
      linarith
    · nlinarith
  simp only
  linarith

theorem mono_lo {g e : ℝ} (h0 : 0 ≤ g) (h1 : g ≤ 1) : Monotone fun q : ℝ => q - (g * |q| + e) := by
  intro a b hab
  have := mono_hi (e := e) h0 h1 (neg_le_neg hab)
  simp only [abs_neg] at this ⊢
  linarith

/-- A median of rounded numbers. -/
theorem median_error {V : Type} [LinearOrder V] {val : V → ℝ} (hval : StrictMono val) {g e : ℝ} (h0 : 0 ≤ g) (h1 : g ≤ 1)
    {L : List V} {R : List ℝ} (h : List.Forall₂ (fun a r => |val a - r| ≤ g * |r| + e) L R) {v : V} {m : ℝ} (hv : IsUpperMedian v L)
    (hm : IsUpperMedian m R) : |val v - m| ≤ g * |m| + e := by
  have := IsUpperMedian.within hval.monotone (mono_lo (e := e) h0 h1) (mono_hi (e := e) h0 h1) (L := L) (R := R)
    (h.imp fun a r har => by rw [abs_le] at har; constructor <;> linarith) hv hm
  rw [abs_le]
  constructor <;> linarith [this.1, this.2]

variable {V : Type} [LinearOrder V] [Zero V] [Add V] [Sub V] [Mul V] [IntCast V] [Neg V] [Div V] {val : V → ℝ} {u : ℝ}

/-- `a < b` and `a != b` -/
local notation "lt'" => (fun a b : V => decide (a < b))
local notation "ne'" => (fun a b : V => decide (a ≠ b))

/-- What `TheilSenEstimator::compute` chooses, in any ordered arithmetic. -/
theorem TheilSen.compute_ordered (LEN_MAX : Nat) (h3 : 3 ≤ LEN_MAX) (ps : List (V × V)) (xr yr temp : List V) (hlen : ps.length ≤ LEN_MAX)
    (htemp : temp.length = TheilSen.size LEN_MAX) (hs : TheilSen.all' ne' ps ≠ []) (hsz : (TheilSen.all' ne' ps).length ≤ TheilSen.size LEN_MAX) :
    ∃ l, TheilSen.compute lt' ne' LEN_MAX temp (ps.map Prod.fst ++ xr) (ps.map Prod.snd ++ yr) ps.length = .ok l ∧
      IsUpperMedian l.slope (TheilSen.all' ne' ps) ∧ IsUpperMedian l.yint (ps.map fun p => p.2 - l.slope * p.1) ∧ l.xint = (-l.yint) / l.slope := by
  have hps : ps ≠ [] := by rintro rfl; exact hs rfl
  have hlen' : ps.length ≤ TheilSen.size LEN_MAX := by
    obtain ⟨k, rfl⟩ : ∃ k, LEN_MAX = k + 3 := ⟨LEN_MAX - 3, by omega⟩
    unfold TheilSen.size
    have : (k + 3 - 1) * (k + 3) = k * k + 5 * k + 6 := by
      rw [show k + 3 - 1 = k + 2 from rfl]; ring
    rw [this]
    have : 2 * (k + 3) ≤ k * k + 5 * k + 6 := by nlinarith
    omega
  obtain ⟨t1, c1, e1, h1⟩ := TheilSen.slopeLoop_ok ne' ps xr yr (TheilSen.size LEN_MAX) ps.length temp [] 0 0 (by omega)
    (by rw [← htemp]; exact .nil)
  rw [List.drop_zero, List.nil_append] at h1
  rw [show ((0 : Nat) : Int) = 0 from rfl] at e1
  obtain ⟨t2, m, e2, h2, hm⟩ := h1.median hs hsz
  obtain ⟨t3, c3, e3, h3⟩ := TheilSen.resLoop_ok m ps xr yr (TheilSen.size LEN_MAX) ps.length t2 [] 0 0 (by omega) (by rw [← h2]; exact .nil)
  rw [List.drop_zero, List.nil_append] at h3
  rw [show ((0 : Nat) : Int) = 0 from rfl] at e3
  obtain ⟨t4, c, e4, h4, hc⟩ := h3.median (by simpa using hps) (by simpa using hlen')
  refine ⟨⟨(-c) / m, c, m⟩, ?_, hm, hc, rfl⟩
  simp only [TheilSen.compute, Int.toNat_natCast, e1, e2, e3, e4, bind, Except.bind, pure, Except.pure]

/-- What `RepeatedMedianEstimator::compute` chooses, in any ordered arithmetic. -/
theorem RepeatedMedian.compute_ordered (SIZE : Nat) (ps : List (V × V)) (xr yr inner outer : List V) (LEN : Int) (hLEN : (ps.length : Int) = min LEN SIZE)
    (hin : inner.length = SIZE - 1) (hout : outer.length = SIZE) (hne : ps ≠ []) (hps : ∀ p ∈ ps, ∃ q ∈ ps, q.1 ≠ p.1) :
    ∃ l ss cs, RepeatedMedian.compute lt' ne' SIZE inner outer (ps.map Prod.fst ++ xr) (ps.map Prod.snd ++ yr) LEN = .ok l ∧
      ss.length = ps.length ∧ RepeatedMedian.Medians ne' RepeatedMedian.slopeOf ps ss ∧ IsUpperMedian l.slope ss ∧
      cs.length = ps.length ∧ RepeatedMedian.Medians ne' RepeatedMedian.interceptOf ps cs ∧ IsUpperMedian l.yint cs ∧ l.xint = (-l.yint) / l.slope := by
  have hpos : 0 < ps.length := List.length_pos_of_ne_nil hne
  have hL : (if LEN > (SIZE : Int) then (SIZE : Int) else LEN) = ps.length := by split <;> omega
  have hnil : ∀ (f : V → V → V → V → V), ∀ p ∈ ps, RepeatedMedian.from' ne' f p ps ≠ [] := by
    intro f p hp
    obtain ⟨q, hq, hqp⟩ := hps p hp
    rw [RepeatedMedian.from', Ne, List.map_eq_nil_iff, List.filter_eq_nil_iff]
    intro h; exact h q hq (by simpa using hqp)
  obtain ⟨in1, ss, e1, h1, l1, m1⟩ := RepeatedMedian.outerLoop_ok ne' (by simp) RepeatedMedian.slopeOf ps xr yr
    (SIZE - 1) (by omega) (hnil _) ps.length inner [] outer hin (by simp; omega) (by simp) (by simp)
    (by intro i m p h; simp at h)
  obtain ⟨ys1, s, e2, hys1, hs⟩ := select_median ss (outer.drop ps.length) (by apply List.ne_nil_of_length_pos; omega)
  obtain ⟨in2, cs, e3, h3, l3, m3⟩ := RepeatedMedian.outerLoop_ok ne' (by simp) RepeatedMedian.interceptOf ps xr yr
    (SIZE - 1) (by omega) (hnil _) ps.length in1 []
    (ys1 ++ outer.drop ps.length) h1 (by simp; omega) (by simp) (by simp) (by intro i m p h; simp at h)
  obtain ⟨ys2, c, e4, hys2, hc⟩ := select_median cs ((ys1 ++ outer.drop ps.length).drop ps.length) (by apply List.ne_nil_of_length_pos; omega)
  simp only [List.nil_append, List.length_nil, Nat.sub_zero, Nat.cast_zero] at e1 e3
  rw [l1] at e2
  rw [l3] at e4
  refine ⟨⟨(-c) / s, c, s⟩, ss, cs, ?_, l1, m1, hs, l3, m3, hc, rfl⟩
  simp only [RepeatedMedian.compute, hL, Int.toNat_natCast, e1, e2, e3, e4, bind, Except.bind, pure, Except.pure]

/-- What `RepeatedMedianEstimator2::compute` chooses, in any ordered arithmetic. -/
theorem RepeatedMedian.compute2_ordered (SIZE : Nat) (ps : List (V × V)) (xr yr inner outer : List V) (LEN : Int) (hLEN : (ps.length : Int) = min LEN SIZE)
    (hin : inner.length = SIZE - 1) (hout : outer.length = SIZE) (hne : ps ≠ []) (hps : ∀ p ∈ ps, ∃ q ∈ ps, q.1 ≠ p.1) :
    ∃ l ss, RepeatedMedian.compute2 lt' ne' SIZE inner outer (ps.map Prod.fst ++ xr) (ps.map Prod.snd ++ yr) LEN = .ok l ∧
      ss.length = ps.length ∧ RepeatedMedian.Medians ne' RepeatedMedian.slopeOf ps ss ∧ IsUpperMedian l.slope ss ∧
      IsUpperMedian l.yint (ps.map fun p => p.2 - l.slope * p.1) ∧ l.xint = (-l.yint) / l.slope := by
  have hpos : 0 < ps.length := List.length_pos_of_ne_nil hne
  have hL : (if LEN > (SIZE : Int) then (SIZE : Int) else LEN) = ps.length := by split <;> omega
  have hnil : ∀ (f : V → V → V → V → V), ∀ p ∈ ps, RepeatedMedian.from' ne' f p ps ≠ [] := by
    intro f p hp
    obtain ⟨q, hq, hqp⟩ := hps p hp
    rw [RepeatedMedian.from', Ne, List.map_eq_nil_iff, List.filter_eq_nil_iff]
    intro h; exact h q hq (by simpa using hqp)
  obtain ⟨in1, ss, e1, h1, l1, m1⟩ := RepeatedMedian.outerLoop_ok ne' (by simp) RepeatedMedian.slopeOf ps xr yr
    (SIZE - 1) (by omega) (hnil _) ps.length inner [] outer hin (by simp; omega) (by simp) (by simp)
    (by intro i m p h; simp at h)
  obtain ⟨ys1, s, e2, hys1, hs⟩ := select_median ss (outer.drop ps.length) (by apply List.ne_nil_of_length_pos; omega)
  have e3 := RepeatedMedian.resLoop_ok ps xr yr s ps.length 0 (ys1 ++ outer.drop ps.length) (by omega) (by simp; omega) (by omega)
  obtain ⟨ys2, c, e4, hys2, hc⟩ := select_median (ps.map fun p => p.2 - s * p.1) ((ys1 ++ outer.drop ps.length).drop (ps.length - 0))
    (by apply List.ne_nil_of_length_pos; simpa using hpos)
  simp only [List.nil_append, List.length_nil, Nat.sub_zero, Nat.cast_zero, List.take_zero, List.map_nil] at e1 e3 e4
  rw [l1] at e2
  rw [List.length_map] at e4
  refine ⟨⟨(-c) / s, c, s⟩, ss, ?_, l1, m1, hs, hc, rfl⟩
  simp only [RepeatedMedian.compute2, hL, Int.toNat_natCast, e1, e2, e3, e4, bind, Except.bind, pure, Except.pure]

section Bounds
variable (h : RoundedField V val u) (h0 : 0 ≤ u) (hu : u ≤ 1 / 1000) (hval : StrictMono val)
include h h0 hu hval

/-- One slope. -/
theorem slope_error (p q : V × V) (hpq : q.1 ≠ p.1) :
    |val ((q.2 - p.2) / (q.1 - p.1)) - slope (point val p) (point val q)| ≤ 301 / 100 * u * |slope (point val p) (point val q)| + 0 := by
  rw [add_zero]
  exact quotient hu h0 (sub_ne_zero.2 (hval.injective.ne hpq)) (h.sub _ _) (h.sub _ _) (h.div _ _)

theorem slopesFrom_error (p : V × V) (qs : List (V × V)) :
    List.Forall₂ (fun a r => |val a - r| ≤ 301 / 100 * u * |r| + 0) (TheilSen.from' ne' p qs) (slopesFrom (point val p) (qs.map (point val))) := by
  induction qs with
  | nil => exact .nil
  | cons q qs ih =>
    by_cases hq : q.1 = p.1
    · simpa [TheilSen.from', slopesFrom, List.filter_cons, hq, point] using ih
    · have hq' : val q.1 ≠ val p.1 := hval.injective.ne hq
      have e1 : TheilSen.from' ne' p (q :: qs) = (q.2 - p.2) / (q.1 - p.1) :: TheilSen.from' ne' p qs := by
        simp [TheilSen.from', hq]
      have e2 : slopesFrom (point val p) ((q :: qs).map (point val)) = slope (point val p) (point val q) :: slopesFrom (point val p) (qs.map (point val)) := by
        simp [slopesFrom, hq', point]
      rw [e1, e2]
      exact .cons (slope_error h h0 hu hval p q hq) ih

theorem slopes_error (ps : List (V × V)) :
    List.Forall₂ (fun a r => |val a - r| ≤ 301 / 100 * u * |r| + 0) (TheilSen.all' ne' ps) (slopes (ps.map (point val))) := by
  induction ps with
  | nil => exact .nil
  | cons p ps ih =>
    rw [TheilSen.all', List.map_cons, slopes]
    exact List.rel_append (slopesFrom_error h h0 hu hval p ps) ih

omit hval in
/-- One residual. -/
theorem residual_error (s : V) (p : V × V) :
    |val (p.2 - s * p.1) - (val p.2 - val s * val p.1)| ≤ u * |val p.2 - val s * val p.1| + 1001 / 1000 * u * |val s * val p.1| :=
  residual hu h0 (h.mul _ _) (h.sub _ _)

omit hval in
theorem residuals_error (s : V) (ps : List (V × V)) (B : ℝ) (hB : ∀ p ∈ ps, |val s * val p.1| ≤ B) :
    List.Forall₂ (fun a r => |val a - r| ≤ u * |r| + 1001 / 1000 * u * B) (ps.map fun p => p.2 - s * p.1) (residuals (val s) (ps.map (point val))) := by
  induction ps with
  | nil => exact .nil
  | cons p ps ih =>
    rw [residuals, List.map_cons, List.map_cons, List.map_cons]
    refine .cons ?_ (ih fun q hq => hB q (by simp [hq]))
    refine (residual_error h h0 hu s p).trans ?_
    have := hB p (by simp)
    simp only [point]
    gcongr

omit h h0 hu in
theorem gaps_ne (ps : List (V × V)) (hs : ∀ p ∈ ps.map (point val), ∃ q ∈ ps.map (point val), q.1 ≠ p.1) : ∀ p ∈ ps, ∃ q ∈ ps, q.1 ≠ p.1 := by
  intro p hp
  obtain ⟨q', hq', hne⟩ := hs _ (List.mem_map_of_mem hp)
  obtain ⟨q, hq, rfl⟩ := List.mem_map.1 hq'
  exact ⟨q, hq, fun e => hne (by simp [point, e])⟩

omit h h0 hu hval in
theorem all'_length (ps : List (V × V)) : 2 * (TheilSen.all' ne' ps).length ≤ ps.length * (ps.length - 1) := by
  induction ps with
  | nil => simp [TheilSen.all']
  | cons p ps ih =>
    have h : (TheilSen.from' ne' p ps).length ≤ ps.length := by
      rw [TheilSen.from', List.length_map]; exact List.length_filter_le _ _
    simp only [TheilSen.all', List.length_append, List.length_cons, Nat.add_sub_cancel]
    cases ps with
    | nil => simp at h ⊢; simp [TheilSen.all', h]
    | cons q qs =>
      simp only [List.length_cons, Nat.add_sub_cancel] at *
      ring_nf at *
      omega

omit h h0 hu hval in
theorem all'_size {LEN_MAX : Nat} (ps : List (V × V)) (hlen : ps.length ≤ LEN_MAX) : (TheilSen.all' ne' ps).length ≤ TheilSen.size LEN_MAX := by
  have := all'_length ps
  unfold TheilSen.size
  have : ps.length * (ps.length - 1) ≤ (LEN_MAX - 1) * LEN_MAX := by
    rw [Nat.mul_comm]; exact Nat.mul_le_mul (by omega) hlen
  omega

/-- **C76** (Theil–Sen). For any data the slope has three roundings of relative error against the median of the exact slopes, however many points there are, and the intercept is
that of the exact residuals up to the rounding of one of them. -/
theorem C76_theil_sen (LEN_MAX : Nat) (h3 : 3 ≤ LEN_MAX) (ps : List (V × V)) (xr yr temp : List V) (hlen : ps.length ≤ LEN_MAX)
    (htemp : temp.length = TheilSen.size LEN_MAX) (hs : slopes (ps.map (point val)) ≠ []) :
    ∃ l m c, TheilSen.compute lt' ne' LEN_MAX temp (ps.map Prod.fst ++ xr) (ps.map Prod.snd ++ yr) ps.length = .ok l ∧
      IsUpperMedian m (slopes (ps.map (point val))) ∧ |val l.slope - m| ≤ 301 / 100 * u * |m| ∧
      IsUpperMedian c (residuals (val l.slope) (ps.map (point val))) ∧
      (∀ B, (∀ p ∈ ps, |val l.slope * val p.1| ≤ B) → |val l.yint - c| ≤ u * |c| + 1001 / 1000 * u * B) ∧
      (val l.slope ≠ 0 → |val l.xint - -val l.yint / val l.slope| ≤ u * |val l.yint / val l.slope|) := by
  have hsl := slopes_error h h0 hu hval ps
  have hne : TheilSen.all' ne' ps ≠ [] := by
    intro e
    rw [e] at hsl
    exact hs (List.forall₂_nil_left_iff.1 hsl)
  have hps : ps ≠ [] := by rintro rfl; exact hs rfl
  obtain ⟨l, e, m1, m2, hx⟩ := TheilSen.compute_ordered LEN_MAX h3 ps xr yr temp hlen htemp hne (all'_size ps hlen)
  obtain ⟨m, hm⟩ := exists_upperMedian _ hs
  obtain ⟨c, hc⟩ := exists_upperMedian (residuals (val l.slope) (ps.map (point val))) (by simpa [residuals] using hps)
  refine ⟨l, m, c, e, hm, ?_, hc, ?_, ?_⟩
  · have := median_error hval (by linarith) (by linarith) hsl m1 hm
    simpa using this
  · intro B hB
    exact median_error hval h0 (by linarith) (residuals_error h h0 hu l.slope ps B hB) m2 hc
  · intro hsn
    have := h.div (-l.yint) l.slope hsn
    rw [hx]
    rwa [h.neg, neg_div, abs_neg, ← neg_div] at this

omit h h0 hu hval in
theorem exists_medians (f : ℝ × ℝ → List (ℝ × ℝ) → List ℝ) (ps : List (ℝ × ℝ)) (hne : ∀ p ∈ ps, f p ps ≠ []) :
    ∃ ms : List ℝ, ms.length = ps.length ∧ ∀ (i : ℕ) m p, ms[i]? = some m → ps[i]? = some p → IsUpperMedian m (f p ps) := by
  have : ∀ p, ∃ m, p ∈ ps → IsUpperMedian m (f p ps) := by
    intro p
    by_cases hp : p ∈ ps
    · obtain ⟨m, hm⟩ := exists_upperMedian _ (hne p hp)
      exact ⟨m, fun _ => hm⟩
    · exact ⟨0, fun h => absurd h hp⟩
  choose g hg using this
  refine ⟨ps.map g, by simp, ?_⟩
  intro i m p hm hp
  rw [List.getElem?_map, hp] at hm
  simp only [Option.map_some, Option.some.injEq] at hm
  rw [← hm]
  exact hg p (List.mem_of_getElem? hp)

omit h h0 hu in
/-- Medians of medians. -/
theorem nested_error (F : V × V → List V) (G : ℝ × ℝ → List ℝ) (ps : List (V × V)) {g e : ℝ} (hg0 : 0 ≤ g) (hg1 : g ≤ 1)
    (hFG : ∀ p ∈ ps, List.Forall₂ (fun a r => |val a - r| ≤ g * |r| + e) (F p) (G (point val p)))
    (ss : List V) (hl : ss.length = ps.length) (hss : ∀ (i : ℕ) m p, ss[i]? = some m → ps[i]? = some p → IsUpperMedian m (F p))
    (ms : List ℝ) (hl' : ms.length = ps.length) (hms : ∀ (i : ℕ) m p, ms[i]? = some m → (ps.map (point val))[i]? = some p → IsUpperMedian m (G p))
    {v : V} {m : ℝ} (hv : IsUpperMedian v ss) (hm : IsUpperMedian m ms) : |val v - m| ≤ g * |m| + e := by
  refine median_error hval hg0 hg1 (L := ss) (R := ms) ?_ hv hm
  rw [List.forall₂_iff_get]
  refine ⟨by omega, ?_⟩
  intro i h1 h2
  have hi : i < ps.length := by omega
  exact median_error hval hg0 hg1 (hFG _ (List.getElem_mem hi)) (hss i _ ps[i] (by simp) (by simp [hi])) (hms i _ (point val ps[i]) (by simp) (by simp [hi]))

omit h h0 hu hval in
theorem slopesFrom_ne {ps : List (ℝ × ℝ)} (hps : ∀ p ∈ ps, ∃ q ∈ ps, q.1 ≠ p.1) : ∀ p ∈ ps, slopesFrom p ps ≠ [] := by
  intro p hp
  obtain ⟨q, hq, hne⟩ := hps p hp
  rw [slopesFrom, Ne, List.map_eq_nil_iff, List.filter_eq_nil_iff]
  intro h; exact h q hq (by simpa using hne)

omit h h0 hu hval in
theorem interceptsFrom_ne {ps : List (ℝ × ℝ)} (hps : ∀ p ∈ ps, ∃ q ∈ ps, q.1 ≠ p.1) : ∀ p ∈ ps, interceptsFrom p ps ≠ [] := by
  intro p hp
  have := slopesFrom_ne hps p hp
  rw [slopesFrom, Ne, List.map_eq_nil_iff] at this
  rwa [interceptsFrom, Ne, List.map_eq_nil_iff]

theorem interceptsFrom_error (p : V × V) (qs : List (V × V)) (W : ℝ)
    (hW : ∀ q ∈ qs, q.1 ≠ p.1 → |val q.1 * val p.2 / (val q.1 - val p.1)| ≤ W ∧ |val p.1 * val q.2 / (val q.1 - val p.1)| ≤ W) :
    List.Forall₂ (fun a r => |val a - r| ≤ 301 / 100 * u * |r| + 201 / 100 * u * W) (RepeatedMedian.from' ne' RepeatedMedian.interceptOf p qs)
      (interceptsFrom (point val p) (qs.map (point val))) := by
  induction qs with
  | nil => exact .nil
  | cons q qs ih =>
    have ih := ih fun q hq => hW q (by simp [hq])
    by_cases hq : q.1 = p.1
    · simpa [RepeatedMedian.from', interceptsFrom, List.filter_cons, hq, point] using ih
    · have hq' : val q.1 ≠ val p.1 := hval.injective.ne hq
      have e1 : RepeatedMedian.from' ne' RepeatedMedian.interceptOf p (q :: qs) =
          (q.1 * p.2 - p.1 * q.2) / (q.1 - p.1) :: RepeatedMedian.from' ne' RepeatedMedian.interceptOf p qs := by
        simp [RepeatedMedian.from', RepeatedMedian.interceptOf, hq]
      have e2 : interceptsFrom (point val p) ((q :: qs).map (point val)) = intercept (point val p) (point val q) :: interceptsFrom (point val p) (qs.map (point val)) := by
        simp [interceptsFrom, hq', point]
      rw [e1, e2]
      obtain ⟨w1, w2⟩ := hW q (by simp) hq
      exact .cons (intercept_rounded hu h0 (sub_ne_zero.2 hq') w1 w2 (h.mul _ _) (h.mul _ _) (h.sub _ _) (h.sub _ _) (h.div _ _)) ih

/-- **C76** (repeated medians, second estimator). The slope has three roundings of relative error against the exact median of medians, the intercept is that of the exact residuals
up to the rounding of one of them. -/
theorem C76_repeated_median2 (SIZE : Nat) (ps : List (V × V)) (xr yr inner outer : List V) (LEN : Int) (hLEN : (ps.length : Int) = min LEN SIZE)
    (hin : inner.length = SIZE - 1) (hout : outer.length = SIZE) (hne : ps ≠ []) (hps : ∀ p ∈ ps.map (point val), ∃ q ∈ ps.map (point val), q.1 ≠ p.1) :
    ∃ l ms m c, RepeatedMedian.compute2 lt' ne' SIZE inner outer (ps.map Prod.fst ++ xr) (ps.map Prod.snd ++ yr) LEN = .ok l ∧
      ms.length = ps.length ∧ (∀ (i : ℕ) s p, ms[i]? = some s → (ps.map (point val))[i]? = some p → IsUpperMedian s (slopesFrom p (ps.map (point val)))) ∧
      IsUpperMedian m ms ∧ |val l.slope - m| ≤ 301 / 100 * u * |m| ∧
      IsUpperMedian c (residuals (val l.slope) (ps.map (point val))) ∧
      (∀ B, (∀ p ∈ ps, |val l.slope * val p.1| ≤ B) → |val l.yint - c| ≤ u * |c| + 1001 / 1000 * u * B) := by
  obtain ⟨l, ss, e, l1, m1, hs, hc, -⟩ := RepeatedMedian.compute2_ordered SIZE ps xr yr inner outer LEN hLEN hin hout hne (gaps_ne hval ps hps)
  obtain ⟨ms, k1, k2⟩ := exists_medians slopesFrom (ps.map (point val)) (slopesFrom_ne hps)
  rw [List.length_map] at k1
  obtain ⟨m, hm⟩ := exists_upperMedian ms (by apply List.ne_nil_of_length_pos; rw [k1]; exact List.length_pos_of_ne_nil hne)
  obtain ⟨c, hc'⟩ := exists_upperMedian (residuals (val l.slope) (ps.map (point val))) (by simpa [residuals] using hne)
  refine ⟨l, ms, m, c, e, k1, k2, hm, ?_, hc', ?_⟩
  · have := nested_error hval (TheilSen.from' ne' · ps) (slopesFrom · (ps.map (point val))) ps (by linarith) (by linarith)
      (fun p _ => slopesFrom_error h h0 hu hval p ps) ss l1 m1 ms k1 k2 hs hm
    simpa using this
  · intro B hB
    exact median_error hval h0 (by linarith) (residuals_error h h0 hu l.slope ps B hB) hc hc'

/-- **C76** (repeated medians, first estimator). The slope as before; the intercept additionally suffers from the products, which may be much larger than their difference. -/
theorem C76_repeated_median (SIZE : Nat) (ps : List (V × V)) (xr yr inner outer : List V) (LEN : Int) (hLEN : (ps.length : Int) = min LEN SIZE)
    (hin : inner.length = SIZE - 1) (hout : outer.length = SIZE) (hne : ps ≠ []) (hps : ∀ p ∈ ps.map (point val), ∃ q ∈ ps.map (point val), q.1 ≠ p.1) :
    ∃ l ms m cs c, RepeatedMedian.compute lt' ne' SIZE inner outer (ps.map Prod.fst ++ xr) (ps.map Prod.snd ++ yr) LEN = .ok l ∧
      ms.length = ps.length ∧ (∀ (i : ℕ) s p, ms[i]? = some s → (ps.map (point val))[i]? = some p → IsUpperMedian s (slopesFrom p (ps.map (point val)))) ∧
      IsUpperMedian m ms ∧ |val l.slope - m| ≤ 301 / 100 * u * |m| ∧
      cs.length = ps.length ∧ (∀ (i : ℕ) s p, cs[i]? = some s → (ps.map (point val))[i]? = some p → IsUpperMedian s (interceptsFrom p (ps.map (point val)))) ∧
      IsUpperMedian c cs ∧
      (∀ W, (∀ p ∈ ps, ∀ q ∈ ps, q.1 ≠ p.1 → |val q.1 * val p.2 / (val q.1 - val p.1)| ≤ W) → |val l.yint - c| ≤ 301 / 100 * u * |c| + 201 / 100 * u * W) := by
  obtain ⟨l, ss, cs', e, l1, m1, hs, l2, m2, hc, -⟩ := RepeatedMedian.compute_ordered SIZE ps xr yr inner outer LEN hLEN hin hout hne (gaps_ne hval ps hps)
  obtain ⟨ms, k1, k2⟩ := exists_medians slopesFrom (ps.map (point val)) (slopesFrom_ne hps)
  obtain ⟨cs, n1, n2⟩ := exists_medians interceptsFrom (ps.map (point val)) (interceptsFrom_ne hps)
  rw [List.length_map] at k1 n1
  obtain ⟨m, hm⟩ := exists_upperMedian ms (by apply List.ne_nil_of_length_pos; rw [k1]; exact List.length_pos_of_ne_nil hne)
  obtain ⟨c, hc'⟩ := exists_upperMedian cs (by apply List.ne_nil_of_length_pos; rw [n1]; exact List.length_pos_of_ne_nil hne)
  refine ⟨l, ms, m, cs, c, e, k1, k2, hm, ?_, n1, n2, hc', ?_⟩
  · have := nested_error hval (TheilSen.from' ne' · ps) (slopesFrom · (ps.map (point val))) ps (by linarith) (by linarith)
      (fun p _ => slopesFrom_error h h0 hu hval p ps) ss l1 m1 ms k1 k2 hs hm
    simpa using this
  · intro W hW
    refine nested_error hval (RepeatedMedian.from' ne' RepeatedMedian.interceptOf · ps) (interceptsFrom · (ps.map (point val))) ps (by linarith) (by linarith)
      (fun p hp => interceptsFrom_error h h0 hu hval p ps W fun q hq hne => ⟨hW p hp q hq hne, ?_⟩) cs' l2 m2 cs n1 n2 hc hc'
    have := hW q hq p hp hne.symm
    rwa [← abs_neg, ← div_neg, neg_sub] at this

omit h h0 hu hval in
theorem countP_all' (Q : V → Bool) (P : V × V → Bool) (ps : List (V × V)) :
    (TheilSen.all' ne' (ps.filter P)).countP Q ≤ (TheilSen.all' ne' ps).countP Q := by
  induction ps with
  | nil => simp
  | cons p ps ih =>
    rw [List.filter_cons]
    split
    · simp only [TheilSen.all', List.countP_append]
      have : (TheilSen.from' ne' p (ps.filter P)).countP Q ≤ (TheilSen.from' ne' p ps).countP Q := by
        unfold TheilSen.from'
        exact ((List.filter_sublist.filter _).map _).countP_le
      omega
    · simp only [TheilSen.all', List.countP_append]; omega

/-- How far a slope may be off. -/
theorem near_slope_error {m c ε X d : ℝ} (hd : 0 < d) {ps : List (V × V)} (hg : NearLine val m c ε X d ps) (p q : V × V) (hp : p ∈ ps) (hq : q ∈ ps)
    (hne : q.1 ≠ p.1) : |val ((q.2 - p.2) / (q.1 - p.1)) - m| ≤ 2 * ε / d + 301 / 100 * u * (|m| + 2 * ε / d) := by
  have := slope_error h h0 hu hval p q hne
  rw [add_zero] at this
  exact near_slope_rounded h0 this (near_slope hd (hg.dist p hp) (hg.dist q hq) (hg.gap p hp q hq (hval.injective.ne hne)))

theorem mem_all' {m c ε X d : ℝ} (hd : 0 < d) {ps : List (V × V)} (hg : NearLine val m c ε X d ps) :
    ∀ s ∈ TheilSen.all' ne' ps, |val s - m| ≤ 2 * ε / d + 301 / 100 * u * (|m| + 2 * ε / d) := by
  induction ps with
  | nil => simp [TheilSen.all']
  | cons p ps ih =>
    intro s hs
    rw [TheilSen.all', List.mem_append] at hs
    rcases hs with hs | hs
    · simp only [TheilSen.from', List.mem_map, List.mem_filter, decide_eq_true_eq] at hs
      obtain ⟨q, ⟨hq, hne⟩, rfl⟩ := hs
      exact near_slope_error h h0 hu hval hd hg p q (by simp) (by simp [hq]) hne
    · exact ih ⟨fun p hp => hg.dist p (by simp [hp]), fun p hp => hg.width p (by simp [hp]), fun p hp q hq => hg.gap p (by simp [hp]) q (by simp [hq])⟩ s hs

omit h h0 hu in
/-- More than half of a list near a number: so is the median. -/
theorem near_median (x E : ℝ) {L : List V} {v : V} (hv : IsUpperMedian v L) (hc : L.length < 2 * L.countP (fun w => decide (|val w - x| ≤ E))) :
    |val v - x| ≤ E := by
  have := hv.interval hval.monotone (x - E) (x + E) (by
    refine hc.trans_le (Nat.mul_le_mul_left 2 (List.countP_mono_left fun w _ hw => ?_))
    simp only [decide_eq_true_eq, abs_le] at hw ⊢
    constructor <;> linarith)
  rw [abs_le]
  constructor <;> linarith [this.1, this.2]

omit hval in
theorem countP_residuals {m c ε X d E : ℝ} {ps : List (V × V)} (good : V × V → Bool) (hg : NearLine val m c ε X d (ps.filter good)) (s : V) (hs : |val s - m| ≤ E) :
    ps.countP good ≤ (ps.map fun p => p.2 - s * p.1).countP
      (fun w => decide (|val w - c| ≤ u * |c| + 1001 / 1000 * u * |m| * X + 101 / 100 * (ε + E * X))) := by
  rw [List.countP_map]
  apply List.countP_mono_left
  intro p hp hgp
  have hmem : p ∈ ps.filter good := List.mem_filter.2 ⟨hp, hgp⟩
  simp only [Function.comp, decide_eq_true_eq]
  exact near_residual hu h0 (hg.width p hmem) (hg.dist p hmem) hs (residual_error h h0 hu s p)

/-- **C76** (outliers, Theil–Sen). If more than half of the pairs and of the points are near a line, the result is near that line, whatever the others are. -/
theorem C76_theil_sen_robust (LEN_MAX : Nat) (h3 : 3 ≤ LEN_MAX) (ps : List (V × V)) (xr yr temp : List V) (hlen : ps.length ≤ LEN_MAX)
    (htemp : temp.length = TheilSen.size LEN_MAX) (m c ε X d : ℝ) (hd : 0 < d) (good : V × V → Bool) (hg : NearLine val m c ε X d (ps.filter good))
    (hpairs : (slopes (ps.map (point val))).length < 2 * (slopes ((ps.filter good).map (point val))).length) (hpts : ps.length < 2 * ps.countP good) :
    ∃ l, TheilSen.compute lt' ne' LEN_MAX temp (ps.map Prod.fst ++ xr) (ps.map Prod.snd ++ yr) ps.length = .ok l ∧
      ∃ E, E = 2 * ε / d + 301 / 100 * u * (|m| + 2 * ε / d) ∧ |val l.slope - m| ≤ E ∧
        |val l.yint - c| ≤ u * |c| + 1001 / 1000 * u * |m| * X + 101 / 100 * (ε + E * X) := by
  rw [← (slopes_error h h0 hu hval ps).length_eq, ← (slopes_error h h0 hu hval (ps.filter good)).length_eq] at hpairs
  have hcnt : (TheilSen.all' ne' (ps.filter good)).length ≤
      (TheilSen.all' ne' ps).countP (fun w => decide (|val w - m| ≤ 2 * ε / d + 301 / 100 * u * (|m| + 2 * ε / d))) := by
    rw [← List.countP_eq_length.2 fun s hs => decide_eq_true (mem_all' h h0 hu hval hd hg s hs)]
    exact countP_all' _ good ps
  have hle := List.countP_le_length (p := fun w => decide (|val w - m| ≤ 2 * ε / d + 301 / 100 * u * (|m| + 2 * ε / d))) (l := TheilSen.all' ne' ps)
  obtain ⟨l, e, m1, m2, -⟩ := TheilSen.compute_ordered LEN_MAX h3 ps xr yr temp hlen htemp (by apply List.ne_nil_of_length_pos; omega) (all'_size ps hlen)
  have hs := near_median hval m (2 * ε / d + 301 / 100 * u * (|m| + 2 * ε / d)) m1 (by omega)
  refine ⟨l, e, _, rfl, hs, near_median hval c _ m2 ?_⟩
  rw [List.length_map]
  have := countP_residuals h h0 hu good hg l.slope hs
  omega

omit h h0 hu hval in
/-- Among points with distinct abscissae at most one is above or below `p`. -/
theorem filter_distinct (gs : List (V × V)) (hd : (gs.map Prod.fst).Nodup) (p : V × V) :
    gs.length ≤ (gs.filter (fun q => decide (q.1 ≠ p.1))).length + 1 := by
  have h1 := List.nodup_iff_count_le_one.1 hd p.1
  rw [List.count_eq_countP, List.countP_map] at h1
  have h2 := List.length_eq_countP_add_countP (l := gs) (p := (fun q => decide (q.1 ≠ p.1)))
  rw [← List.countP_eq_length_filter]
  have h3 : List.countP (fun a => decide ¬decide (a.1 ≠ p.1) = true) gs =
      List.countP ((fun x => x == p.1) ∘ Prod.fst) gs := by
    apply List.countP_congr
    intro q _
    simp
  simp only [h3] at h2
  omega

omit h h0 hu in
/-- The nested medians with outliers, for slopes as well as intercepts. -/
theorem nested_robust (f : V → V → V → V → V) (x E : ℝ) (ps : List (V × V)) (good : V × V → Bool) (hd : ((ps.filter good).map Prod.fst).Nodup)
    (hb : 2 * (ps.countP (fun p => !good p) + 1) ≤ ps.length)
    (hf : ∀ p ∈ ps.filter good, ∀ q ∈ ps.filter good, q.1 ≠ p.1 → |val (f q.2 p.2 q.1 p.1) - x| ≤ E)
    (ss : List V) (hl : ss.length = ps.length) (hss : RepeatedMedian.Medians ne' f ps ss) {v : V} (hv : IsUpperMedian v ss) : |val v - x| ≤ E := by
  have hsum : ps.countP good + ps.countP (fun p => !good p) = ps.length := by
    have := List.length_eq_countP_add_countP (l := ps) (p := good)
    simp only [Bool.not_eq_true] at this
    rw [this]; congr 2; funext p; cases good p <;> rfl
  refine near_median hval x E hv ?_
  have key : ∀ (i : ℕ) s p, ss[i]? = some s → ps[i]? = some p → good p = true → |val s - x| ≤ E := by
    intro i s p hs hp hgp
    have hmem := List.mem_of_getElem? hp
    refine near_median hval x E (hss i s p hs hp) ?_
    have h1 := filter_distinct _ hd p
    rw [← List.countP_eq_length_filter] at h1
    have h2 : (RepeatedMedian.from' ne' f p (ps.filter good)).length ≤ (RepeatedMedian.from' ne' f p ps).countP (fun w => decide (|val w - x| ≤ E)) := by
      rw [← List.countP_eq_length.2 fun s hs => ?_]
      · exact ((List.filter_sublist.filter _).map _).countP_le
      · simp only [RepeatedMedian.from', List.mem_map] at hs
        obtain ⟨q, hq, rfl⟩ := hs
        obtain ⟨hq1, hq2⟩ := List.mem_filter.1 hq
        exact decide_eq_true (hf p (List.mem_filter.2 ⟨hmem, hgp⟩) q hq1 (by simpa using hq2))
    have h3 : (RepeatedMedian.from' ne' f p (ps.filter good)).length = ((ps.filter good).filter (fun q => decide (q.1 ≠ p.1))).length := by
      rw [RepeatedMedian.from', List.length_map]
    have h4 := RepeatedMedian.from'_length ne' (by simp) f p ps hmem
    omega
  have : ps.countP good ≤ ss.countP (fun w => decide (|val w - x| ≤ E)) := by
    clear hv hss hsum hd hb hf
    induction ps generalizing ss with
    | nil => simp
    | cons p ps ih =>
      cases ss with
      | nil => simp at hl
      | cons s ss =>
        have := ih ss (by simpa using hl) fun i s' p' h1 h2 => key (i + 1) s' p' (by simpa using h1) (by simpa using h2)
        rw [List.countP_cons, List.countP_cons]
        by_cases hp : good p = true
        · have := key 0 s p (by simp) (by simp) hp
          simp [hp, this]
          omega
        · simp [hp]; omega
  omega

omit h h0 hu hval in
theorem robust_gaps (ps : List (V × V)) (good : V × V → Bool) (hd : ((ps.filter good).map Prod.fst).Nodup)
    (hb : 2 * (ps.countP (fun p => !good p) + 1) ≤ ps.length) : ps ≠ [] ∧ (∀ p ∈ ps, ∃ q ∈ ps, q.1 ≠ p.1) ∧ ps.length < 2 * ps.countP good := by
  have hsum : ps.countP good + ps.countP (fun p => !good p) = ps.length := by
    have := List.length_eq_countP_add_countP (l := ps) (p := good)
    simp only [Bool.not_eq_true] at this
    rw [this]; congr 2; funext p; cases good p <;> rfl
  refine ⟨?_, ?_, by omega⟩
  · rintro rfl; simp at hb
  · intro p hp
    have h1 := filter_distinct _ hd p
    rw [← List.countP_eq_length_filter] at h1
    by_cases hn : 2 ≤ ps.countP good
    · have hpos : 0 < ((ps.filter good).filter (fun q => decide (q.1 ≠ p.1))).length := by omega
      obtain ⟨q, hq⟩ := List.exists_mem_of_length_pos hpos
      obtain ⟨hq1, hq2⟩ := List.mem_filter.1 hq
      exact ⟨q, (List.mem_filter.1 hq1).1, by simpa using hq2⟩
    · have : 0 < ps.length := List.length_pos_of_mem hp
      omega

/-- **C76** (outliers, second repeated median estimator). With at most `⌊n/2⌋ - 1` outliers among the `n` points the result is near the line the others are near to. -/
theorem C76_repeated_median2_robust (SIZE : Nat) (ps : List (V × V)) (xr yr inner outer : List V) (LEN : Int) (hLEN : (ps.length : Int) = min LEN SIZE)
    (hin : inner.length = SIZE - 1) (hout : outer.length = SIZE) (m c ε X d : ℝ) (hd : 0 < d) (good : V × V → Bool)
    (hg : NearLine val m c ε X d (ps.filter good)) (hn : ((ps.filter good).map Prod.fst).Nodup) (hb : 2 * (ps.countP (fun p => !good p) + 1) ≤ ps.length) :
    ∃ l, RepeatedMedian.compute2 lt' ne' SIZE inner outer (ps.map Prod.fst ++ xr) (ps.map Prod.snd ++ yr) LEN = .ok l ∧
      ∃ E, E = 2 * ε / d + 301 / 100 * u * (|m| + 2 * ε / d) ∧ |val l.slope - m| ≤ E ∧
        |val l.yint - c| ≤ u * |c| + 1001 / 1000 * u * |m| * X + 101 / 100 * (ε + E * X) := by
  obtain ⟨g1, g2, g3⟩ := robust_gaps ps good hn hb
  obtain ⟨l, ss, e, l1, m1, hs, hc, -⟩ := RepeatedMedian.compute2_ordered SIZE ps xr yr inner outer LEN hLEN hin hout g1 g2
  have hs' := nested_robust hval RepeatedMedian.slopeOf m _ ps good hn hb (fun p hp q hq hne => near_slope_error h h0 hu hval hd hg p q hp hq hne) ss l1 m1 hs
  refine ⟨l, e, _, rfl, hs', near_median hval c _ hc ?_⟩
  rw [List.length_map]
  have := countP_residuals h h0 hu good hg l.slope hs'
  omega

/-- **C76** (outliers, first repeated median estimator). The same, but the intercept is worse by the ratio of the distance to the origin and the gaps. -/
theorem C76_repeated_median_robust (SIZE : Nat) (ps : List (V × V)) (xr yr inner outer : List V) (LEN : Int) (hLEN : (ps.length : Int) = min LEN SIZE)
    (hin : inner.length = SIZE - 1) (hout : outer.length = SIZE) (m c ε X Y d : ℝ) (hd : 0 < d) (good : V × V → Bool)
    (hg : NearLine val m c ε X d (ps.filter good)) (hY : ∀ p ∈ ps.filter good, |val p.2| ≤ Y) (hn : ((ps.filter good).map Prod.fst).Nodup)
    (hb : 2 * (ps.countP (fun p => !good p) + 1) ≤ ps.length) :
    ∃ l, RepeatedMedian.compute lt' ne' SIZE inner outer (ps.map Prod.fst ++ xr) (ps.map Prod.snd ++ yr) LEN = .ok l ∧
      |val l.slope - m| ≤ 2 * ε / d + 301 / 100 * u * (|m| + 2 * ε / d) ∧
      |val l.yint - c| ≤ 31 / 10 * u * |c| + 21 / 10 * (X / d) * (ε + u * Y) := by
  obtain ⟨g1, g2, -⟩ := robust_gaps ps good hn hb
  obtain ⟨l, ss, cs, e, l1, m1, hs, l2, m2, hc, -⟩ := RepeatedMedian.compute_ordered SIZE ps xr yr inner outer LEN hLEN hin hout g1 g2
  refine ⟨l, e, nested_robust hval RepeatedMedian.slopeOf m _ ps good hn hb (fun p hp q hq hne => near_slope_error h h0 hu hval hd hg p q hp hq hne) ss l1 m1 hs,
    nested_robust hval RepeatedMedian.interceptOf c _ ps good hn hb (fun p hp q hq hne => ?_) cs l2 m2 hc⟩
  exact near_intercept hu h0 hd (hg.dist p hp) (hg.dist q hq) (hg.gap p hp q hq (hval.injective.ne hne)) (hg.width p hp) (hg.width q hq) (hY p hp) (hY q hq)
    (h.mul _ _) (h.mul _ _) (h.sub _ _) (h.sub _ _) (h.div _ _)

end Bounds

section Binary

theorem binary_strictMono (p : ℕ) : StrictMono fun a : Binary p => (a.val : ℝ) := fun a b hab => by
  have : a.val < b.val := hab
  show (a.val : ℝ) < (b.val : ℝ)
  exact_mod_cast this

/-- The data below as machine points. -/
def data (l : List (ℤ × ℤ)) : List (Binary 24 × Binary 24) := l.map fun q => ((q.1 : Binary 24), (q.2 : Binary 24))

/-- **C76** (far from the origin). Three points on the horizontal line `y = 517`, a million away from the origin, in single precision: the first repeated median estimator returns
the intercept 576, the second one and the Theil–Sen estimator return 517. -/
theorem C76_far :
    (RepeatedMedian.compute (fun a b : Binary 24 => decide (a < b)) (fun a b => decide (a ≠ b)) 3 [0, 0] [0, 0, 0]
      ((data [(1048581, 517), (1048582, 517), (1048583, 517)]).map Prod.fst) ((data [(1048581, 517), (1048582, 517), (1048583, 517)]).map Prod.snd) 3).map
        (fun l => (l.slope.val, l.yint.val)) = .ok (0, 576) ∧
    (RepeatedMedian.compute2 (fun a b : Binary 24 => decide (a < b)) (fun a b => decide (a ≠ b)) 3 [0, 0] [0, 0, 0]
      ((data [(1048581, 517), (1048582, 517), (1048583, 517)]).map Prod.fst) ((data [(1048581, 517), (1048582, 517), (1048583, 517)]).map Prod.snd) 3).map
        (fun l => (l.slope.val, l.yint.val)) = .ok (0, 517) ∧
    (TheilSen.compute (fun a b : Binary 24 => decide (a < b)) (fun a b => decide (a ≠ b)) 3 [0, 0, 0]
      ((data [(1048581, 517), (1048582, 517), (1048583, 517)]).map Prod.fst) ((data [(1048581, 517), (1048582, 517), (1048583, 517)]).map Prod.snd) 3).map
        (fun l => (l.slope.val, l.yint.val)) = .ok (0, 517) := by
  set_option maxRecDepth 100000 in decide +kernel

/-- Five points: four on the line `y = 1 + x/3`, and an outlier. -/
def five : List (Binary 24 × Binary 24) := data [(0, 1), (3, 2), (6, 1000), (9, 4), (12, 5)]

/-- Those on the line. -/
def low (p : Binary 24 × Binary 24) : Bool := decide (p.2.val ≤ 5)

theorem five_points : five.map (point fun a => (a.val : ℝ)) = [(0, 1), (3, 2), (6, 1000), (9, 4), (12, 5)] := by
  have hv : five.map (fun p => (p.1.val, p.2.val)) = [(0, 1), (3, 2), (6, 1000), (9, 4), (12, 5)] := by
    set_option maxRecDepth 100000 in decide +kernel
  have := congrArg (List.map fun q : ℚ × ℚ => ((q.1 : ℝ), (q.2 : ℝ))) hv
  show five.map (fun x => ((x.1.val : ℝ), (x.2.val : ℝ))) = _
  simpa [Function.comp_def] using this

theorem five_near : NearLine (fun a : Binary 24 => (a.val : ℝ)) (1 / 3) 1 0 12 3 (five.filter low) := by
  have hf : (five.filter low).map (fun p => (p.1.val, p.2.val)) = [(0, 1), (3, 2), (9, 4), (12, 5)] := by
    set_option maxRecDepth 100000 in decide +kernel
  have hmem : ∀ p ∈ five.filter low, (p.1.val = 0 ∧ p.2.val = 1) ∨ (p.1.val = 3 ∧ p.2.val = 2) ∨ (p.1.val = 9 ∧ p.2.val = 4) ∨ (p.1.val = 12 ∧ p.2.val = 5) := by
    intro p hp
    have : (p.1.val, p.2.val) ∈ [((0 : ℚ), (1 : ℚ)), (3, 2), (9, 4), (12, 5)] := by
      rw [← hf]; exact List.mem_map_of_mem hp
    simpa using this
  refine ⟨fun p hp => ?_, fun p hp => ?_, fun p hp q hq => ?_⟩
  · rcases hmem p hp with ⟨a, b⟩ | ⟨a, b⟩ | ⟨a, b⟩ | ⟨a, b⟩ <;> norm_num [a, b]
  · rcases hmem p hp with ⟨a, b⟩ | ⟨a, b⟩ | ⟨a, b⟩ | ⟨a, b⟩ <;> norm_num [a]
  · rcases hmem p hp with ⟨a, b⟩ | ⟨a, b⟩ | ⟨a, b⟩ | ⟨a, b⟩ <;> rcases hmem q hq with ⟨c, d⟩ | ⟨c, d⟩ | ⟨c, d⟩ | ⟨c, d⟩ <;> norm_num [a, c]

/-- The slope, which is not a machine number, is found up to rounding by all three estimators. -/
example : ∃ l, TheilSen.compute (fun a b : Binary 24 => decide (a < b)) (fun a b => decide (a ≠ b)) 5 (List.replicate 10 0)
      (five.map Prod.fst ++ []) (five.map Prod.snd ++ []) 5 = .ok l ∧ |(l.slope.val : ℝ) - 1 / 3| ≤ 302 / 100 * (1 / 2 ^ 24) * (1 / 3) := by
  obtain ⟨l, e, E, hE, hs, -⟩ := C76_theil_sen_robust (binary_roundedField 24) (by positivity) (by norm_num) (binary_strictMono 24) 5 (by norm_num) five [] []
    (List.replicate 10 0) (by decide) (by simp [TheilSen.size]) (1 / 3) 1 0 12 3 (by norm_num) low five_near
    (by
      have hf : (five.filter low).map (point fun a : Binary 24 => (a.val : ℝ)) = [(0, 1), (3, 2), (9, 4), (12, 5)] := by
        have hv : (five.filter low).map (fun p => (p.1.val, p.2.val)) = [(0, 1), (3, 2), (9, 4), (12, 5)] := by
          set_option maxRecDepth 100000 in decide +kernel
        have := congrArg (List.map fun q : ℚ × ℚ => ((q.1 : ℝ), (q.2 : ℝ))) hv
        show (five.filter low).map (fun x => ((x.1.val : ℝ), (x.2.val : ℝ))) = _
        simpa [Function.comp_def] using this
      rw [hf, five_points]
      norm_num [slopes, slopesFrom, List.filter_cons])
    (by set_option maxRecDepth 100000 in decide +kernel)
  refine ⟨l, e, hs.trans ?_⟩
  rw [hE]
  norm_num

example : ∃ l, RepeatedMedian.compute2 (fun a b : Binary 24 => decide (a < b)) (fun a b => decide (a ≠ b)) 5 (List.replicate 4 0) (List.replicate 5 0)
      (five.map Prod.fst ++ []) (five.map Prod.snd ++ []) 5 = .ok l ∧ |(l.slope.val : ℝ) - 1 / 3| ≤ 302 / 100 * (1 / 2 ^ 24) * (1 / 3) := by
  obtain ⟨l, e, E, hE, hs, -⟩ := C76_repeated_median2_robust (binary_roundedField 24) (by positivity) (by norm_num) (binary_strictMono 24) 5 five [] []
    (List.replicate 4 0) (List.replicate 5 0) 5 (by decide) (by simp) (by simp) (1 / 3) 1 0 12 3 (by norm_num) low five_near
    (by set_option maxRecDepth 100000 in decide +kernel) (by set_option maxRecDepth 100000 in decide +kernel)
  refine ⟨l, e, hs.trans ?_⟩
  rw [hE]
  norm_num

/-- The hypotheses of the statements for any data. -/
example : slopes (five.map (point fun a => (a.val : ℝ))) ≠ [] ∧
    ∀ p ∈ five.map (point fun a : Binary 24 => (a.val : ℝ)), ∃ q ∈ five.map (point fun a : Binary 24 => (a.val : ℝ)), q.1 ≠ p.1 := by
  rw [five_points]
  constructor
  · norm_num [slopes, slopesFrom, List.filter_cons]
    exact List.cons_ne_nil _ _
  · intro p hp
    by_cases h : p.1 = 0
    · exact ⟨(3, 2), by simp, by rw [h]; norm_num⟩
    · exact ⟨(0, 1), by simp, fun e => h e.symm⟩

end Binary

end EstimatorError
end DSP
