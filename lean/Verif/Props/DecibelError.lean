import Verif.Model.ElementaryRounded
import Verif.Props.Decibel
import Verif.Props.DesignBinary
import Verif.Props.EstimatorError
import Verif.Props.PhasorError

/-!
# C77: decibels in floating point
-/

set_option linter.unusedSectionVars false

namespace DSP
open Spec

namespace Elementary
open UnitCircle

/-- The constants are as good as rounding twice makes them, and one is one. -/
structure DecibelConsts.Rounded {V : Type} (c : DecibelConsts V) (val : V → ℝ) (u : ℝ) : Prop where
  scale : |val c.scale - Decibel.scale| ≤ 2 * u * |Decibel.scale|
  inv1 : val c.inv1 = 1
  inv3 : |val c.inv3 - 1 / 3| ≤ 2 * u * |(1 / 3 : ℝ)|
  inv5 : |val c.inv5 - 1 / 5| ≤ 2 * u * |(1 / 5 : ℝ)|
  inv7 : |val c.inv7 - 1 / 7| ≤ 2 * u * |(1 / 7 : ℝ)|
  inv9 : |val c.inv9 - 1 / 9| ≤ 2 * u * |(1 / 9 : ℝ)|
  inv11 : |val c.inv11 - 1 / 11| ≤ 2 * u * |(1 / 11 : ℝ)|
  inv13 : |val c.inv13 - 1 / 13| ≤ 2 * u * |(1 / 13 : ℝ)|

/-! ### Facts about real numbers -/

/-- The square root halves a relative error. -/
theorem half_error {δ u : ℝ} (hu : u ≤ 1 / 1000) (h : |δ| ≤ 2.01 * u) : ∃ η, |η| ≤ 1.008 * u ∧ √(1 + δ) = 1 + η := by
  rw [abs_le] at h
  refine ⟨√(1 + δ) - 1, ?_, by ring⟩
  have hp : 0 ≤ 1 + δ := by linarith
  have hs := Real.mul_self_sqrt hp
  have h0 := Real.sqrt_nonneg (1 + δ)
  have h1 : 0.997 ≤ √(1 + δ) := Real.le_sqrt_of_sq_le (by linarith)
  rw [abs_le]
  constructor <;> nlinarith

/-- One rounded root of a number with a relative error. -/
theorem root_step {R X Y u : ℝ} (h0 : 0 ≤ u) (hu : u ≤ 1 / 1000) (hR : 0 ≤ R) (hX : ∃ δ, |δ| ≤ 2.01 * u ∧ X = R * (1 + δ)) (hY : |Y - √X| ≤ u * √X) :
    ∃ δ, |δ| ≤ 2.01 * u ∧ Y = √R * (1 + δ) := by
  obtain ⟨δ, hδ, rfl⟩ := hX
  obtain ⟨η, hη, e⟩ := half_error hu hδ
  rw [Real.sqrt_mul hR, e] at hY
  have hn : 0 ≤ √R * (1 + η) := by rw [← e]; positivity
  obtain ⟨ε, hε, rfl⟩ := EstimatorError.factor (x := √R * (1 + η)) h0 (by rw [abs_of_nonneg hn]; exact hY)
  refine ⟨η + ε + η * ε, ?_, by ring⟩
  have h1 : |η * ε| ≤ 1.008 * u * u := by rw [abs_mul]; gcongr
  have h2 := abs_add_le (η + ε) (η * ε)
  have h3 := abs_add_le η ε
  nlinarith

/-- The quotient of a number with a relative error. -/
theorem quotient_step {R X N D q u : ℝ} (h0 : 0 ≤ u) (hu : u ≤ 1 / 1000) (hR : 0 < R) (hX : ∃ δ, |δ| ≤ 2.01 * u ∧ X = R * (1 + δ)) (hN : |N - (X - 1)| ≤ u * |X - 1|)
    (hD : |D - (X + 1)| ≤ u * |X + 1|) (hq : D ≠ 0 → |q - N / D| ≤ u * |N / D|) : |q - (R - 1) / (R + 1)| ≤ 1.012 * u + 3.01 * u * |(R - 1) / (R + 1)| := by
  obtain ⟨δ, hδ, rfl⟩ := hX
  have hδ' := abs_le.mp hδ
  have hXp : 0 < R * (1 + δ) := mul_pos hR (by linarith)
  have h1 := EstimatorError.quotient hu h0 (by linarith) hN hD hq
  have e : (R * (1 + δ) - 1) / (R * (1 + δ) + 1) - (R - 1) / (R + 1) = 2 * R * δ / ((R * (1 + δ) + 1) * (R + 1)) := by
    field_simp
    ring
  have h2 : |(R * (1 + δ) - 1) / (R * (1 + δ) + 1) - (R - 1) / (R + 1)| ≤ 1.008 * u := by
    rw [e, abs_div, abs_mul, abs_of_pos (by linarith : 0 < 2 * R), abs_of_pos (by positivity : 0 < (R * (1 + δ) + 1) * (R + 1)), div_le_iff₀ (by positivity)]
    have a1 : 0.997 * (R + 1) ≤ R * (1 + δ) + 1 := by nlinarith
    have a2 : 0.997 * (R + 1) * (R + 1) ≤ (R * (1 + δ) + 1) * (R + 1) := by gcongr
    have a3 : 4 * R ≤ (R + 1) * (R + 1) := by nlinarith [sq_nonneg (R - 1)]
    have a4 : 2 * R * |δ| ≤ 2 * R * (2.01 * u) := by gcongr
    have a5 : 1.008 * u * (0.997 * (R + 1) * (R + 1)) ≤ 1.008 * u * ((R * (1 + δ) + 1) * (R + 1)) := by gcongr
    have a6 : u * (4 * R) ≤ u * ((R + 1) * (R + 1)) := by gcongr
    nlinarith
  set T := (R * (1 + δ) - 1) / (R * (1 + δ) + 1)
  set t := (R - 1) / (R + 1)
  have h3 : |T| ≤ |t| + 1.008 * u := by
    have := abs_sub_abs_le_abs_sub T t
    linarith
  have h4 : |q - t| ≤ |q - T| + |T - t| := by
    have := abs_add_le (q - T) (T - t)
    rwa [sub_add_sub_cancel] at this
  have h5 : 301 / 100 * u * |T| ≤ 301 / 100 * u * (|t| + 1.008 * u) := by gcongr
  nlinarith

/-- The sum over `x`. -/
noncomputable def W (y : ℝ) : ℝ := y * (y * (y * (y * (y * (y * (1 / 13) + 1 / 11) + 1 / 9) + 1 / 7) + 1 / 5) + 1 / 3) + 1

theorem S_eq (x : ℝ) : Decibel.S x = x * W (x * x) := by
  simp only [Decibel.S, W, Finset.sum_range_succ, Finset.sum_range_zero]
  push_cast
  ring

theorem W_ge (y : ℝ) (h : 0 ≤ y) : 1 ≤ W y := by
  unfold W
  have : 0 ≤ y * (y * (y * (y * (y * (y * (1 / 13) + 1 / 11) + 1 / 9) + 1 / 7) + 1 / 5) + 1 / 3) := by positivity
  linarith

theorem abs_le_S (x : ℝ) : |x| ≤ |Decibel.S x| := by
  rw [S_eq, abs_mul]
  have h := W_ge (x * x) (mul_self_nonneg x)
  rw [abs_of_nonneg (by linarith : 0 ≤ W (x * x))]
  exact le_mul_of_one_le_right (abs_nonneg x) h

theorem S_lipschitz (a b : ℝ) (ha : |a| ≤ 0.05) (hb : |b| ≤ 0.05) : |Decibel.S a - Decibel.S b| ≤ 1.0026 * |a - b| := by
  rw [Decibel.S, Decibel.S, ← Finset.sum_sub_distrib]
  have hm : max |a| |b| ≤ 0.05 := max_le ha hb
  have hm0 : 0 ≤ max |a| |b| := (abs_nonneg a).trans (le_max_left _ _)
  have key : ∀ k : ℕ, |a ^ (2 * k + 1) / (2 * k + 1) - b ^ (2 * k + 1) / (2 * k + 1)| ≤ |a - b| * 0.05 ^ (2 * k) := by
    intro k
    have h := abs_pow_sub_pow_le (a := a) (b := b) (n := 2 * k + 1)
    have hk : (0 : ℝ) < 2 * k + 1 := by positivity
    rw [← sub_div, abs_div, abs_of_pos hk, div_le_iff₀ hk]
    refine h.trans ?_
    rw [Nat.add_sub_cancel]
    push_cast
    have : max |a| |b| ^ (2 * k) ≤ 0.05 ^ (2 * k) := pow_le_pow_left₀ hm0 hm _
    have h2 : |a - b| * (2 * k + 1) * max |a| |b| ^ (2 * k) ≤ |a - b| * (2 * k + 1) * 0.05 ^ (2 * k) := by gcongr
    linarith
  refine (Finset.abs_sum_le_sum_abs _ _).trans ((Finset.sum_le_sum fun k _ => key k).trans ?_)
  rw [← Finset.mul_sum, mul_comm]
  refine mul_le_mul_of_nonneg_right ?_ (abs_nonneg _)
  simp only [Finset.sum_range_succ, Finset.sum_range_zero]
  norm_num

/-- Four relative errors. -/
theorem compound {A σ ε w η u : ℝ} (h0 : 0 ≤ u) (hu : u ≤ 1 / 1000) (hσ : |σ| ≤ 2 * u) (hε : |ε| ≤ u) (hw : |w| ≤ 1.007 * u) (hη : |η| ≤ u) :
    |A * (1 + σ) * (1 + ε) * (1 + w) * (1 + η) - A| ≤ 5.03 * u * |A| := by
  have one : ∀ {a b A B : ℝ}, 0 ≤ A → |a| ≤ A * u → |b| ≤ B * u → ∃ c, |c| ≤ (A + B + A * B * u) * u ∧ (1 + a) * (1 + b) = 1 + c := by
    intro a b A B hA ha hb
    refine ⟨a + b + a * b, ?_, by ring⟩
    have h1 : |a * b| ≤ A * u * (B * u) := by rw [abs_mul]; gcongr
    have h2 := abs_add_le (a + b) (a * b)
    have h3 := abs_add_le a b
    nlinarith
  obtain ⟨c1, k1, e1⟩ := one (A := 2) (B := 1) (by norm_num) hσ (by linarith : |ε| ≤ 1 * u)
  obtain ⟨c2, k2, e2⟩ := one (A := 1.007) (B := 1) (by norm_num) hw (by linarith : |η| ≤ 1 * u)
  have k1' : |c1| ≤ 3.002 * u := by nlinarith
  have k2' : |c2| ≤ 2.0081 * u := by nlinarith
  obtain ⟨c3, k3, e3⟩ := one (A := 3.002) (B := 2.0081) (by norm_num) k1' k2'
  have k3' : |c3| ≤ 5.03 * u := by nlinarith
  have e : A * (1 + σ) * (1 + ε) * (1 + w) * (1 + η) - A = c3 * A := by
    rw [show A * (1 + σ) * (1 + ε) * (1 + w) * (1 + η) = A * (((1 + σ) * (1 + ε)) * ((1 + w) * (1 + η))) by ring, e1, e2, e3]
    ring
  rw [e, abs_mul]
  gcongr

section
variable {V : Type} [Zero V] [Add V] [Sub V] [Mul V] [IntCast V] [Neg V] [Div V] {val : V → ℝ} {u : ℝ} (hR : RoundedField V val u) (hu0 : 0 ≤ u) (hu : u ≤ 1 / 1000)

include hR hu0 hu

/-- Ten rounded roots. -/
theorem roots_error (sqrt : V → V) (hq : RoundedSqrt val u sqrt) (v : V) (h : 0 ≤ val v) : ∃ δ, |δ| ≤ 2.01 * u ∧ val (roots sqrt v) = Decibel.root (val v) * (1 + δ) := by
  have key : ∀ (l : List ℕ) (x : V) (y : ℝ), 0 ≤ y → (∃ δ, |δ| ≤ 2.01 * u ∧ val x = y * (1 + δ)) →
      ∃ δ, |δ| ≤ 2.01 * u ∧ val (l.foldl (fun x _ => sqrt x) x) = l.foldl (fun x _ => √x) y * (1 + δ) := by
    intro l
    induction l with
    | nil => exact fun x y _ h => h
    | cons a l ih =>
      intro x y hy hx
      refine ih _ _ (Real.sqrt_nonneg y) (root_step hu0 hu hy hx (hq x ?_))
      obtain ⟨δ, hδ, e⟩ := hx
      rw [e]
      have := (abs_le.mp hδ).1
      exact mul_nonneg hy (by linarith)
  exact key _ v (val v) h ⟨0, by simp; linarith, by ring⟩

/-- The quotient. -/
theorem quotient_error (x : V) (R : ℝ) (h : 0 < R) (hx : ∃ δ, |δ| ≤ 2.01 * u ∧ val x = R * (1 + δ)) :
    |val (quotient x) - (R - 1) / (R + 1)| ≤ 1.012 * u + 3.01 * u * |(R - 1) / (R + 1)| := by
  have hN := hR.sub x ((1 : ℤ) : V)
  have hD := hR.add x ((1 : ℤ) : V)
  rw [hR.one] at hN hD
  exact quotient_step hu0 hu h hx hN hD (hR.div _ _)

/-- The sum. -/
theorem series_error {c : DecibelConsts V} (hc : c.Rounded val u) (t : V) (ht : |val t| ≤ 0.05) : ∃ w, |w| ≤ 1.007 * u ∧ val (series c (t * t)) = W (val t * val t) * (1 + w) := by
  have o0 : Off val u (val t) t 0.05 0 := ⟨ht, by simp⟩
  have xx : Off val u (val t * val t) (t * t) 0.0025 0.0026 := by
    have := o0.mul hR hu0 hu o0 (E := 0.0026) (by norm_num) (by norm_num) (by norm_num)
    exact ⟨this.1.trans (by norm_num), this.2⟩
  have step : ∀ {y k : ℝ} {b d : V}, Off val u y b 0.34 1.1 → |k| ≤ 0.3334 → |val d - k| ≤ 2 * u * |k| → Off val u (val t * val t * y + k) (t * t * b + d) 0.34 1.1 := by
    intro y k b d hy hk hd
    have m := xx.mul hR hu0 hu hy (E := 0.005) (by norm_num) (by norm_num) (by norm_num)
    have o : Off val u k d 0.3334 0.6668 := ⟨hk, hd.trans (by nlinarith)⟩
    refine m.add hR hu0 hu o (by norm_num) (by norm_num) ?_ (by norm_num)
    have h1 := abs_add_le (val t * val t * y) k
    have h2 := m.1
    linarith
  have s13 : Off val u (1 / 13) c.inv13 0.34 1.1 := by
    refine ⟨by norm_num [abs_of_pos], hc.inv13.trans ?_⟩
    rw [abs_of_pos (by norm_num)]
    linarith
  have s11 := step s13 (by norm_num [abs_of_pos]) hc.inv11
  have s9 := step s11 (by norm_num [abs_of_pos]) hc.inv9
  have s7 := step s9 (by norm_num [abs_of_pos]) hc.inv7
  have s5 := step s7 (by norm_num [abs_of_pos]) hc.inv5
  have s3 := step s5 (by norm_num [abs_of_pos]) hc.inv3
  have m := xx.mul hR hu0 hu s3 (E := 0.005) (by norm_num) (by norm_num) (by norm_num)
  have one : Off val u 1 c.inv1 1 0 := ⟨by norm_num, by rw [hc.inv1]; norm_num⟩
  have r := m.add hR hu0 hu one (Z := 1.001) (E := 1.007) (by norm_num) (by norm_num) (by
    have := abs_add_le (val t * val t * (val t * val t * (val t * val t * (val t * val t * (val t * val t * (val t * val t * (1 / 13) + 1 / 11) + 1 / 9) + 1 / 7) + 1 / 5) + 1 / 3)) 1
    have := m.1
    norm_num at *
    linarith) (by norm_num)
  have hW := W_ge (val t * val t) (mul_self_nonneg _)
  refine EstimatorError.factor (x := W (val t * val t)) (x' := val (series c (t * t))) (by linarith) (r.2.trans ?_)
  rw [abs_of_nonneg (by linarith : 0 ≤ W (val t * val t))]
  nlinarith

/-- The result in terms of the rounded quotient. -/
theorem scaled {c : DecibelConsts V} (hc : c.Rounded val u) (t : V) (ht : |val t| ≤ 0.05) :
    |val (c.scale * t * series c (t * t)) - Decibel.scale * Decibel.S (val t)| ≤ 5.03 * u * |Decibel.scale * Decibel.S (val t)| := by
  obtain ⟨σ, hσ, eσ⟩ := EstimatorError.factor (by linarith) hc.scale
  obtain ⟨ε, hε, eε⟩ := EstimatorError.factor hu0 (hR.mul c.scale t)
  obtain ⟨w, hw, ew⟩ := series_error hR hu0 hu hc t ht
  obtain ⟨η, hη, eη⟩ := EstimatorError.factor hu0 (hR.mul (c.scale * t) (series c (t * t)))
  have := compound (A := Decibel.scale * Decibel.S (val t)) hu0 hu hσ hε hw hη
  rw [eη, eε, ew, eσ]
  rw [S_eq] at this ⊢
  refine le_trans (le_of_eq ?_) this
  congr 1
  ring

/-- Against the same function of real numbers. -/
theorem decibel_error {c : DecibelConsts V} (hc : c.Rounded val u) (sqrt : V → V) (hq : RoundedSqrt val u sqrt) (v : V) (h : 0 < val v) (ht : |Decibel.ratio (val v)| ≤ 0.045) :
    |val (decibel sqrt c v) - Decibel.scale * Decibel.S (Decibel.ratio (val v))| ≤ 9073 * u + 8.07 * u * |Decibel.scale * Decibel.S (Decibel.ratio (val v))| := by
  have hr := roots_error hR hu0 hu sqrt hq v h.le
  have hx := quotient_error hR hu0 hu (roots sqrt v) (Decibel.root (val v)) (Decibel.root_pos _ h) hr
  rw [← Decibel.ratio] at hx
  set x := quotient (roots sqrt v) with ex
  set t := Decibel.ratio (val v)
  have hx5 : |val x| ≤ 0.05 := by
    have := abs_sub_abs_le_abs_sub (val x) t
    nlinarith
  have hs := scaled hR hu0 hu hc x hx5
  have hL := S_lipschitz (val x) t hx5 (ht.trans (by norm_num))
  have hle := abs_le_S t
  have hp := Decibel.scale_pos
  have hsc : Decibel.scale ≤ 8894.351 := by norm_num [Decibel.scale]
  show |val (c.scale * x * series c (x * x)) - _| ≤ _
  set D := Decibel.scale * Decibel.S t with eD
  have hD : |D| = Decibel.scale * |Decibel.S t| := by rw [eD, abs_mul, abs_of_pos hp]
  have k1 : |Decibel.scale * Decibel.S (val x) - D| ≤ 1.0147 * u * Decibel.scale + 3.018 * u * |D| := by
    rw [eD, ← mul_sub, abs_mul, abs_of_pos hp, ← eD, hD]
    have : |Decibel.S (val x) - Decibel.S t| ≤ 1.0147 * u + 3.018 * u * |Decibel.S t| := by nlinarith [abs_nonneg t, abs_nonneg (Decibel.S t)]
    nlinarith
  have k2 : |Decibel.scale * Decibel.S (val x)| ≤ |D| + (1.0147 * u * Decibel.scale + 3.018 * u * |D|) := by
    have := abs_sub_abs_le_abs_sub (Decibel.scale * Decibel.S (val x)) D
    linarith
  have k3 := abs_add_le (val (c.scale * x * series c (x * x)) - Decibel.scale * Decibel.S (val x)) (Decibel.scale * Decibel.S (val x) - D)
  rw [sub_add_sub_cancel] at k3
  have k4 : 5.03 * u * |Decibel.scale * Decibel.S (val x)| ≤ 5.03 * u * (|D| + (1.0147 * u * Decibel.scale + 3.018 * u * |D|)) := by gcongr
  have k5 : u * (u * Decibel.scale) ≤ 1 / 1000 * (u * Decibel.scale) := by gcongr
  have k6 : u * (u * |D|) ≤ 1 / 1000 * (u * |D|) := by gcongr
  have k7 : u * Decibel.scale ≤ u * 8894.351 := by gcongr
  have k8 : 0 ≤ u * |D| := by positivity
  linarith

/-- Up to 400 dB the result is off by at most about nine thousand units of roundoff of one decibel, and eight units of itself. -/
theorem C77_accurate {c : DecibelConsts V} (hc : c.Rounded val u) (sqrt : V → V) (hq : RoundedSqrt val u sqrt) (v : V) (h : 0 < val v) (hd : |10 * Real.logb 10 (val v)| ≤ 400) :
    |val (decibel sqrt c v) - 10 * Real.logb 10 (val v)| ≤ 9080 * u + 8.1 * u * |10 * Real.logb 10 (val v)| + 1 / 10 ^ 17 := by
  have ht : |Decibel.ratio (val v)| ≤ 0.045 := (Decibel.abs_ratio_le _ h).trans (by
    have := Decibel.log_of_decibels _ _ hd
    rw [div_le_iff₀ (by norm_num)]
    linarith)
  have h1 := decibel_error hR hu0 hu hc sqrt hq v h ht
  obtain ⟨d, e, h2, -⟩ := Decibel.C39_accuracy (val v) h
  rw [Decibel.decibel_eq] at e
  cases e
  have h3 := h2 hd
  set D := Decibel.scale * Decibel.S (Decibel.ratio (val v))
  set L := 10 * Real.logb 10 (val v)
  have h4 := abs_add_le (val (decibel sqrt c v) - D) (D - L)
  rw [sub_add_sub_cancel] at h4
  have h5 : |D| ≤ |L| + 1 / 10 ^ 17 := by
    have := abs_sub_abs_le_abs_sub D L
    linarith
  have h6 : 8.07 * u * |D| ≤ 8.07 * u * (|L| + 1 / 10 ^ 17) := by gcongr
  have h7 : 0 ≤ u * |L| := by positivity
  nlinarith

end

/-! ### Binary floating point -/

theorem binary_decibelConsts (l p : ℕ) [NeZero p] (hp : 4 ≤ p) (hl : p ≤ l) : (DecibelConsts.binary l p).Rounded (fun a => (a.val : ℝ)) (1 / 2 ^ p) := by
  have h16 : (2 : ℤ) ^ 4 ≤ 2 ^ p := pow_le_pow_right₀ (by norm_num) hp
  have hn : ∀ n : ℤ, 0 ≤ n → n < 16 → (((n : Binary p).val : ℚ) : ℝ) = n := by
    intro n h0 h1
    have := Binary.round_of_representable p (n : ℚ) ⟨n, 0, by rw [abs_of_nonneg h0]; omega, by simp⟩
    exact_mod_cast this
  have hu : (0 : ℝ) ≤ 1 / 2 ^ p := by positivity
  have inv : ∀ n : ℤ, 0 < n → n < 16 → |(((((1 : ℤ) : Binary p) / (n : Binary p)).val : ℚ) : ℝ) - 1 / n| ≤ 2 * (1 / 2 ^ p) * |(1 / n : ℝ)| := by
    intro n h0 h1
    have h := (binary_roundedField p).div ((1 : ℤ) : Binary p) (n : Binary p) (by rw [hn n h0.le h1]; exact_mod_cast h0.ne')
    rw [hn n h0.le h1, hn 1 (by norm_num) (by norm_num), Int.cast_one] at h
    refine h.trans ?_
    have : 0 ≤ 1 / 2 ^ p * |(1 / n : ℝ)| := by positivity
    linarith
  have one : (((((1 : ℤ) : Binary p) / ((1 : ℤ) : Binary p)).val : ℚ) : ℝ) = 1 := by
    have h1 : ((1 : ℤ) : Binary p).val = 1 := by
      have := hn 1 (by norm_num) (by norm_num)
      exact_mod_cast this
    have : (((1 : ℤ) : Binary p) / ((1 : ℤ) : Binary p)).val = 1 := by
      show Binary.round p (((1 : ℤ) : Binary p).val / ((1 : ℤ) : Binary p).val) = 1
      rw [h1, div_one]
      exact Binary.round_of_representable p 1 ⟨1, 0, by rw [abs_one]; omega, by simp⟩
    rw [this, Rat.cast_one]
  have sc : ((scaleDecimal : ℚ) : ℝ) = Decibel.scale := by norm_num [scaleDecimal, Decibel.scale]
  constructor
  · rw [← sc]
    exact literal_error l p hl scaleDecimal
  · exact one
  · have h := inv 3 (by norm_num) (by norm_num)
    rw [show (((3 : ℤ) : ℝ)) = 3 by norm_num] at h
    exact h
  · have h := inv 5 (by norm_num) (by norm_num)
    rw [show (((5 : ℤ) : ℝ)) = 5 by norm_num] at h
    exact h
  · have h := inv 7 (by norm_num) (by norm_num)
    rw [show (((7 : ℤ) : ℝ)) = 7 by norm_num] at h
    exact h
  · have h := inv 9 (by norm_num) (by norm_num)
    rw [show (((9 : ℤ) : ℝ)) = 9 by norm_num] at h
    exact h
  · have h := inv 11 (by norm_num) (by norm_num)
    rw [show (((11 : ℤ) : ℝ)) = 11 by norm_num] at h
    exact h
  · have h := inv 13 (by norm_num) (by norm_num)
    rw [show (((13 : ℤ) : ℝ)) = 13 by norm_num] at h
    exact h

theorem unit_le (p : ℕ) (hp : 10 ≤ p) : (1 : ℝ) / 2 ^ p ≤ 1 / 1000 := by
  calc (1 : ℝ) / 2 ^ p ≤ 1 / 2 ^ 10 := by gcongr; norm_num
    _ ≤ _ := by norm_num

/-- The accuracy for `p` bits: in single precision about half a millidecibel, whatever the level. -/
theorem C77_binary (l p : ℕ) [NeZero p] (hp : 10 ≤ p) (hl : p ≤ l) (v : Binary p) (h : 0 < v.val) (hd : |10 * Real.logb 10 (v.val : ℝ)| ≤ 400) :
    |((decibel Binary.sqrt (DecibelConsts.binary l p) v).val : ℝ) - 10 * Real.logb 10 (v.val : ℝ)| ≤ (9080 + 8.1 * |10 * Real.logb 10 (v.val : ℝ)|) / 2 ^ p + 1 / 10 ^ 17 := by
  have := C77_accurate (binary_roundedField p) (by positivity) (unit_le p hp) (binary_decibelConsts l p (by omega) hl) Binary.sqrt (NCO.binary_sqrt p) v (by exact_mod_cast h) hd
  refine this.trans (le_of_eq ?_)
  ring

/-- The smallest number above one. -/
theorem above_one (p : ℕ) (hp : 1 ≤ p) (a : ℚ) (h : Binary.Representable p a) (h1 : 1 < a) : 1 + 2 / 2 ^ p ≤ a := by
  obtain ⟨m, e, hm, rfl⟩ := h
  have hm' : (m : ℚ) < 2 ^ p := by exact_mod_cast (le_abs_self m).trans_lt hm
  have h2p : (0 : ℚ) < 2 ^ p := by positivity
  by_cases he : 1 - (p : ℤ) ≤ e
  · obtain ⟨k, hk⟩ := Int.eq_ofNat_of_zero_le (by omega : 0 ≤ e + p - 1)
    have e1 : (2 : ℚ) ^ e = 2 ^ k * 2 / 2 ^ p := by
      rw [show e = (k : ℤ) + 1 - p by omega, zpow_sub₀ (by norm_num), zpow_add₀ (by norm_num), zpow_natCast, zpow_natCast, zpow_one]
    obtain ⟨q, rfl⟩ := Nat.exists_eq_add_of_le hp
    rw [e1] at h1 ⊢
    have e2 : (m : ℚ) * (2 ^ k * 2 / 2 ^ (1 + q)) = ((m * 2 ^ k : ℤ) : ℚ) / 2 ^ q := by
      rw [pow_add]; push_cast; field_simp
    have e3 : (1 : ℚ) + 2 / 2 ^ (1 + q) = ((2 ^ q + 1 : ℤ) : ℚ) / 2 ^ q := by
      rw [pow_add]; push_cast; field_simp
    rw [e2] at h1 ⊢
    rw [e3]
    rw [one_lt_div (by positivity)] at h1
    have : (2 ^ q : ℤ) < m * 2 ^ k := by exact_mod_cast h1
    have h3 : (2 ^ q + 1 : ℤ) ≤ m * 2 ^ k := by omega
    have h4 : ((2 ^ q + 1 : ℤ) : ℚ) ≤ ((m * 2 ^ k : ℤ) : ℚ) := by exact_mod_cast h3
    gcongr
  · exfalso
    have : (2 : ℚ) ^ e ≤ 2 ^ (-(p : ℤ)) := zpow_le_zpow_right₀ (by norm_num) (by omega)
    rw [zpow_neg, zpow_natCast] at this
    have h5 : (m : ℚ) * 2 ^ e ≤ 2 ^ p * (2 ^ p)⁻¹ := mul_le_mul hm'.le this (by positivity) h2p.le
    rw [mul_inv_cancel₀ h2p.ne'] at h5
    linarith

/-- The largest number below one. -/
theorem below_one (p : ℕ) (hp : 1 ≤ p) (a : ℚ) (h : Binary.Representable p a) (h1 : a < 1) : a ≤ 1 - 1 / 2 ^ p := by
  obtain ⟨m, e, hm, rfl⟩ := h
  have hm' : (m : ℚ) < 2 ^ p := by exact_mod_cast (le_abs_self m).trans_lt hm
  have h2p : (0 : ℚ) < 2 ^ p := by positivity
  have h2 : (2 : ℚ) ≤ 2 ^ p := by
    calc (2 : ℚ) = 2 ^ 1 := by norm_num
      _ ≤ _ := pow_le_pow_right₀ (by norm_num) hp
  by_cases he : -(p : ℤ) ≤ e
  · obtain ⟨k, hk⟩ := Int.eq_ofNat_of_zero_le (by omega : 0 ≤ e + p)
    have e1 : (2 : ℚ) ^ e = 2 ^ k / 2 ^ p := by
      rw [show e = (k : ℤ) - p by omega, zpow_sub₀ (by norm_num), zpow_natCast, zpow_natCast]
    rw [e1] at h1 ⊢
    have e2 : (m : ℚ) * (2 ^ k / 2 ^ p) = ((m * 2 ^ k : ℤ) : ℚ) / 2 ^ p := by push_cast; field_simp
    have e3 : (1 : ℚ) - 1 / 2 ^ p = ((2 ^ p - 1 : ℤ) : ℚ) / 2 ^ p := by push_cast; field_simp
    rw [e2] at h1 ⊢
    rw [e3]
    rw [div_lt_one (by positivity)] at h1
    have : m * 2 ^ k < (2 ^ p : ℤ) := by exact_mod_cast h1
    have h3 : m * 2 ^ k ≤ (2 ^ p - 1 : ℤ) := by omega
    have h4 : ((m * 2 ^ k : ℤ) : ℚ) ≤ ((2 ^ p - 1 : ℤ) : ℚ) := by exact_mod_cast h3
    gcongr
  · have : (2 : ℚ) ^ e ≤ 2 ^ (-(p : ℤ) - 1) := zpow_le_zpow_right₀ (by norm_num) (by omega)
    rw [zpow_sub₀ (by norm_num), zpow_neg, zpow_natCast, zpow_one] at this
    have h5 : (m : ℚ) * 2 ^ e ≤ 2 ^ p * ((2 ^ p)⁻¹ / 2) := mul_le_mul hm'.le this (by positivity) h2p.le
    have h6 : (2 : ℚ) ^ p * ((2 ^ p)⁻¹ / 2) = 1 / 2 := by field_simp
    have h7 : (1 : ℚ) / 2 ^ p ≤ 1 / 2 := by gcongr
    linarith

/-- Roots that are one give zero. -/
theorem zero_of_one (l p : ℕ) [NeZero p] (v : Binary p) (h : (roots Binary.sqrt v).val = 1) : (decibel Binary.sqrt (DecibelConsts.binary l p) v).val = 0 := by
  have r0 : Binary.round p 0 = 0 := by simp [Binary.round, Binary.nearest]
  have h1 : ((1 : ℤ) : Binary p).val = 1 := by
    have := Binary.round_of_representable p ((1 : ℤ) : ℚ) ⟨1, 0, by rw [abs_one]; exact one_lt_pow₀ (by norm_num) (NeZero.ne p), by simp⟩
    exact_mod_cast this
  have hq : (quotient (roots Binary.sqrt v)).val = 0 := by
    show Binary.round p (Binary.round p ((roots Binary.sqrt v).val - ((1 : ℤ) : Binary p).val) / _) = 0
    rw [h, h1, sub_self, r0, zero_div, r0]
  show Binary.round p (Binary.round p (_ * (quotient (roots Binary.sqrt v)).val) * _) = 0
  rw [hq, mul_zero, r0, zero_mul, r0]

/-- There are no results between zero and half a thousandth: the result is zero, or at least `8800` units of roundoff, or at most `-4400` of them. -/
theorem C77_resolution (l p : ℕ) [NeZero p] (hp : 10 ≤ p) (hl : p ≤ l) (v : Binary p) (h : 0 < v.val) (hd : |10 * Real.logb 10 (v.val : ℝ)| ≤ 400) :
    (decibel Binary.sqrt (DecibelConsts.binary l p) v).val = 0 ∨ (8800 : ℝ) / 2 ^ p ≤ ((decibel Binary.sqrt (DecibelConsts.binary l p) v).val : ℝ) ∨
      ((decibel Binary.sqrt (DecibelConsts.binary l p) v).val : ℝ) ≤ -4400 / 2 ^ p := by
  have hR := binary_roundedField p
  have hu0 : (0 : ℝ) ≤ 1 / 2 ^ p := by positivity
  have hu := unit_le p hp
  have hv : (0 : ℝ) < (v.val : ℝ) := by exact_mod_cast h
  have ht : |Decibel.ratio (v.val : ℝ)| ≤ 0.045 := (Decibel.abs_ratio_le _ hv).trans (by
    have := Decibel.log_of_decibels _ _ hd
    rw [div_le_iff₀ (by norm_num)]
    linarith)
  have hc := binary_decibelConsts l p (by omega) hl
  have hr := roots_error hR hu0 hu Binary.sqrt (NCO.binary_sqrt p) v hv.le
  have hx := quotient_error hR hu0 hu _ _ (Decibel.root_pos _ hv) hr
  rw [← Decibel.ratio] at hx
  set r := roots Binary.sqrt v with er
  have hrp : 0 < (r.val : ℝ) := by
    obtain ⟨δ, h1, h2⟩ := hr
    rw [h2]
    have := (abs_le.mp h1).1
    exact mul_pos (Decibel.root_pos _ hv) (by linarith)
  have hx5 : |((quotient r).val : ℝ)| ≤ 0.05 := by
    have := abs_sub_abs_le_abs_sub ((quotient r).val : ℝ) (Decibel.ratio (v.val : ℝ))
    nlinarith
  have hs := scaled hR hu0 hu hc (quotient r) hx5
  have hN := hR.sub r ((1 : ℤ) : Binary p)
  have hD := hR.add r ((1 : ℤ) : Binary p)
  rw [hR.one] at hN hD
  have hq := EstimatorError.quotient hu hu0 (by linarith) hN hD (hR.div _ _)
  change |((quotient r).val : ℝ) - _| ≤ _ at hq
  set q : ℝ := ((quotient r).val : ℝ)
  set T : ℝ := ((r.val : ℝ) - 1) / ((r.val : ℝ) + 1) with eT
  change |((decibel Binary.sqrt (DecibelConsts.binary l p) v).val : ℝ) - _| ≤ _ at hs
  have hW := W_ge (q * q) (mul_self_nonneg q)
  have hsc : 8894.35 ≤ Decibel.scale := by norm_num [Decibel.scale]
  set y : ℝ := ((decibel Binary.sqrt (DecibelConsts.binary l p) v).val : ℝ)
  rw [S_eq] at hs
  set u : ℝ := 1 / 2 ^ p with eu
  rcases lt_trichotomy r.val 1 with c | c | c
  · right; right
    have hb : (r.val : ℝ) ≤ 1 - u := by
      have := below_one p (by omega) _ r.representable c
      have : ((r.val : ℚ) : ℝ) ≤ ((1 - 1 / 2 ^ p : ℚ) : ℝ) := Rat.cast_le.mpr this
      push_cast at this
      rw [eu]; exact this
    have hT : u / 2 ≤ -T := by
      rw [eT, ← neg_div, le_div_iff₀ (by linarith)]
      nlinarith
    rw [abs_of_nonpos (by linarith : T ≤ 0)] at hq
    have hq1 : 0.996 * (u / 2) ≤ -q := by nlinarith [(abs_le.mp hq).2]
    have hA : 8894.35 * (0.996 * (u / 2)) ≤ Decibel.scale * (-q * W (q * q)) := by
      have h1 : -q * 1 ≤ -q * W (q * q) := by
        have : 0 ≤ -q := by nlinarith
        gcongr
      have : 0.996 * (u / 2) ≤ -q * W (q * q) := by linarith
      gcongr
    have hA' : Decibel.scale * (q * W (q * q)) ≤ 0 := by nlinarith
    rw [abs_of_nonpos hA'] at hs
    have := (abs_le.mp hs).2
    rw [show (-4400 : ℝ) / 2 ^ p = -4400 * u by rw [eu]; ring]
    nlinarith
  · left
    exact zero_of_one l p v c
  · right; left
    have hb : 1 + 2 * u ≤ (r.val : ℝ) := by
      have := above_one p (by omega) _ r.representable c
      have : ((1 + 2 / 2 ^ p : ℚ) : ℝ) ≤ ((r.val : ℚ) : ℝ) := Rat.cast_le.mpr this
      push_cast at this
      rw [eu, mul_one_div]; exact this
    have hT : 0.999 * u ≤ T := by
      rw [eT, le_div_iff₀ (by linarith)]
      nlinarith
    rw [abs_of_nonneg (by nlinarith : 0 ≤ T)] at hq
    have hq1 : 0.995 * u ≤ q := by nlinarith [(abs_le.mp hq).1]
    have hA : 8894.35 * (0.995 * u) ≤ Decibel.scale * (q * W (q * q)) := by
      have h1 : q * 1 ≤ q * W (q * q) := by
        have : 0 ≤ q := by nlinarith
        gcongr
      have : 0.995 * u ≤ q * W (q * q) := by linarith
      gcongr
    have hA' : 0 ≤ Decibel.scale * (q * W (q * q)) := by nlinarith
    rw [abs_of_nonneg hA'] at hs
    have := (abs_le.mp hs).1
    rw [show (8800 : ℝ) / 2 ^ p = 8800 * u by rw [eu]; ring]
    nlinarith

/-- A root of a number just above one. -/
theorem sqrt_near_one (p : ℕ) [NeZero p] (K : ℕ) (hK : K < 2 ^ (p - 1)) (x : Binary p) (k : ℕ) (hk : k ≤ K) (hx : x.val = 1 + k / 2 ^ (p - 1)) :
    ∃ k' : ℕ, k' ≤ K / 2 ∧ (Binary.sqrt x).val = 1 + k' / 2 ^ (p - 1) := by
  obtain ⟨q, rfl⟩ : ∃ q, p = q + 1 := ⟨p - 1, by have := Nat.pos_of_ne_zero (NeZero.ne p); omega⟩
  rw [Nat.add_sub_cancel] at *
  have hN : (0 : ℝ) < 2 ^ q := by positivity
  set N : ℝ := 2 ^ q with eN
  have hkN : (k : ℝ) < N := by rw [eN]; exact_mod_cast hk.trans_lt hK
  have hxr : (x.val : ℝ) = 1 + k / N := by rw [hx, eN]; push_cast; rfl
  set y := √(x.val : ℝ) with ey
  have hy0 : 0 ≤ y := Real.sqrt_nonneg _
  have hyy : y * y = 1 + k / N := by rw [ey, Real.mul_self_sqrt (by rw [hxr]; positivity), hxr]
  have hyN : (y * N) * (y * N) = N * N + k * N := by
    rw [show (y * N) * (y * N) = y * y * (N * N) by ring, hyy]; field_simp
  have hk0 : (0 : ℝ) ≤ k := Nat.cast_nonneg k
  have hlo : N ≤ y * N := by
    by_contra c
    push Not at c
    have : 0 ≤ y * N := by positivity
    nlinarith
  have hj : (k : ℝ) ≤ 2 * ((k / 2 : ℕ) : ℝ) + 1 := by
    have : k ≤ 2 * (k / 2) + 1 := by omega
    exact_mod_cast this
  have hj0 : (0 : ℝ) ≤ ((k / 2 : ℕ) : ℝ) := Nat.cast_nonneg _
  have hup : y * N < N + ((k / 2 : ℕ) : ℝ) + 1 / 2 := by
    by_contra c
    push Not at c
    nlinarith
  have hy1 : 1 ≤ y := by nlinarith
  have hy2 : y < 2 := by
    have : k / N < 1 := (div_lt_one hN).mpr hkN
    nlinarith
  have hlog : Int.log 2 |y| = 0 := by
    rw [abs_of_nonneg hy0]
    apply le_antisymm
    · by_contra c
      push Not at c
      have := (Int.zpow_le_iff_le_log (b := 2) (by norm_num) (by linarith : 0 < y)).mpr (by omega : 1 ≤ Int.log 2 y)
      norm_num at this
      linarith
    · refine (Int.zpow_le_iff_le_log (b := 2) (by norm_num) (by linarith : 0 < y)).mp ?_
      simpa using hy1
  have hval : (Binary.sqrt x).val = Binary.nearestReal (y * N) * (1 / 2 ^ q) := by
    show Binary.roundReal (q + 1) y = _
    unfold Binary.roundReal
    simp only [hlog]
    have e : (0 : ℤ) + 1 - ((q + 1 : ℕ) : ℤ) = -(q : ℤ) := by push_cast; ring
    rw [e, zpow_neg, zpow_neg, zpow_natCast, zpow_natCast, div_inv_eq_mul, one_div]
  have hn := abs_le.mp (Binary.nearestReal_near (y * N))
  have hfl : (2 ^ q : ℤ) ≤ Binary.nearestReal (y * N) := by
    have : ((2 ^ q : ℤ) : ℝ) < (Binary.nearestReal (y * N) : ℝ) + 1 := by push_cast; rw [← eN]; linarith [hn.1]
    have : (2 ^ q : ℤ) < Binary.nearestReal (y * N) + 1 := by exact_mod_cast this
    omega
  have hfu : Binary.nearestReal (y * N) ≤ 2 ^ q + (k / 2 : ℕ) := by
    have : (Binary.nearestReal (y * N) : ℝ) < ((2 ^ q + (k / 2 : ℕ) + 1 : ℤ) : ℝ) := by
      rw [Int.cast_add, Int.cast_add, Int.cast_natCast, Int.cast_one, Int.cast_pow, Int.cast_ofNat, ← eN]
      linarith [hn.2]
    have : Binary.nearestReal (y * N) < 2 ^ q + (k / 2 : ℕ) + 1 := by exact_mod_cast this
    omega
  obtain ⟨j, hj'⟩ := Int.eq_ofNat_of_zero_le (by omega : 0 ≤ Binary.nearestReal (y * N) - 2 ^ q)
  refine ⟨j, by omega, ?_⟩
  rw [hval, show Binary.nearestReal (y * N) = 2 ^ q + (j : ℤ) by omega]
  push_cast
  field_simp

/-- A thousand numbers above one have the level zero. -/
theorem C77_flat (l p : ℕ) [NeZero p] (hp : 11 ≤ p) (v : Binary p) (k : ℕ) (hk : k < 1024) (hv : v.val = 1 + k / 2 ^ (p - 1)) :
    (decibel Binary.sqrt (DecibelConsts.binary l p) v).val = 0 := by
  refine zero_of_one l p v ?_
  have hN : 2 ^ 10 ≤ 2 ^ (p - 1) := Nat.pow_le_pow_right (by norm_num) (by omega)
  obtain ⟨k1, h1, e1⟩ := sqrt_near_one p 1023 (by omega) v k (by omega) hv
  obtain ⟨k2, h2, e2⟩ := sqrt_near_one p 511 (by omega) _ k1 (by omega) e1
  obtain ⟨k3, h3, e3⟩ := sqrt_near_one p 255 (by omega) _ k2 (by omega) e2
  obtain ⟨k4, h4, e4⟩ := sqrt_near_one p 127 (by omega) _ k3 (by omega) e3
  obtain ⟨k5, h5, e5⟩ := sqrt_near_one p 63 (by omega) _ k4 (by omega) e4
  obtain ⟨k6, h6, e6⟩ := sqrt_near_one p 31 (by omega) _ k5 (by omega) e5
  obtain ⟨k7, h7, e7⟩ := sqrt_near_one p 15 (by omega) _ k6 (by omega) e6
  obtain ⟨k8, h8, e8⟩ := sqrt_near_one p 7 (by omega) _ k7 (by omega) e7
  obtain ⟨k9, h9, e9⟩ := sqrt_near_one p 3 (by omega) _ k8 (by omega) e8
  obtain ⟨k10, h10, e10⟩ := sqrt_near_one p 1 (by omega) _ k9 (by omega) e9
  have : k10 = 0 := by omega
  rw [this] at e10
  simp only [Nat.cast_zero, zero_div, add_zero] at e10
  exact e10

/-- The last of them: its level is more than `8500` units of roundoff, so the bound of `C77_binary` is nearly reached for every precision. -/
theorem C77_flat_level (p : ℕ) (hp : 16 ≤ p) : (8500 : ℝ) / 2 ^ p ≤ 10 * Real.logb 10 (1 + 1023 / 2 ^ (p - 1)) := by
  have h10 := abs_le.mp Digits.log_ten
  rw [Digits.log10] at h10
  push_cast at h10
  have hl : Real.log 10 ≤ 2.3026 := by norm_num at h10 ⊢; linarith [h10.1, h10.2]
  have hlp : 0 < Real.log 10 := Real.log_pos (by norm_num)
  obtain ⟨q, rfl⟩ := Nat.exists_eq_add_of_le hp
  have e : (1023 : ℝ) / 2 ^ (16 + q - 1) = 2046 / 2 ^ (16 + q) := by
    rw [show 16 + q - 1 = 15 + q by omega, pow_add, pow_add]; field_simp; norm_num
  rw [e]
  have hu : (1 : ℝ) / 2 ^ (16 + q) ≤ 1 / 2 ^ 16 := by
    have : (2 : ℝ) ^ 16 ≤ 2 ^ (16 + q) := pow_le_pow_right₀ (by norm_num) (by omega)
    gcongr
  set u : ℝ := 1 / 2 ^ (16 + q) with eu
  have hu0 : 0 < u := by positivity
  rw [show (8500 : ℝ) / 2 ^ (16 + q) = 8500 * u by rw [eu]; ring, show (2046 : ℝ) / 2 ^ (16 + q) = 2046 * u by rw [eu]; ring]
  have hlog : 2046 * u / (1 + 2046 * u) ≤ Real.log (1 + 2046 * u) := by
    have := Real.one_sub_inv_le_log_of_pos (by positivity : 0 < 1 + 2046 * u)
    refine le_trans (le_of_eq ?_) this
    field_simp
    ring
  have h1 : 2046 * u * 0.969 ≤ 2046 * u / (1 + 2046 * u) := by
    rw [le_div_iff₀ (by positivity)]
    nlinarith
  rw [← Real.log_div_log, ← mul_div_assoc (10 : ℝ), le_div_iff₀ hlp]
  nlinarith

/-! ### Cases -/

example : (decibel Binary.sqrt (DecibelConsts.binary 64 24) (Binary.literal 64 24 1.0001)).val = 0 := by
  refine C77_flat 64 24 (by norm_num) _ 839 (by norm_num) ?_
  show Binary.round 24 (Binary.round 64 1.0001) = _
  decide +kernel

example : |((decibel Binary.sqrt (DecibelConsts.binary 64 24) (((100 : ℤ) : Binary 24))).val : ℝ) - 20| ≤ 0.0006 := by
  have hv : (((100 : ℤ) : Binary 24)).val = 100 := by decide +kernel
  have e : 10 * Real.logb 10 ((((100 : ℤ) : Binary 24)).val : ℝ) = 20 := by
    rw [hv, show ((100 : ℚ) : ℝ) = 10 ^ 2 by norm_num, Real.logb_pow, Real.logb_self_eq_one (by norm_num)]
    norm_num
  have h := C77_binary 64 24 (by norm_num) (by norm_num) ((100 : ℤ) : Binary 24) (by rw [hv]; norm_num) (by rw [e]; norm_num)
  rw [e] at h
  refine h.trans ?_
  norm_num

end Elementary
end DSP
