import Verif.Model.UtilsIeee
import Verif.Props.Range
import Verif.Props.FMDSpecial

/-!
# C141: interpolation, clamping and other helpers in IEEE arithmetic
-/

namespace DSP.UtilsIeee

open Ieee Spec FFT

variable {F : Format}

/-! ### Interpolation -/

theorem floor_small (U : Silence.Usual F) : (0 : ℝ) < 2 ^ (F.emin + F.p - 1) ∧ (2 : ℝ) ^ (F.emin + F.p - 1) ≤ 1 / 32 ∧ (0 : ℝ) < 1 / 2 ^ F.p ∧ (1 : ℝ) / 2 ^ F.p ≤ 1 / 16 := by
  have h1 := U.p
  have h2 := U.emin
  refine ⟨by positivity, ?_, by positivity, ?_⟩
  · calc (2 : ℝ) ^ (F.emin + F.p - 1) ≤ 2 ^ (-5 : ℤ) := zpow_le_zpow_right₀ (by norm_num) (by omega)
      _ = _ := by norm_num
  · have h : (2 : ℝ) ^ 4 ≤ 2 ^ F.p := pow_le_pow_right₀ (by norm_num) h1
    rw [div_le_div_iff₀ (by positivity) (by norm_num)]
    norm_num at h ⊢
    linarith

/-- **C141** The interpolation between finite numbers differs from the exact one by at most four units of rounding of the greater one and two of the smallest numbers. -/
theorem C141_lerp (U : Silence.Usual F) (a b x : Ieee F) (ga : GoodIeee a) (gb : GoodIeee b) (gx : GoodIeee x) (h0 : 0 ≤ x.val) (h1 : x.val ≤ 1) (M : ℝ) (ha : |(a.val : ℝ)| ≤ M) (hb : |(b.val : ℝ)| ≤ M)
    (hM : 2 * M + 1 ≤ 2 ^ (F.emax - 1)) :
    (lerp a b x).Finite ∧ |((lerp a b x).val : ℝ) - ((1 - x.val) * a.val + x.val * b.val)| ≤ 4 / 2 ^ F.p * M + 2 ^ (F.emin + 1) := by
  obtain ⟨f0, f1, u0, u1⟩ := floor_small U
  have hp : 0 < F.p := by have := U.p; omega
  have x0 : (0 : ℝ) ≤ x.val := by exact_mod_cast h0
  have x1 : (x.val : ℝ) ≤ 1 := by exact_mod_cast h1
  have M0 : 0 ≤ M := (abs_nonneg _).trans ha
  obtain ⟨g1, v1⟩ := FMDRounded.good_one U
  obtain ⟨c1, c2, c3, c4⟩ := Range.complement_val U x gx.1 gx.2 h0 h1
  obtain ⟨gt, et⟩ := good_sub U 1 x g1 gx (by rw [v1, abs_of_nonneg (by linarith)]; linarith)
  rw [v1, abs_of_nonneg (by linarith : (0 : ℝ) ≤ 1 - x.val)] at et
  show ((1 - x) * a + x * b).Finite ∧ |(((1 - x) * a + x * b).val : ℝ) - _| ≤ _
  have c2' : (0 : ℝ) ≤ (1 - x).val := by exact_mod_cast c2
  have c3' : ((1 - x).val : ℝ) ≤ 1 := by exact_mod_cast c3
  generalize (1 : Ieee F) - x = t at *
  have bt : |(t.val : ℝ) * a.val| ≤ t.val * M := by rw [abs_mul, abs_of_nonneg c2']; exact mul_le_mul_of_nonneg_left ha c2'
  have bx : |(x.val : ℝ) * b.val| ≤ x.val * M := by rw [abs_mul, abs_of_nonneg x0]; exact mul_le_mul_of_nonneg_left hb x0
  have bt' : (t.val : ℝ) * M ≤ M := mul_le_of_le_one_left M0 c3'
  have bx' : (x.val : ℝ) * M ≤ M := mul_le_of_le_one_left M0 x1
  obtain ⟨gm, em⟩ := good_mul U t a gt ga (by linarith)
  obtain ⟨gn, en⟩ := good_mul U x b gx gb (by linarith)
  have e1 : |(t.val : ℝ) * a.val - (1 - x.val) * a.val| ≤ 1 / 2 ^ F.p * (1 - x.val + 2 ^ (F.emin + F.p - 1)) * M := by
    rw [← sub_mul, abs_mul]
    exact mul_le_mul et ha (abs_nonneg _) ((abs_nonneg _).trans et)
  have tx : (t.val : ℝ) ≤ 1 - x.val + 1 / 2 ^ F.p * (1 - x.val + 2 ^ (F.emin + F.p - 1)) := by linarith [(abs_le.mp et).2]
  have ef : (2 : ℝ) ^ (F.emin + 1) = 4 * (1 / 2 ^ F.p * 2 ^ (F.emin + F.p - 1)) := by
    rw [← zpow_natCast, one_div, ← zpow_neg, ← zpow_add₀ (by norm_num), show F.emin + 1 = 2 + (-(F.p : ℤ) + (F.emin + F.p - 1)) by ring, zpow_add₀ (by norm_num)]
    norm_num
  rw [ef, show (4 : ℝ) / 2 ^ F.p = 4 * (1 / 2 ^ F.p) by ring]
  generalize hf : (2 : ℝ) ^ (F.emin + F.p - 1) = f at *
  generalize hu : (1 : ℝ) / 2 ^ F.p = u at *
  have uf : u * f ≤ 1 / 16 * (1 / 32) := mul_le_mul u1 f1 f0.le (by norm_num)
  have tM : u * (t.val * M) ≤ u * ((1 - x.val) * M) + u * (1 / 16 * (33 / 32)) * M := by
    have : (t.val : ℝ) ≤ 1 - x.val + 1 / 16 * (33 / 32) := tx.trans (add_le_add_right (mul_le_mul u1 (by linarith) (by linarith) (by norm_num)) _)
    calc u * (t.val * M) ≤ u * ((1 - x.val + 1 / 16 * (33 / 32)) * M) := by gcongr
      _ = _ := by ring
  have q1 : u * (|(t.val : ℝ) * a.val| + f) ≤ u * (t.val * M) + u * f := by rw [← mul_add]; gcongr
  have q2 : u * (|(x.val : ℝ) * b.val| + f) ≤ u * (x.val * M) + u * f := by rw [← mul_add]; gcongr
  have uM : u * M ≤ 1 / 16 * M := by gcongr
  have uM0 : 0 ≤ u * M := by positivity
  have uxM : 0 ≤ u * (x.val * M) := by positivity
  have uxM' : u * ((1 - x.val) * M) = u * M - u * (x.val * M) := by ring
  have size : |((t * a).val : ℝ) + (x * b).val| ≤ M + 3 * (u * M) + 3 * (u * f) + u * (f * M) := by
    have h2 := abs_sub_abs_le_abs_sub ((t * a).val : ℝ) (t.val * a.val)
    have h3 := abs_sub_abs_le_abs_sub ((x * b).val : ℝ) (x.val * b.val)
    have h4 := abs_add_le ((t * a).val : ℝ) (x * b).val
    have h5 : (t.val : ℝ) * M ≤ (1 - x.val) * M + (u * M - u * (x.val * M)) + u * (f * M) := by
      have := mul_le_mul_of_nonneg_right tx M0
      linarith
    have h6 : (1 - (x.val : ℝ)) * M = M - x.val * M := by ring
    have h7 : u * (t.val * M) ≤ u * M := mul_le_mul_of_nonneg_left bt' u0.le
    have h8 : u * (x.val * M) ≤ u * M := mul_le_mul_of_nonneg_left bx' u0.le
    have h9 : 0 ≤ u * f := by positivity
    linarith
  have ufM : u * (f * M) ≤ 1 / 512 * M := by
    rw [← mul_assoc]
    exact mul_le_mul_of_nonneg_right (by linarith) M0
  have ufM' : u * (f * M) ≤ 1 / 32 * (u * M) := by
    have := mul_le_mul_of_nonneg_right f1 uM0
    linarith
  obtain ⟨gs, es⟩ := good_add U (t * a) (x * b) gm gn (by linarith)
  rw [hf, hu] at es
  refine ⟨gs.1, ?_⟩
  have q3 : u * (|((t * a).val : ℝ) + (x * b).val| + f) ≤ u * M + 6 / 16 * (u * M) + 1 / 5 * (u * f) + u * f := by
    have h2 : u * |((t * a).val : ℝ) + (x * b).val| ≤ u * (M + 3 * (u * M) + 3 * (u * f) + u * (f * M)) := mul_le_mul_of_nonneg_left size u0.le
    have h3 : u * (u * M) ≤ 1 / 16 * (u * M) := mul_le_mul_of_nonneg_right u1 uM0
    have h4 : u * (u * f) ≤ 1 / 16 * (u * f) := mul_le_mul_of_nonneg_right u1 (by positivity)
    have h5 : u * (u * (f * M)) ≤ 1 / 16 * (u * (f * M)) := mul_le_mul_of_nonneg_right u1 (by positivity)
    have h6 : 0 ≤ u * f := by positivity
    linarith
  have e1' : u * (1 - x.val + f) * M ≤ u * M - u * (x.val * M) + 1 / 32 * (u * M) := by linarith
  have uf0 : 0 ≤ u * f := by positivity
  have tri : |(((t * a + x * b).val : ℝ)) - ((1 - x.val) * a.val + x.val * b.val)| ≤ |(((t * a + x * b).val : ℝ)) - ((t * a).val + (x * b).val)| + |((t * a).val : ℝ) - t.val * a.val| + |((x * b).val : ℝ) - x.val * b.val| +
      |(t.val : ℝ) * a.val - (1 - x.val) * a.val| := by
    have h2 : ((t * a + x * b).val : ℝ) - ((1 - x.val) * a.val + x.val * b.val) = (((t * a + x * b).val : ℝ) - ((t * a).val + (x * b).val)) + ((t * a).val - t.val * a.val) + ((x * b).val - x.val * b.val) +
      (t.val * a.val - (1 - x.val) * a.val) := by ring
    rw [h2]
    exact (abs_add_le _ _).trans (add_le_add_left ((abs_add_le _ _).trans (add_le_add_left (abs_add_le _ _) _)) _)
  linarith

/-- **C141** At both ends the interpolation is exact, for all finite numbers. -/
theorem C141_ends (U : Silence.Usual F) (a b x : Ieee F) (ga : GoodIeee a) (gb : GoodIeee b) (gx : GoodIeee x) :
    (x.val = 0 → (lerp a b x).Finite ∧ (lerp a b x).val = a.val) ∧ (x.val = 1 → (lerp a b x).Finite ∧ (lerp a b x).val = b.val) := by
  have hp : 0 < F.p := by have := U.p; omega
  have he0 : F.emin ≤ 0 := by have := U.emin; omega
  obtain ⟨g1, v1⟩ := FMDRounded.good_one U
  have v1 : (1 : Ieee F).val = 1 := by exact_mod_cast v1
  have full : ∀ c y : Ieee F, GoodIeee c → GoodIeee y → c.val = 1 → GoodIeee (c * y) ∧ (c * y).val = y.val := fun c y gc gy h => by
    obtain ⟨f, v⟩ := Silence.scale_val hp c y gc.1 gc.2 gy.1 gy.2 (by rw [h]; norm_num) h.le
    exact ⟨⟨f, mul_valid hp _ _⟩, by rw [v, h, one_mul, roundTo_of_fits hp _ (valid_fits gy.2)]⟩
  have none : ∀ c y : Ieee F, GoodIeee c → GoodIeee y → c.val = 0 → GoodIeee (c * y) ∧ (c * y).val = 0 := fun c y gc gy h => by
    obtain ⟨f, v⟩ := Silence.scale_val hp c y gc.1 gc.2 gy.1 gy.2 h.ge (by rw [h]; norm_num)
    exact ⟨⟨f, mul_valid hp _ _⟩, by rw [v, h, zero_mul, roundTo_zero]⟩
  have plus : ∀ c y : Ieee F, GoodIeee c → GoodIeee y → (c.val = 0 → (c + y).Finite ∧ (c + y).val = y.val) ∧ (y.val = 0 → (c + y).Finite ∧ (c + y).val = c.val) := fun c y gc gy => by
    refine ⟨fun h => ?_, fun h => ?_⟩
    · have f : (c + y).Finite := (add_finite c y gc.1 gy.1).mpr (by rw [h, zero_add, roundTo_of_fits hp _ (valid_fits gy.2)]; exact val_lt gy.2)
      exact ⟨f, by rw [add_val hp c y gc.1 gy.1 f, h, zero_add, roundTo_of_fits hp _ (valid_fits gy.2)]⟩
    · have f : (c + y).Finite := (add_finite c y gc.1 gy.1).mpr (by rw [h, add_zero, roundTo_of_fits hp _ (valid_fits gc.2)]; exact val_lt gc.2)
      exact ⟨f, by rw [add_val hp c y gc.1 gy.1 f, h, add_zero, roundTo_of_fits hp _ (valid_fits gc.2)]⟩
  have gm : GoodIeee (-x) := ⟨neg_finite _ gx.1, neg_valid _ gx.2⟩
  show (x.val = 0 → ((1 + -x) * a + x * b).Finite ∧ ((1 + -x) * a + x * b).val = a.val) ∧ (x.val = 1 → ((1 + -x) * a + x * b).Finite ∧ ((1 + -x) * a + x * b).val = b.val)
  refine ⟨fun h => ?_, fun h => ?_⟩
  · obtain ⟨f, v⟩ := (plus 1 (-x) g1 gm).2 (by rw [neg_val, h, neg_zero])
    obtain ⟨g2, v2⟩ := full (1 + -x) a ⟨f, add_valid hp _ _⟩ ga (by rw [v, v1])
    obtain ⟨g3, v3⟩ := none x b gx gb h
    have := (plus _ _ g2 g3).2 v3
    rwa [v2] at this
  · have z : (1 : Ieee F).val + (-x).val = 0 := by rw [neg_val, h, v1]; norm_num
    have f : (1 + -x).Finite := (add_finite _ _ g1.1 gm.1).mpr (by rw [z, roundTo_zero, abs_zero]; positivity)
    have v : (1 + -x).val = 0 := by rw [add_val hp _ _ g1.1 gm.1 f, z, roundTo_zero]
    obtain ⟨g2, v2⟩ := none (1 + -x) a ⟨f, add_valid hp _ _⟩ ga v
    obtain ⟨g3, v3⟩ := full x b gx gb h
    have := (plus _ _ g2 g3).1 v2
    rwa [v3] at this

/-- **C141** If the other end is infinite, it is not: the product of zero and infinity is NaN. -/
theorem C141_far (a : Ieee F) (s : Bool) (z : Ieee F) (hz : z.Finite) (h : z.val = 0) : lerp a (inf s) z = nan := by
  obtain ⟨t, m, rfl⟩ := (finite_iff z).mp hz
  have m0 : m = 0 := by
    have h' : signed t m = 0 := h
    cases t <;> simpa [signed] using h'
  show _ * a + (num t m : Ieee F) * inf s = nan
  have : (num t m : Ieee F) * inf s = nan := if_pos m0
  rw [this]
  cases (1 - num t m : Ieee F) * a <;> rfl

/-- **C141** Between equal numbers the interpolation may give a smaller or a greater one. So an exponential moving average of a constant signal leaves that constant: with 0.1 or 0.2 in single precision. -/
theorem C141_constant : lerp (3 : Ieee .single) 3 (literal 0.1 : Ieee .single) < 3 ∧ 13 < lerp (13 : Ieee .single) 13 (literal 0.2 : Ieee .single) := by
  constructor <;> decide +kernel

/-! ### Clamping -/

theorem less_irrefl (a : Ieee F) : ¬a < a := by
  cases a with
  | nan => exact Bool.false_ne_true
  | inf s => cases s <;> exact Bool.false_ne_true
  | num s m =>
    show ¬decide (signed s m < signed s m) = true
    simp

theorem less_trans {a b c : Ieee F} (h : a < b) (k : b < c) : a < c := by
  change less a b = true at h
  change less b c = true at k
  show less a c = true
  cases a <;> cases b <;> cases c <;> simp_all [less]
  exact lt_trans h k

/-- **C141** Clamping leaves alone what is not outside, and gives nothing below the lower bound or above the upper one, infinities included. -/
theorem C141_clamp (x a b : Ieee F) (h : ¬b < a) : ¬Ieee.clamp x a b < a ∧ ¬b < Ieee.clamp x a b ∧ (¬x < a → ¬b < x → Ieee.clamp x a b = x) ∧ (x < a → Ieee.clamp x a b = a) ∧ (b < x → Ieee.clamp x a b = b) := by
  unfold Ieee.clamp
  by_cases c : x < a
  · rw [if_pos c]
    exact ⟨less_irrefl a, h, fun k => absurd c k, fun _ => rfl, fun d => absurd (less_trans d c) h⟩
  · rw [if_neg c]
    by_cases d : b < x
    · rw [if_pos d]
      exact ⟨h, less_irrefl b, fun _ k => absurd d k, fun k => absurd k c, fun _ => rfl⟩
    · rw [if_neg d]
      exact ⟨c, d, fun _ _ => rfl, fun k => absurd k c, fun k => absurd k d⟩

/-- **C141** A NaN goes through, and a bound that is NaN is no bound. -/
theorem C141_clamp_nan (x a b : Ieee F) : Ieee.clamp nan a b = nan ∧ (¬b < x → Ieee.clamp x nan b = x) ∧ (¬x < a → Ieee.clamp x a nan = x) := by
  have l : ∀ c : Ieee F, ¬(nan : Ieee F) < c := fun c => Bool.false_ne_true
  have r : ∀ c : Ieee F, ¬c < (nan : Ieee F) := fun c => by cases c <;> exact Bool.false_ne_true
  unfold Ieee.clamp
  exact ⟨by rw [if_neg (l a), if_neg (r b)], fun h => by rw [if_neg (r x), if_neg h], fun h => by rw [if_neg h, if_neg (l x)]⟩

/-! ### Signs -/

/-- **C141** The sign of a finite number is that of its value, zeros have none whatever their sign bit, infinities have one and NaN has none. -/
theorem C141_signum (s : Bool) (x : Ieee F) (hx : x.Finite) :
    ((0 < x.val ↔ Ieee.signum x = 1) ∧ (x.val < 0 ↔ Ieee.signum x = -1) ∧ (x.val = 0 ↔ Ieee.signum x = 0)) ∧ Ieee.signum (inf s : Ieee F) = (if s then -1 else 1) ∧ Ieee.signum (nan : Ieee F) = 0 := by
  refine ⟨?_, by cases s <;> rfl, rfl⟩
  obtain ⟨t, m, rfl⟩ := (finite_iff x).mp hx
  have e1 : (0 : Ieee F) < num t m ↔ 0 < (num t m : Ieee F).val := by
    show decide (signed false 0 < signed t m) = true ↔ _
    rw [decide_eq_true_iff, signed_zero]
    rfl
  have e2 : num t m < (0 : Ieee F) ↔ (num t m : Ieee F).val < 0 := by
    show decide (signed t m < signed false 0) = true ↔ _
    rw [decide_eq_true_iff, signed_zero]
    rfl
  unfold Ieee.signum
  rcases lt_trichotomy (num t m : Ieee F).val 0 with h | h | h
  · rw [if_neg (fun k => by have := e1.mp k; linarith), if_pos (e2.mpr h)]
    refine ⟨⟨fun k => by linarith, fun k => by norm_num at k⟩, ⟨fun _ => rfl, fun _ => h⟩, ⟨fun k => by linarith, fun k => by norm_num at k⟩⟩
  · rw [if_neg (fun k => by have := e1.mp k; linarith), if_neg (fun k => by have := e2.mp k; linarith)]
    refine ⟨⟨fun k => by linarith, fun k => by norm_num at k⟩, ⟨fun k => by linarith, fun k => by norm_num at k⟩, ⟨fun _ => rfl, fun _ => h⟩⟩
  · rw [if_pos (e1.mpr h), if_neg (fun k => by have := e2.mp k; linarith)]
    refine ⟨⟨fun _ => rfl, fun _ => h⟩, ⟨fun k => by linarith, fun k => by norm_num at k⟩, ⟨fun k => by linarith, fun k => by norm_num at k⟩⟩

/-! ### Cardinal sine -/

theorem zero_beq (x : Ieee F) : ((0 : Ieee F) == x) = true ↔ x.Finite ∧ x.val = 0 := by
  cases x with
  | nan => exact ⟨fun h => absurd h Bool.false_ne_true, fun h => h.1.elim⟩
  | inf s => exact ⟨fun h => absurd h Bool.false_ne_true, fun h => h.1.elim⟩
  | num s m =>
    show decide (signed false 0 = signed s m) = true ↔ True ∧ signed s m = 0
    rw [decide_eq_true_iff, signed_zero, true_and, eq_comm]

/-- **C141** At both zeros the cardinal sine is one and the impulse too, everywhere else the impulse is zero. For every finite argument whose product with pi is finite the cardinal sine is finite and not above one in magnitude, however small the
argument is, for every sine that is not above its argument in magnitude. -/
theorem C141_sinc (U : Silence.Usual F) (sin : Ieee F → Ieee F) (pi x : Ieee F) (hs : ∀ y, GoodIeee y → GoodIeee (sin y) ∧ |(sin y).val| ≤ |y.val|) (gp : GoodIeee pi) (hp1 : 1 ≤ pi.val) (gx : GoodIeee x) :
    (x.val = 0 → Ieee.sinc sin pi x = 1 ∧ Ieee.delta x = 1) ∧ (x.val ≠ 0 → Ieee.delta x = 0) ∧ ((pi * x).Finite → (Ieee.sinc sin pi x).Finite ∧ |(Ieee.sinc sin pi x).val| ≤ 1) := by
  have hp : 0 < F.p := by have := U.p; omega
  have he0 : F.emin ≤ 0 := by have := U.emin; omega
  have hone : Fits F 1 := by have := Range.fits_pow (F := F) hp 0 he0; rwa [zpow_zero] at this
  obtain ⟨g1, v1⟩ := FMDRounded.good_one U
  have v1 : (1 : Ieee F).val = 1 := by exact_mod_cast v1
  refine ⟨fun h => ?_, fun h => ?_, fun hf => ?_⟩
  · have := (zero_beq x).mpr ⟨gx.1, h⟩
    exact ⟨if_pos this, if_pos this⟩
  · exact if_neg fun k => h ((zero_beq x).mp k).2
  · unfold Ieee.sinc
    by_cases c : x.val = 0
    · rw [if_pos ((zero_beq x).mpr ⟨gx.1, c⟩)]
      exact ⟨g1.1, by rw [v1]; norm_num⟩
    · rw [if_neg fun k => c ((zero_beq x).mp k).2]
      have vy := mul_val hp pi x gp.1 gx.1 gp.2 gx.2 hf
      have y0 : (pi * x).val ≠ 0 := by
        intro h
        have h1 : |x.val| ≤ |roundTo F (pi.val * x.val)| := by
          rw [roundTo_abs hp]
          refine le_roundTo hp _ _ (fits_abs (valid_fits gx.2)) ?_
          rw [abs_mul, abs_of_nonneg (by linarith : 0 ≤ pi.val)]
          exact le_mul_of_one_le_left (abs_nonneg _) hp1
        rw [← vy, h, abs_zero] at h1
        exact c (abs_nonpos_iff.mp h1)
      have gy : GoodIeee (pi * x) := ⟨hf, mul_valid hp _ _⟩
      obtain ⟨gs, bs⟩ := hs _ gy
      generalize pi * x = y at *
      have b : |roundTo F ((sin y).val / y.val)| ≤ 1 := by
        rw [roundTo_abs hp]
        refine roundTo_le hp _ _ hone ?_
        rw [abs_div]
        exact div_le_one_of_le₀ bs (abs_nonneg _)
      have lt : (1 : ℚ) < 2 ^ F.emax := by
        have := U.emax
        have := U.p
        calc (1 : ℚ) = 2 ^ (0 : ℤ) := by norm_num
          _ < _ := zpow_lt_zpow_right₀ (by norm_num) (by omega)
      have f : (sin y / y).Finite := (div_finite _ _ gs.1 gy.1 y0).mpr (b.trans_lt lt)
      exact ⟨f, by rw [div_val hp _ _ gs.1 gy.1 gs.2 gy.2 f y0]; exact b⟩

/-- **C141** If the product with pi is infinite, which it is for great finite arguments already, then the cardinal sine is NaN instead of almost zero, as the sine of infinity is. -/
theorem C141_sinc_far (sin : Ieee F → Ieee F) (hs : ∀ y, ¬y.Finite → sin y = nan) (pi x : Ieee F) (h : ¬(pi * x).Finite) (hx : ¬(x.Finite ∧ x.val = 0)) : Ieee.sinc sin pi x = nan := by
  unfold Ieee.sinc
  rw [if_neg fun k => hx ((zero_beq x).mp k), hs _ h]
  cases pi * x <;> rfl

/-- The steps of the cardinal sine in real numbers. -/
theorem sinc_numbers (u f t y y' s w : ℝ) (hu0 : 0 ≤ u) (hu : u ≤ 1 / 1000) (ht : t ≠ 0) (hy' : |y' - t| ≤ 2.01 * u * |t|) (hy : |y - y'| ≤ 2 * u * |y'|) (hs : |s - Real.sin y| ≤ 2 * u * |Real.sin y|)
    (hw : |w - s / y| ≤ u * (|s / y| + f)) : |w - Real.sin t / t| ≤ 12 * u + u * f := by
  have t0 : 0 < |t| := abs_pos.mpr ht
  have ut : 0 ≤ u * |t| := by positivity
  have b1 : |y'| ≤ 1.003 * |t| := by
    have := abs_sub_abs_le_abs_sub y' t
    nlinarith
  have b2 : |y - t| ≤ 4.02 * (u * |t|) := by
    have := abs_sub_le y y' t
    nlinarith
  have b3 : 0.995 * |t| ≤ |y| := by
    have := abs_sub_abs_le_abs_sub t y
    rw [abs_sub_comm] at this
    nlinarith
  have y0 : 0 < |y| := by nlinarith
  have hy0 : y ≠ 0 := abs_pos.mp y0
  have b4 : |y - t| / |y| ≤ 4.05 * u := by
    rw [div_le_iff₀ y0]
    nlinarith
  have sy : |Real.sin y| / |y| ≤ 1 := div_le_one_of_le₀ Real.abs_sin_le_abs (abs_nonneg _)
  have st : |Real.sin t| / |t| ≤ 1 := div_le_one_of_le₀ Real.abs_sin_le_abs (abs_nonneg _)
  have c1 : |s / y - Real.sin y / y| ≤ 2 * u := by
    rw [← sub_div, abs_div]
    calc |s - Real.sin y| / |y| ≤ 2 * u * |Real.sin y| / |y| := by gcongr
      _ = 2 * u * (|Real.sin y| / |y|) := by ring
      _ ≤ 2 * u * 1 := by gcongr
      _ = _ := by ring
  have c2 : |Real.sin y / y - Real.sin t / y| ≤ 4.05 * u := by
    rw [← sub_div, abs_div]
    exact (div_le_div_of_nonneg_right (Real.abs_sin_sub_sin_le y t) (abs_nonneg _)).trans b4
  have c3 : |Real.sin t / y - Real.sin t / t| ≤ 4.05 * u := by
    have e : Real.sin t / y - Real.sin t / t = Real.sin t / t * ((t - y) / y) := by field_simp
    rw [e, abs_mul, abs_div, abs_div, abs_sub_comm t y]
    calc _ ≤ 1 * (|y - t| / |y|) := mul_le_mul_of_nonneg_right st (by positivity)
      _ ≤ _ := by rw [one_mul]; exact b4
  have c4 : |s / y| ≤ 1.01 := by
    have h := abs_sub_abs_le_abs_sub (s / y) (Real.sin y / y)
    rw [abs_div (Real.sin y)] at h
    linarith
  have c5 : |w - s / y| ≤ 1.01 * u + u * f := by nlinarith
  have e : w - Real.sin t / t = (w - s / y) + ((s / y - Real.sin y / y) + ((Real.sin y / y - Real.sin t / y) + (Real.sin t / y - Real.sin t / t))) := by ring
  rw [e]
  refine (abs_add_le _ _).trans ((add_le_add c5 ((abs_add_le _ _).trans (add_le_add c1 ((abs_add_le _ _).trans (add_le_add c2 c3))))).trans ?_)
  linarith

/-- **C141** Besides the smallest arguments the cardinal sine is accurate: off by at most twelve units and half of the smallest number, for a constant and a sine that are off by two units. -/
theorem C141_sinc_accurate (U : Silence.Usual F) (h10 : 10 ≤ F.p) (sin : Ieee F → Ieee F) (pi x : Ieee F) (hs : GoodIeee (sin (pi * x)) ∧ |((sin (pi * x)).val : ℝ) - Real.sin (pi * x).val| ≤ 2 / 2 ^ F.p * |Real.sin (pi * x).val|)
    (gp : GoodIeee pi) (hπ : |(pi.val : ℝ) - Real.pi| ≤ 2.01 / 2 ^ F.p * Real.pi) (gx : GoodIeee x) (h1 : (2 : ℝ) ^ (F.emin + F.p - 1) ≤ |(x.val : ℝ)|) (h2 : |(x.val : ℝ)| ≤ 2 ^ (F.emax - 3)) :
    (Ieee.sinc sin pi x).Finite ∧ |((Ieee.sinc sin pi x).val : ℝ) - Real.sin (Real.pi * x.val) / (Real.pi * x.val)| ≤ 12 / 2 ^ F.p + 2 ^ (F.emin - 1) := by
  have hu : (1 : ℝ) / 2 ^ F.p ≤ 1 / 1000 := by
    calc (1 : ℝ) / 2 ^ F.p ≤ 1 / 2 ^ 10 := by gcongr; norm_num
      _ ≤ _ := by norm_num
  have hu0 : (0 : ℝ) ≤ 1 / 2 ^ F.p := by positivity
  have uf : 1 / 2 ^ F.p * (2 : ℝ) ^ (F.emin + F.p - 1) = 2 ^ (F.emin - 1) := by
    rw [one_div, ← zpow_natCast, ← zpow_neg, ← zpow_add₀ (by norm_num)]
    congr 1
    ring
  have fpos : (0 : ℝ) < 2 ^ (F.emin + F.p - 1) := by positivity
  rw [div_eq_mul_one_div (2.01 : ℝ)] at hπ
  rw [div_eq_mul_one_div (12 : ℝ), ← uf]
  rw [div_eq_mul_one_div (2 : ℝ)] at hs
  have x0 : (x.val : ℝ) ≠ 0 := abs_pos.mp (lt_of_lt_of_le fpos h1)
  have x0' : x.val ≠ 0 := by exact_mod_cast x0
  have pib := abs_le.mp hπ
  have p3 := Real.pi_gt_three
  have p4 := Real.pi_lt_d2
  have pu : (1 : ℝ) / 2 ^ F.p * Real.pi ≤ 1 / 1000 * Real.pi := mul_le_mul_of_nonneg_right hu Real.pi_pos.le
  have pi1 : 1 ≤ (pi.val : ℝ) := by nlinarith
  have pi4 : (pi.val : ℝ) ≤ 4 := by nlinarith
  have big : |(pi.val : ℝ) * x.val| ≤ 2 ^ (F.emax - 1) := by
    rw [abs_mul, abs_of_nonneg (by linarith)]
    calc (pi.val : ℝ) * |(x.val : ℝ)| ≤ 4 * 2 ^ (F.emax - 3) := mul_le_mul pi4 h2 (abs_nonneg _) (by norm_num)
      _ = 2 ^ (F.emax - 1) := by
        rw [show F.emax - 1 = 2 + (F.emax - 3) by ring, zpow_add₀ (by norm_num)]
        norm_num
  obtain ⟨gy, ey⟩ := good_mul U pi x gp gx big
  have ey' : |((pi * x).val : ℝ) - pi.val * x.val| ≤ 2 * (1 / 2 ^ F.p) * |(pi.val : ℝ) * x.val| := by
    refine ey.trans ?_
    have : |(x.val : ℝ)| ≤ |(pi.val : ℝ) * x.val| := by
      rw [abs_mul, abs_of_nonneg (show (0 : ℝ) ≤ pi.val by linarith)]
      exact le_mul_of_one_le_left (abs_nonneg _) pi1
    nlinarith
  have et : |(pi.val : ℝ) * x.val - Real.pi * x.val| ≤ 2.01 * (1 / 2 ^ F.p) * |Real.pi * x.val| := by
    rw [← sub_mul, abs_mul, abs_mul, abs_of_pos Real.pi_pos, ← mul_assoc]
    exact mul_le_mul_of_nonneg_right hπ (abs_nonneg _)
  obtain ⟨gs, es⟩ := hs
  have y0 : ((pi * x).val : ℝ) ≠ 0 := by
    intro h
    rw [h, zero_sub, abs_neg] at ey'
    have : 0 < |(pi.val : ℝ) * x.val| := abs_pos.mpr (mul_ne_zero (by linarith) x0)
    nlinarith
  have y0' : (pi * x).val ≠ 0 := by exact_mod_cast y0
  unfold Ieee.sinc
  rw [if_neg fun k => x0' ((zero_beq x).mp k).2]
  generalize pi * x = y at *
  have q : |((sin y).val : ℝ) / y.val| ≤ 2 := by
    have a := abs_sub_abs_le_abs_sub ((sin y).val : ℝ) (Real.sin y.val)
    have b := Real.abs_sin_le_abs (x := (y.val : ℝ))
    rw [abs_div, div_le_iff₀ (abs_pos.mpr y0)]
    nlinarith [abs_nonneg (Real.sin (y.val : ℝ))]
  have two : (2 : ℝ) ≤ 2 ^ (F.emax - 1) := by
    have := U.emax
    calc (2 : ℝ) = 2 ^ (1 : ℤ) := by norm_num
      _ ≤ _ := zpow_le_zpow_right₀ (by norm_num) (by omega)
  obtain ⟨gw, ew⟩ := FMDRounded.good_div U (sin y) y gs gy y0' (q.trans two)
  exact ⟨gw.1, sinc_numbers _ _ _ _ _ _ _ hu0 hu (mul_ne_zero Real.pi_ne_zero x0) et ey' es ew⟩

/-! ### Examples -/

/-- Between one and two in single precision. -/
example : (lerp (1 : Ieee .single) 2 (literal (1 / 4) : Ieee .single)).Finite := by
  have hp : 0 < Format.single.p := by decide
  have c := fun n h => cast_exact (F := .single) hp (by decide) (by decide) n h
  obtain ⟨a, b, d⟩ := c 1 (by decide)
  obtain ⟨a', b', d'⟩ := c 2 (by decide)
  have v : (literal (1 / 4) : Ieee .single).val = 1 / 4 := by decide +kernel
  refine (C141_lerp Silence.usual_single 1 2 (literal (1 / 4)) ⟨a, b⟩ ⟨a', b'⟩ ⟨by decide +kernel, pack_valid hp _ _⟩ (by rw [v]; norm_num) (by rw [v]; norm_num) 2 ?_ ?_ ?_).1
  · rw [show (1 : Ieee .single).val = 1 by exact_mod_cast d]; norm_num
  · rw [show (2 : Ieee .single).val = 2 by exact_mod_cast d']; norm_num
  · show (2 : ℝ) * 2 + 1 ≤ 2 ^ ((128 : ℤ) - 1)
    norm_num

example : (lerp (1 : Ieee .single) 2 (1 : Ieee .single)).Finite ∧ (lerp (1 : Ieee .single) 2 (1 : Ieee .single)).val = (2 : Ieee .single).val := by
  have U := Silence.usual_single
  have hp : 0 < Format.single.p := by decide
  have c := fun n h => cast_exact (F := .single) hp (by decide) (by decide) n h
  obtain ⟨a, b, d⟩ := c 1 (by decide)
  obtain ⟨a', b', d'⟩ := c 2 (by decide)
  exact (C141_ends U 1 2 1 ⟨a, b⟩ ⟨a', b'⟩ ⟨a, b⟩).2 (by exact_mod_cast d)

/-- The greatest power of two in single precision, with a sine that is zero for numbers. -/
example : Ieee.sinc (fun y => if y.Finite then 0 else nan) (literal 3.14159265358979323846) (num false (2 ^ 127) : Ieee .single) = nan :=
  C141_sinc_far _ (fun y hy => if_neg hy) _ _ (by decide +kernel) (by rintro ⟨-, h⟩; have h : (2 : ℚ) ^ 127 = 0 := h; norm_num at h)

/-- At one half in single precision the cardinal sine is two divided by pi. -/
example : |((Ieee.sinc (fun _ => 1) (literal 3.14159265358979323846) (literal (1 / 2)) : Ieee .single).val : ℝ) - 2 / Real.pi| ≤ 13 / 2 ^ 24 := by
  have U := Silence.usual_single
  have hp : 0 < Format.single.p := by decide
  obtain ⟨g1, v1⟩ := FMDRounded.good_one U
  have vp : (literal 3.14159265358979323846 : Ieee .single).val = 13176795 / 4194304 := by decide +kernel
  have vx : (literal (1 / 2) : Ieee .single).val = 1 / 2 := by decide +kernel
  have vy : ((literal 3.14159265358979323846 : Ieee .single) * literal (1 / 2)).val = 13176795 / 8388608 := by decide +kernel
  have p1 := Real.pi_gt_d6
  have p2 := Real.pi_lt_d6
  have c : |Real.pi / 2 - 13176795 / 8388608| ≤ 1 / 10 ^ 6 := by
    rw [abs_le]
    constructor <;> norm_num <;> linarith
  have hsin : 1 - 1 / 10 ^ 9 ≤ Real.sin (13176795 / 8388608) := by
    rw [← Real.cos_pi_div_two_sub]
    refine le_trans ?_ Real.one_sub_sq_div_two_le_cos
    obtain ⟨c1, c2⟩ := abs_le.mp c
    nlinarith
  have hsin1 := Real.sin_le_one (13176795 / 8388608)
  have h := (C141_sinc_accurate U (by decide) (fun _ => 1) (literal 3.14159265358979323846) (literal (1 / 2)) ⟨g1, by
    rw [vy, v1]
    push_cast
    rw [abs_of_nonneg (by linarith), abs_of_nonneg (by linarith)]
    show _ ≤ 2 / 2 ^ 24 * _
    norm_num at hsin ⊢
    linarith⟩ ⟨by decide +kernel, pack_valid hp _ _⟩ (by
    rw [vp]
    push_cast
    show _ ≤ 2.01 / 2 ^ 24 * Real.pi
    rw [abs_le]
    constructor <;> norm_num at * <;> nlinarith [Real.pi_gt_d20, Real.pi_lt_d20]) ⟨by decide +kernel, pack_valid hp _ _⟩ (by
    rw [vx]
    show (2 : ℝ) ^ ((-149 : ℤ) + 24 - 1) ≤ _
    norm_num) (by
    rw [vx]
    show _ ≤ (2 : ℝ) ^ ((128 : ℤ) - 3)
    norm_num)).2
  rw [vx] at h
  have e : Real.sin (Real.pi * ((1 / 2 : ℚ) : ℝ)) / (Real.pi * ((1 / 2 : ℚ) : ℝ)) = 2 / Real.pi := by
    push_cast
    rw [mul_one_div, Real.sin_pi_div_two, one_div_div]
  rw [e] at h
  refine h.trans ?_
  show (12 : ℝ) / 2 ^ 24 + 2 ^ ((-149 : ℤ) - 1) ≤ _
  norm_num

example : Ieee.clamp (inf true : Ieee .single) 1 2 = 1 := (C141_clamp (inf true) 1 2 (by decide +kernel)).2.2.2.1 (by decide +kernel)

end DSP.UtilsIeee
