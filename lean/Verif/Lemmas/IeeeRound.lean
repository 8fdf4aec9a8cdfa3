import Verif.Lemmas.Ieee
import Verif.Lemmas.BinaryMono
import Verif.Lemmas.IntRound

/-!
# Rounding with gradual underflow
-/

namespace DSP
namespace Ieee

open Binary

variable {F : Format}

/-- The numbers of the format, without the limit above. -/
def Fits (F : Format) (x : ℚ) : Prop := Representable F.p x ∧ ∃ n : ℤ, x = n * 2 ^ F.emin

theorem roundTo_normal (x : ℚ) (h : (2 : ℚ) ^ (F.emin + F.p - 1) ≤ |x|) : roundTo F x = Binary.round F.p x := by
  have h0 : 0 < |x| := lt_of_lt_of_le (by positivity) h
  have hl : F.emin + F.p - 1 ≤ Int.log 2 |x| := (Int.zpow_le_iff_le_log (b := 2) (by norm_num) h0).mp (by push_cast; exact h)
  unfold roundTo Binary.round
  simp only [max_eq_right (show F.emin ≤ Int.log 2 |x| + 1 - F.p by omega)]

theorem roundTo_zero : roundTo F 0 = 0 := by simp [roundTo, nearest]

theorem roundTo_small (x : ℚ) (h : |x| < (2 : ℚ) ^ (F.emin + F.p)) : roundTo F x = nearest (x / 2 ^ F.emin) * 2 ^ F.emin := by
  by_cases hx : x = 0
  · subst hx; rw [roundTo_zero]; simp [nearest]
  have := log_lt x hx _ h
  unfold roundTo
  simp only [max_eq_left (show Int.log 2 |x| + 1 - F.p ≤ F.emin by omega)]

/-- Multiples of the smallest number never underflow. -/
theorem roundTo_grid (hp : 0 < F.p) (x : ℚ) (h : ∃ n : ℤ, x = n * 2 ^ F.emin) : roundTo F x = Binary.round F.p x := by
  rcases le_or_gt ((2 : ℚ) ^ (F.emin + F.p - 1)) |x| with h1 | h1
  · exact roundTo_normal x h1
  · have h2 : |x| < (2 : ℚ) ^ (F.emin + F.p) := h1.trans_le (zpow_le_zpow_right₀ (by norm_num) (by omega))
    obtain ⟨n, rfl⟩ := h
    rw [roundTo_small _ h2, mul_div_assoc, div_self (by positivity), mul_one, nearest_int]
    refine (round_of_representable F.p _ (representable_of_le F.p hp _ n F.emin rfl (h2.le.trans (le_of_eq ?_)))).symm
    rw [zpow_add₀ (by norm_num), zpow_natCast, mul_comm]

theorem roundTo_fits (hp : 0 < F.p) (x : ℚ) : Fits F (roundTo F x) := by
  rcases le_or_gt ((2 : ℚ) ^ (F.emin + F.p - 1)) |x| with h1 | h1
  · rw [roundTo_normal x h1]
    have h0 : 0 < |x| := lt_of_lt_of_le (by positivity) h1
    have hl : F.emin + F.p - 1 ≤ Int.log 2 |x| := (Int.zpow_le_iff_le_log (b := 2) (by norm_num) h0).mp (by push_cast; exact h1)
    exact ⟨round_representable F.p hp x, multiple_down _ _ _ (show F.emin ≤ Int.log 2 |x| + 1 - F.p by omega) ⟨_, round_eq F.p x⟩⟩
  · have h2 : |x| < (2 : ℚ) ^ (F.emin + F.p) := h1.trans_le (zpow_le_zpow_right₀ (by norm_num) (by omega))
    rw [roundTo_small x h2]
    refine ⟨representable_of_le F.p hp _ _ F.emin rfl ?_, _, rfl⟩
    have : |nearest (x / 2 ^ F.emin)| ≤ (2 : ℤ) ^ F.p := by
      refine nearest_le _ _ ?_
      rw [abs_div, abs_of_pos (by positivity : (0 : ℚ) < 2 ^ F.emin), div_le_iff₀ (by positivity)]
      push_cast
      rw [zpow_add₀ (by norm_num), zpow_natCast, mul_comm] at h2
      exact h2.le
    rw [abs_mul, abs_of_pos (by positivity : (0 : ℚ) < 2 ^ F.emin)]
    refine mul_le_mul_of_nonneg_right ?_ (by positivity)
    exact_mod_cast this

theorem roundTo_of_fits (hp : 0 < F.p) (x : ℚ) (h : Fits F x) : roundTo F x = x := by
  rw [roundTo_grid hp x h.2, round_of_representable F.p x h.1]

theorem roundTo_nearest (hp : 0 < F.p) (x y : ℚ) (hy : Fits F y) : |roundTo F x - x| ≤ |y - x| := by
  rcases le_or_gt ((2 : ℚ) ^ (F.emin + F.p - 1)) |x| with h1 | h1
  · rw [roundTo_normal x h1]
    exact round_nearest F.p hp x y hy.1
  · have h2 : |x| < (2 : ℚ) ^ (F.emin + F.p) := h1.trans_le (zpow_le_zpow_right₀ (by norm_num) (by omega))
    rw [roundTo_small x h2]
    obtain ⟨n, rfl⟩ := hy.2
    have hq : (0 : ℚ) < 2 ^ F.emin := by positivity
    have e : ∀ k : ℤ, |(k : ℚ) * 2 ^ F.emin - x| = |(k : ℚ) - x / 2 ^ F.emin| * 2 ^ F.emin := by
      intro k
      rw [← abs_of_pos hq, ← abs_mul, abs_of_pos hq, sub_mul, div_mul_cancel₀ _ hq.ne']
    rw [e, e]
    exact mul_le_mul_of_nonneg_right (nearest_min _ n) hq.le

theorem roundTo_le (hp : 0 < F.p) (x y : ℚ) (hy : Fits F y) (h : x ≤ y) : roundTo F x ≤ y := by
  have := roundTo_nearest hp x y hy
  rw [abs_of_nonneg (sub_nonneg.mpr h)] at this
  linarith [le_abs_self (roundTo F x - x)]

theorem le_roundTo (hp : 0 < F.p) (x y : ℚ) (hy : Fits F y) (h : y ≤ x) : y ≤ roundTo F x := by
  have := roundTo_nearest hp x y hy
  rw [abs_of_nonpos (sub_nonpos.mpr h)] at this
  linarith [neg_abs_le (roundTo F x - x)]

theorem roundTo_mono (hp : 0 < F.p) (x y : ℚ) (h : x ≤ y) : roundTo F x ≤ roundTo F y := by
  have hx := roundTo_fits hp x
  have hy := roundTo_fits hp y
  by_contra c
  push Not at c
  have h1 := roundTo_nearest hp x _ hy
  have h2 := roundTo_nearest hp y _ hx
  by_cases hxy : x ≤ roundTo F y
  · exact absurd (roundTo_le hp x _ hy hxy) (not_le.mpr c)
  push Not at hxy
  rw [abs_sub_comm (roundTo F y) x, abs_of_pos (show 0 < x - roundTo F y by linarith)] at h1
  rw [abs_sub_comm (roundTo F y) y, abs_of_pos (show 0 < y - roundTo F y by linarith)] at h2
  have h3 := le_abs_self (roundTo F x - x)
  rcases le_total (roundTo F x) y with h4 | h4
  · rw [abs_of_nonpos (sub_nonpos.mpr h4)] at h2
    linarith
  · rw [abs_of_nonneg (sub_nonneg.mpr h4)] at h2
    have : x = y := by linarith
    rw [this] at c
    exact lt_irrefl _ c

theorem roundTo_neg (x : ℚ) : roundTo F (-x) = -roundTo F x := by
  unfold roundTo
  simp only [abs_neg]
  rw [neg_div, nearest_neg]
  push_cast
  ring

theorem roundTo_nonneg (hp : 0 < F.p) (x : ℚ) (h : 0 ≤ x) : 0 ≤ roundTo F x := by
  have := roundTo_mono hp 0 x h
  rwa [roundTo_zero] at this

theorem roundTo_abs (hp : 0 < F.p) (x : ℚ) : |roundTo F x| = roundTo F |x| := by
  rcases le_total 0 x with h | h
  · rw [abs_of_nonneg h, abs_of_nonneg (roundTo_nonneg hp x h)]
  · rw [abs_of_nonpos h, roundTo_neg, abs_of_nonpos]
    have := roundTo_nonneg hp (-x) (by linarith)
    rw [roundTo_neg] at this
    linarith

/-- Half a unit of the last place, or half of the smallest number. -/
theorem roundTo_error (x : ℚ) : |roundTo F x - x| ≤ max (|x| / 2 ^ F.p) (2 ^ F.emin / 2) := by
  rcases le_or_gt ((2 : ℚ) ^ (F.emin + F.p - 1)) |x| with h1 | h1
  · rw [roundTo_normal x h1]
    exact (round_error F.p x).trans (le_max_left _ _)
  · have h2 : |x| < (2 : ℚ) ^ (F.emin + F.p) := h1.trans_le (zpow_le_zpow_right₀ (by norm_num) (by omega))
    rw [roundTo_small x h2]
    have hq : (0 : ℚ) < 2 ^ F.emin := by positivity
    have e : |(nearest (x / 2 ^ F.emin) : ℚ) * 2 ^ F.emin - x| = |(nearest (x / 2 ^ F.emin) : ℚ) - x / 2 ^ F.emin| * 2 ^ F.emin := by
      rw [← abs_of_pos hq, ← abs_mul, abs_of_pos hq, sub_mul, div_mul_cancel₀ _ hq.ne']
    rw [e]
    refine le_trans ?_ (le_max_right _ _)
    calc _ ≤ 1 / 2 * (2 : ℚ) ^ F.emin := mul_le_mul_of_nonneg_right (nearest_near _) hq.le
      _ = _ := by ring

/-! ### The operations -/

theorem signed_zero (s : Bool) : signed s 0 = 0 := by cases s <;> simp [signed]

theorem signed_abs (s : Bool) (m : ℚ) : |signed s m| = |m| := by cases s <;> simp [signed]

theorem signed_mul (s t : Bool) (a b : ℚ) : signed s a * signed t b = signed (s ^^ t) (a * b) := by cases s <;> cases t <;> simp [signed]

theorem signed_div (s t : Bool) (a b : ℚ) : signed s a / signed t b = signed (s ^^ t) (a / b) := by cases s <;> cases t <;> simp [signed, div_neg, neg_div]

theorem signed_decide (x : ℚ) : signed (decide (x < 0)) |x| = x := by
  unfold signed
  by_cases h : x < 0
  · simp [h, abs_of_neg h]
  · simp [h, abs_of_nonneg (not_lt.mp h)]

theorem signed_round (s : Bool) (x : ℚ) : signed s (roundTo F x) = roundTo F (signed s x) := by
  cases s
  · rfl
  · exact (roundTo_neg x).symm

theorem finite_iff (a : Ieee F) : a.Finite ↔ ∃ s m, a = num s m := by
  cases a with
  | nan => exact ⟨fun h => h.elim, fun ⟨_, _, h⟩ => Ieee.noConfusion rfl (heq_of_eq h)⟩
  | inf s => exact ⟨fun h => h.elim, fun ⟨_, _, h⟩ => Ieee.noConfusion rfl (heq_of_eq h)⟩
  | num s m => exact ⟨fun _ => ⟨s, m, rfl⟩, fun _ => trivial⟩

theorem pack_cases (s : Bool) (x : ℚ) : (pack s x : Ieee F) = if 2 ^ F.emax ≤ |roundTo F x| then inf s else num s |roundTo F x| := rfl

theorem pack_finite (s : Bool) (x : ℚ) : (pack s x : Ieee F).Finite ↔ |roundTo F x| < 2 ^ F.emax := by
  rw [pack_cases]
  by_cases h : 2 ^ F.emax ≤ |roundTo F x|
  · rw [if_pos h]; exact ⟨fun h => h.elim, fun h' => absurd h (not_le.mpr h')⟩
  · rw [if_neg h]; exact ⟨fun _ => not_le.mp h, fun _ => trivial⟩

theorem pack_num (s : Bool) (x : ℚ) (h : |roundTo F x| < 2 ^ F.emax) : (pack s x : Ieee F) = num s |roundTo F x| := by
  rw [pack_cases, if_neg (not_le.mpr h)]

theorem fits_abs {x : ℚ} (h : Fits F x) : Fits F |x| := by
  rcases abs_choice x with e | e
  · rwa [e]
  · rw [e]
    obtain ⟨⟨m, k, h1, h2⟩, n, h3⟩ := h
    exact ⟨⟨-m, k, by rwa [abs_neg], by rw [h2]; push_cast; ring⟩, -n, by rw [h3]; push_cast; ring⟩

theorem valid_of_fits (s : Bool) (m : ℚ) (h0 : 0 ≤ m) (h1 : m < 2 ^ F.emax) (h : Fits F m) : (num s m : Ieee F).Valid := by
  refine ⟨h0, h1, ?_⟩
  obtain ⟨⟨n, e, hn, rfl⟩, k, hk⟩ := h
  rcases le_or_gt F.emin e with he | he
  · have : 0 ≤ n := by
      have := nonneg_of_mul_nonneg_left h0 (by positivity)
      exact_mod_cast this
    refine ⟨n.toNat, e, ?_, he, ?_⟩
    · rw [abs_of_nonneg this] at hn
      zify
      rwa [Int.toNat_of_nonneg this]
    · congr 1
      exact_mod_cast (Int.toNat_of_nonneg this).symm
  · have hk0 : 0 ≤ k := by
      rw [hk] at h0
      have := nonneg_of_mul_nonneg_left h0 (by positivity)
      exact_mod_cast this
    refine ⟨k.toNat, F.emin, ?_, le_rfl, ?_⟩
    · zify
      rw [Int.toNat_of_nonneg hk0]
      have h2 : (k : ℚ) * 2 ^ F.emin < 2 ^ F.p * 2 ^ F.emin := by
        rw [← hk]
        calc (n : ℚ) * 2 ^ e ≤ |(n : ℚ)| * 2 ^ e := mul_le_mul_of_nonneg_right (le_abs_self _) (by positivity)
          _ ≤ |(n : ℚ)| * 2 ^ F.emin := mul_le_mul_of_nonneg_left (zpow_le_zpow_right₀ (by norm_num) he.le) (abs_nonneg _)
          _ < _ := mul_lt_mul_of_pos_right (by exact_mod_cast hn) (by positivity)
      have := lt_of_mul_lt_mul_right h2 (by positivity)
      exact_mod_cast this
    · rw [hk]
      congr 1
      exact_mod_cast (Int.toNat_of_nonneg hk0).symm

theorem pack_valid (hp : 0 < F.p) (s : Bool) (x : ℚ) : (pack s x : Ieee F).Valid := by
  rw [pack_cases]
  split_ifs with h
  · trivial
  · exact valid_of_fits s _ (abs_nonneg _) (not_le.mp h) (fits_abs (roundTo_fits hp x))

theorem valid_fits {a : Ieee F} (h : a.Valid) : Fits F a.val := by
  cases a with
  | nan => exact ⟨⟨0, 0, by simp, by simp [val]⟩, 0, by simp [val]⟩
  | inf s => exact ⟨⟨0, 0, by simp, by simp [val]⟩, 0, by simp [val]⟩
  | num s m =>
    obtain ⟨h0, h1, n, e, hn, he, hm⟩ := h
    have hn' : |(n : ℤ)| < 2 ^ F.p := by rw [abs_of_nonneg (Int.natCast_nonneg n)]; exact_mod_cast hn
    have hf : Fits F m := ⟨⟨n, e, hn', by rw [hm]; norm_num⟩, multiple_down _ _ _ he ⟨n, by rw [hm]; norm_num⟩⟩
    cases s
    · exact hf
    · show Fits F (-m)
      obtain ⟨⟨m', k, h1, h2⟩, n, h3⟩ := hf
      exact ⟨⟨-m', k, by rwa [abs_neg], by rw [h2]; push_cast; ring⟩, -n, by rw [h3]; push_cast; ring⟩

theorem pack_val (hp : 0 < F.p) (s : Bool) (x : ℚ) (h : (pack s x : Ieee F).Finite) : (pack s x : Ieee F).val = roundTo F (signed s |x|) := by
  rw [pack_finite] at h
  rw [pack_num s x h, ← signed_round, ← roundTo_abs hp]
  rfl

theorem val_lt {a : Ieee F} (h : a.Valid) : |a.val| < 2 ^ F.emax := by
  cases a with
  | nan => simp only [val, abs_zero]; positivity
  | inf s => simp only [val, abs_zero]; positivity
  | num s m => rw [val, signed_abs, abs_of_nonneg h.1]; exact h.2.1

theorem add_valid (hp : 0 < F.p) (a b : Ieee F) : (a + b).Valid := by
  cases a with
  | nan => trivial
  | inf s =>
    cases b with
    | nan => trivial
    | inf t => show (if s = t then inf s else nan : Ieee F).Valid; split_ifs <;> trivial
    | num t b => trivial
  | num s a =>
    cases b with
    | nan => trivial
    | inf t => trivial
    | num t b =>
      show (if signed s a + signed t b = 0 then num (s && t) 0 else pack (decide (signed s a + signed t b < 0)) (signed s a + signed t b) : Ieee F).Valid
      split_ifs
      · exact valid_of_fits _ _ le_rfl (by positivity) ⟨⟨0, 0, by simp, by simp⟩, 0, by simp⟩
      · exact pack_valid hp _ _

theorem mul_valid (hp : 0 < F.p) (a b : Ieee F) : (a * b).Valid := by
  cases a with
  | nan => trivial
  | inf s =>
    cases b with
    | nan => trivial
    | inf t => trivial
    | num t b => show (if b = 0 then nan else inf (s ^^ t) : Ieee F).Valid; split_ifs <;> trivial
  | num s a =>
    cases b with
    | nan => trivial
    | inf t => show (if a = 0 then nan else inf (s ^^ t) : Ieee F).Valid; split_ifs <;> trivial
    | num t b => exact pack_valid hp _ _

theorem neg_valid (a : Ieee F) (h : a.Valid) : (-a).Valid := by
  cases a with
  | nan => trivial
  | inf s => trivial
  | num s m => exact h

theorem neg_finite (a : Ieee F) (h : a.Finite) : (-a).Finite := by
  obtain ⟨s, m, rfl⟩ := (finite_iff a).mp h
  trivial

theorem neg_val (a : Ieee F) : (-a).val = -a.val := by
  cases a with
  | nan => show (0 : ℚ) = -0; simp
  | inf s => show (0 : ℚ) = -0; simp
  | num s m => show signed (!s) m = -signed s m; cases s <;> simp [signed]

theorem add_num (s t : Bool) (a b : ℚ) : (num s a + num t b : Ieee F) = if signed s a + signed t b = 0 then num (s && t) 0 else pack (decide (signed s a + signed t b < 0)) (signed s a + signed t b) := rfl

theorem add_finite (a b : Ieee F) (ha : a.Finite) (hb : b.Finite) : (a + b).Finite ↔ |roundTo F (a.val + b.val)| < 2 ^ F.emax := by
  obtain ⟨s, a, rfl⟩ := (finite_iff a).mp ha
  obtain ⟨t, b, rfl⟩ := (finite_iff b).mp hb
  rw [add_num]
  simp only [val]
  split_ifs with h
  · rw [h, roundTo_zero, abs_zero]
    exact ⟨fun _ => by positivity, fun _ => trivial⟩
  · exact pack_finite _ _

theorem add_val (hp : 0 < F.p) (a b : Ieee F) (ha : a.Finite) (hb : b.Finite) (h : (a + b).Finite) : (a + b).val = roundTo F (a.val + b.val) := by
  obtain ⟨s, a, rfl⟩ := (finite_iff a).mp ha
  obtain ⟨t, b, rfl⟩ := (finite_iff b).mp hb
  rw [add_num] at h ⊢
  simp only [val] at *
  split_ifs at h ⊢ with h0
  · rw [h0, roundTo_zero]; exact signed_zero _
  · have := pack_val hp _ _ h
    rw [signed_decide] at this
    exact this

/-- Sums do not suffer from underflow. -/
theorem add_val' (hp : 0 < F.p) (a b : Ieee F) (ha : a.Finite) (hb : b.Finite) (va : a.Valid) (vb : b.Valid) (h : (a + b).Finite) : (a + b).val = Binary.round F.p (a.val + b.val) := by
  rw [add_val hp a b ha hb h, roundTo_grid hp]
  obtain ⟨n, hn⟩ := (valid_fits va).2
  obtain ⟨k, hk⟩ := (valid_fits vb).2
  exact ⟨n + k, by rw [hn, hk]; push_cast; ring⟩

theorem mul_finite (a b : Ieee F) (ha : a.Finite) (hb : b.Finite) : (a * b).Finite ↔ |roundTo F (a.val * b.val)| < 2 ^ F.emax := by
  obtain ⟨s, a, rfl⟩ := (finite_iff a).mp ha
  obtain ⟨t, b, rfl⟩ := (finite_iff b).mp hb
  simp only [val, signed_mul]
  refine (pack_finite (s ^^ t) (a * b)).trans ?_
  cases (s ^^ t)
  · rfl
  · show _ ↔ |roundTo F (-(a * b))| < _
    rw [roundTo_neg, abs_neg]

theorem mul_val (hp : 0 < F.p) (a b : Ieee F) (ha : a.Finite) (hb : b.Finite) (va : a.Valid) (vb : b.Valid) (h : (a * b).Finite) : (a * b).val = roundTo F (a.val * b.val) := by
  obtain ⟨s, a, rfl⟩ := (finite_iff a).mp ha
  obtain ⟨t, b, rfl⟩ := (finite_iff b).mp hb
  simp only [val, signed_mul]
  have := pack_val hp (s ^^ t) (a * b) h
  rw [abs_of_nonneg (mul_nonneg va.1 vb.1)] at this
  exact this

theorem div_val (hp : 0 < F.p) (a b : Ieee F) (ha : a.Finite) (hb : b.Finite) (va : a.Valid) (vb : b.Valid) (h : (a / b).Finite) (h0 : b.val ≠ 0) : (a / b).val = roundTo F (a.val / b.val) := by
  obtain ⟨s, a, rfl⟩ := (finite_iff a).mp ha
  obtain ⟨t, b, rfl⟩ := (finite_iff b).mp hb
  have hb0 : b ≠ 0 := fun e => h0 (by rw [e]; exact signed_zero t)
  have e : (num s a / num t b : Ieee F) = if b = 0 then (if a = 0 then nan else inf (s ^^ t)) else pack (s ^^ t) (a / b) := rfl
  rw [e, if_neg hb0] at h ⊢
  simp only [val, signed_div]
  have := pack_val hp (s ^^ t) (a / b) h
  rw [abs_of_nonneg (div_nonneg va.1 vb.1)] at this
  exact this

theorem div_finite (a b : Ieee F) (ha : a.Finite) (hb : b.Finite) (h0 : b.val ≠ 0) : (a / b).Finite ↔ |roundTo F (a.val / b.val)| < 2 ^ F.emax := by
  obtain ⟨s, a, rfl⟩ := (finite_iff a).mp ha
  obtain ⟨t, b, rfl⟩ := (finite_iff b).mp hb
  have hb0 : b ≠ 0 := fun e => h0 (by rw [e]; exact signed_zero t)
  have e : (num s a / num t b : Ieee F) = if b = 0 then (if a = 0 then nan else inf (s ^^ t)) else pack (s ^^ t) (a / b) := rfl
  rw [e, if_neg hb0]
  simp only [val, signed_div]
  refine (pack_finite (s ^^ t) (a / b)).trans ?_
  cases (s ^^ t)
  · rfl
  · show _ ↔ |roundTo F (-(a / b))| < _
    rw [roundTo_neg, abs_neg]

theorem div_valid (hp : 0 < F.p) (a b : Ieee F) : (a / b).Valid := by
  have h0 : ∀ s, (num s 0 : Ieee F).Valid := fun s => valid_of_fits _ _ le_rfl (by positivity) ⟨⟨0, 0, by simp, by simp⟩, 0, by simp⟩
  cases a with
  | nan => trivial
  | inf s => cases b <;> trivial
  | num s a =>
    cases b with
    | nan => trivial
    | inf t => exact h0 _
    | num t b =>
      show (if b = 0 then (if a = 0 then nan else inf (s ^^ t)) else pack (s ^^ t) (a / b) : Ieee F).Valid
      split_ifs
      · trivial
      · trivial
      · exact pack_valid hp _ _

/-- Integers of at most `p` bits are exact. -/
theorem cast_exact (hp : 0 < F.p) (h1 : F.emin ≤ 0) (h2 : F.p ≤ F.emax) (n : ℤ) (hn : |n| < 2 ^ F.p) : (n : Ieee F).Finite ∧ (n : Ieee F).Valid ∧ (n : Ieee F).val = n := by
  have hf : Fits F (n : ℚ) := ⟨⟨n, 0, hn, by simp⟩, multiple_down _ 0 _ h1 ⟨n, by simp⟩⟩
  have hr := roundTo_of_fits hp _ hf
  have hlt : |roundTo F (n : ℚ)| < 2 ^ F.emax := by
    rw [hr]
    calc |(n : ℚ)| < 2 ^ F.p := by exact_mod_cast hn
      _ = (2 : ℚ) ^ (F.p : ℤ) := (zpow_natCast _ _).symm
      _ ≤ _ := zpow_le_zpow_right₀ (by norm_num) h2
  have e : (n : Ieee F) = pack (decide (n < 0)) n := rfl
  have hd : decide (n < 0) = decide ((n : ℚ) < 0) := by congr 1; rw [eq_iff_iff]; exact Int.cast_lt_zero.symm
  have hfin : (pack (decide (n < 0)) (n : ℚ) : Ieee F).Finite := (pack_finite _ _).mpr hlt
  refine ⟨hfin, pack_valid hp _ _, ?_⟩
  rw [e, pack_val hp _ _ hfin, hd, signed_decide, hr]

end Ieee
end DSP
