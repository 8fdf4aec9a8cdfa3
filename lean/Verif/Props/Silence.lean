import Verif.Lemmas.IeeeRound
import Verif.Model.Filters
import Mathlib.Order.Monotone.Basic

/-!
# Silence and gradual underflow (C97)

Behind the end of a signal the recursive filters of first order multiply their output with a factor below one again and again. In IEEE arithmetic that ends in zero if the factor is at most
one half; otherwise the output decays to a subnormal number and stays there for ever.
-/

namespace DSP
namespace Silence

open Ieee

variable {F : Format}

/-! ### The recursion -/

section
variable (hp : 0 < F.p) (a : ℚ) (w : ℕ → ℚ) (h0 : 0 ≤ a) (h1 : a ≤ 1) (hw0 : 0 ≤ w 0) (hf : Fits F (w 0)) (hw : ∀ n, w (n + 1) = roundTo F (a * w n))

include hp hf hw in
theorem fits_all (n : ℕ) : Fits F (w n) := by
  cases n with
  | zero => exact hf
  | succ n => rw [hw]; exact roundTo_fits hp _

include hp h0 hw0 hw in
theorem nonneg_all (n : ℕ) : 0 ≤ w n := by
  induction n with
  | zero => exact hw0
  | succ n ih => rw [hw]; exact roundTo_nonneg hp _ (mul_nonneg h0 ih)

include hp h0 h1 hw0 hf hw in
theorem decreases (n : ℕ) : w (n + 1) ≤ w n := by
  have := nonneg_all hp a w h0 hw0 hw n
  rw [hw]
  exact roundTo_le hp _ _ (fits_all hp a w hf hw n) (mul_le_of_le_one_left this h1)

include hp h0 h1 hw0 hf hw in
theorem eventually_constant : ∃ N, ∀ n, N ≤ n → w n = w N := by
  have hq : (0 : ℚ) < 2 ^ F.emin := by positivity
  choose k hk using fun n => (fits_all hp a w hf hw n).2
  have hk0 : ∀ n, 0 ≤ k n := by
    intro n
    have := nonneg_all hp a w h0 hw0 hw n
    rw [hk] at this
    exact_mod_cast nonneg_of_mul_nonneg_left this hq
  have hanti : ∀ n, (k (n + 1)).toNat ≤ (k n).toNat := by
    intro n
    have := decreases hp a w h0 h1 hw0 hf hw n
    rw [hk, hk n] at this
    have := le_of_mul_le_mul_right this hq
    have : k (n + 1) ≤ k n := by exact_mod_cast this
    have := hk0 n
    omega
  have hanti := antitone_nat_of_succ_le (f := fun n => (k n).toNat) hanti
  obtain ⟨N, hN⟩ : ∃ N, ∀ n, (k N).toNat ≤ (k n).toNat := by
    classical
    have hex : ∃ m, ∃ n, (k n).toNat = m := ⟨_, 0, rfl⟩
    obtain ⟨N, hN⟩ := Nat.find_spec hex
    exact ⟨N, fun n => by rw [hN]; exact Nat.find_min' hex ⟨n, rfl⟩⟩
  refine ⟨N, fun n hn => ?_⟩
  have e : k n = k N := by
    have := hN n
    have : (k n).toNat ≤ (k N).toNat := hanti hn
    have := hk0 n
    have := hk0 N
    omega
  rw [hk, hk N, e]

include hw in
theorem stays_zero (h : w 0 = 0) (n : ℕ) : w n = 0 := by
  induction n with
  | zero => exact h
  | succ n ih => rw [hw, ih, mul_zero, roundTo_zero]

include hp hf hw in
theorem stays_positive (ha : 1 / 2 < a) (hpos : 0 < w 0) (n : ℕ) : 0 < w n := by
  have hq : (0 : ℚ) < 2 ^ F.emin := by positivity
  induction n with
  | zero => exact hpos
  | succ n ih =>
    obtain ⟨k, hk⟩ := (fits_all hp a w hf hw n).2
    have hk1 : 1 ≤ k := by
      rw [hk] at ih
      have : (0 : ℚ) < k := pos_of_mul_pos_left ih hq.le
      have : 0 < k := by exact_mod_cast this
      omega
    have hge : (2 : ℚ) ^ F.emin ≤ w n := by
      rw [hk]
      exact le_mul_of_one_le_left hq.le (by exact_mod_cast hk1)
    have hgt : (2 : ℚ) ^ F.emin / 2 < a * w n := by nlinarith
    have hpos' : 0 < a * w n := lt_trans (by positivity) hgt
    rw [hw]
    refine lt_of_le_of_ne (roundTo_nonneg hp _ hpos'.le) fun h => ?_
    have hn := roundTo_nearest hp (a * w n) (2 ^ F.emin) ⟨⟨1, F.emin, by
      rw [abs_one]; exact one_lt_pow₀ (by norm_num) hp.ne', by push_cast; ring⟩, 1, by push_cast; ring⟩
    rw [← h, zero_sub, abs_neg, abs_of_pos hpos'] at hn
    rcases le_total ((2 : ℚ) ^ F.emin) (a * w n) with h2 | h2
    · rw [abs_of_nonpos (by linarith)] at hn; linarith
    · rw [abs_of_nonneg (by linarith)] at hn; linarith

include hp h0 hw0 hf hw in
theorem reaches_zero (ha : a ≤ 1 / 2) : ∃ N, ∀ n, N ≤ n → w n = 0 := by
  have hq : (0 : ℚ) < 2 ^ F.emin := by positivity
  obtain ⟨N, hN⟩ := eventually_constant hp a w h0 (by linarith) hw0 hf hw
  suffices w N = 0 from ⟨N, fun n hn => (hN n hn).trans this⟩
  by_contra hne
  have hpos : 0 < w N := lt_of_le_of_ne (nonneg_all hp a w h0 hw0 hw N) (Ne.symm hne)
  have hfix : roundTo F (a * w N) = w N := by rw [← hw]; exact hN _ (by omega)
  have hle : a * w N ≤ w N / 2 := by nlinarith
  have hn0 := roundTo_nearest hp (a * w N) 0 ⟨⟨0, 0, by simp, by simp⟩, 0, by simp⟩
  have hz : 0 ≤ a * w N := mul_nonneg h0 hpos.le
  rw [hfix, abs_of_nonneg (by linarith), zero_sub, abs_neg, abs_of_nonneg hz] at hn0
  have ha2 : a * w N = w N / 2 := by linarith
  -- the tie: half of a number that is its own half rounded
  rw [ha2] at hfix
  obtain ⟨k, hk⟩ := (fits_all hp a w hf hw N).2
  have hk1 : 1 ≤ k := by
    rw [hk] at hpos
    have : (0 : ℚ) < k := pos_of_mul_pos_left hpos hq.le
    have : 0 < k := by exact_mod_cast this
    omega
  rcases hk1.eq_or_lt with h | h
  · have : w N = 2 ^ F.emin := by rw [hk, ← h]; push_cast; ring
    rw [this, roundTo_small] at hfix
    · rw [show (2 : ℚ) ^ F.emin / 2 / 2 ^ F.emin = 1 / 2 by field_simp] at hfix
      rw [Binary.nearest_half 0 rfl (1 / 2) (by norm_num) (by norm_num)] at hfix
      push_cast at hfix
      linarith
    · rw [abs_of_pos (by positivity)]
      calc (2 : ℚ) ^ F.emin / 2 < 2 ^ F.emin := by linarith
        _ ≤ _ := zpow_le_zpow_right₀ (by norm_num) (by omega)
  · -- at least two units: a smaller multiple is nearer
    have hn1 := roundTo_nearest hp (w N / 2) (2 ^ F.emin) ⟨⟨1, F.emin, by
      rw [abs_one]; exact one_lt_pow₀ (by norm_num) hp.ne', by push_cast; ring⟩, 1, by push_cast; ring⟩
    have hk2 : (2 : ℚ) ≤ k := by exact_mod_cast h
    have : 2 * (2 : ℚ) ^ F.emin ≤ w N := by rw [hk]; exact mul_le_mul_of_nonneg_right hk2 hq.le
    rw [hfix, abs_of_nonneg (by linarith), abs_of_nonpos (by linarith)] at hn1
    linarith

include hp h0 hw0 hf hw in
theorem ends_small (ha : 1 / 2 ^ F.p < 1 - a) : ∃ N, ∀ n, N ≤ n → w n = w N ∧ w n ≤ 2 ^ F.emin / (2 * (1 - a)) := by
  have hq : (0 : ℚ) < 2 ^ F.emin := by positivity
  have hu : (0 : ℚ) < 1 / 2 ^ F.p := by positivity
  obtain ⟨N, hN⟩ := eventually_constant hp a w h0 (by linarith) hw0 hf hw
  refine ⟨N, fun n hn => ⟨hN n hn, ?_⟩⟩
  rw [hN n hn]
  have hpos := nonneg_all hp a w h0 hw0 hw N
  have hfix : roundTo F (a * w N) = w N := by rw [← hw]; exact hN _ (by omega)
  have he := roundTo_error (F := F) (a * w N)
  rw [hfix, abs_of_nonneg (by nlinarith), abs_of_nonneg (mul_nonneg h0 hpos)] at he
  rw [le_div_iff₀ (by linarith)]
  rcases le_max_iff.mp he with h | h
  · by_contra c
    have hw' : 0 < w N := by
      refine lt_of_le_of_ne hpos fun e => c ?_
      rw [← e, zero_mul]; exact hq.le
    have h2 : a * w N / 2 ^ F.p ≤ w N * (1 / 2 ^ F.p) := by
      rw [mul_one_div]
      exact div_le_div_of_nonneg_right (by nlinarith) (by positivity)
    nlinarith
  · nlinarith

end

/-! ### The filters -/

theorem zero_add_val (hp : 0 < F.p) (s : Bool) (a : Ieee F) (ha : a.Finite) (va : a.Valid) : (num s 0 + a).Finite ∧ (num s 0 + a).val = a.val := by
  have hr : roundTo F ((num s 0 : Ieee F).val + a.val) = a.val := by
    rw [show (num s 0 : Ieee F).val = 0 from signed_zero s, zero_add, roundTo_of_fits hp _ (valid_fits va)]
  have h : (num s 0 + a).Finite := (add_finite (num s 0) a trivial ha).mpr (by rw [hr]; exact val_lt va)
  exact ⟨h, by rw [add_val hp (num s 0) a trivial ha h, hr]⟩

theorem add_zero_val (hp : 0 < F.p) (s : Bool) (a : Ieee F) (ha : a.Finite) (va : a.Valid) : (a + num s 0).Finite ∧ (a + num s 0).val = a.val := by
  have hr : roundTo F (a.val + (num s 0 : Ieee F).val) = a.val := by
    rw [show (num s 0 : Ieee F).val = 0 from signed_zero s, add_zero, roundTo_of_fits hp _ (valid_fits va)]
  have h : (a + num s 0).Finite := (add_finite a (num s 0) ha trivial).mpr (by rw [hr]; exact val_lt va)
  exact ⟨h, by rw [add_val hp a (num s 0) ha trivial h, hr]⟩

theorem mul_zero_num (a : Ieee F) (ha : a.Finite) (s : Bool) : ∃ t, a * num s 0 = num t 0 := by
  obtain ⟨t, m, rfl⟩ := (finite_iff a).mp ha
  refine ⟨t ^^ s, ?_⟩
  show (pack (t ^^ s) (m * 0) : Ieee F) = _
  rw [mul_zero, pack_num, roundTo_zero, abs_zero]
  rw [roundTo_zero, abs_zero]; positivity

theorem sub_zero_num (s t : Bool) : ∃ r, (num s 0 - num t 0 : Ieee F) = num r 0 := by
  refine ⟨s && !t, ?_⟩
  show (num s 0 + num (!t) 0 : Ieee F) = _
  rw [add_num, signed_zero, signed_zero, add_zero, if_pos rfl]

/-- A factor of at most one never leads out of the finite numbers. -/
theorem scale_val (hp : 0 < F.p) (a y : Ieee F) (ha : a.Finite) (va : a.Valid) (hy : y.Finite) (vy : y.Valid) (h0 : 0 ≤ a.val) (h1 : a.val ≤ 1) :
    (a * y).Finite ∧ (a * y).val = roundTo F (a.val * y.val) := by
  have h : (a * y).Finite := by
    rw [mul_finite a y ha hy, roundTo_abs hp]
    refine lt_of_le_of_lt (roundTo_le hp _ |y.val| (fits_abs (valid_fits vy)) ?_) (val_lt vy)
    rw [abs_mul, abs_of_nonneg h0]
    exact mul_le_of_le_one_left (abs_nonneg _) h1
  exact ⟨h, mul_val hp a y ha hy va vy h⟩

/-- What happens to the output `y` of a filter on silence, if its last output was `last` and its factor is `a`. -/
structure Fades (F : Format) (a : ℚ) (last : ℚ) (y : ℕ → Ieee F) : Prop where
  /-- it never grows, never overflows and never changes its sign; -/
  finite : ∀ n, (y n).Finite
  shrinks : ∀ n, |(y (n + 1)).val| ≤ |(y n).val|
  first : |(y 0).val| ≤ |last|
  sign : ∀ n, 0 ≤ last * (y n).val
  /-- it becomes zero if the factor is at most one half, -/
  zero : a ≤ 1 / 2 → ∃ N, ∀ n, N ≤ n → (y n).val = 0
  /-- but otherwise it never does -/
  never : 1 / 2 < a → last ≠ 0 → ∀ n, (y n).val ≠ 0
  /-- and stays at some tiny number. -/
  stuck : 1 / 2 ^ F.p < 1 - a → ∃ N, ∀ n, N ≤ n → (y n).val = (y N).val ∧ |(y n).val| ≤ 2 ^ F.emin / (2 * (1 - a))

/-- The last output before the silence, and the outputs. -/
def withLast (last : ℚ) (y : ℕ → Ieee F) : ℕ → ℚ
  | 0 => last
  | n + 1 => (y n).val

theorem fades (hp : 0 < F.p) (a : ℚ) (h0 : 0 ≤ a) (h1 : a ≤ 1) (last : ℚ) (hl : Fits F last) (y : ℕ → Ieee F) (hfin : ∀ n, (y n).Finite) (hy0 : (y 0).val = roundTo F (a * last))
    (hy : ∀ n, (y (n + 1)).val = roundTo F (a * (y n).val)) : Fades F a last y := by
  let w : ℕ → ℚ := fun n => |withLast last y n|
  have hw : ∀ n, w (n + 1) = roundTo F (a * w n) := by
    intro n
    have : ∀ r : ℚ, a * |r| = |a * r| := fun r => by rw [abs_mul, abs_of_nonneg h0]
    cases n with
    | zero =>
      show |(y 0).val| = roundTo F (a * |last|)
      rw [this, ← roundTo_abs hp, hy0]
    | succ n =>
      show |(y (n + 1)).val| = roundTo F (a * |(y n).val|)
      rw [this, ← roundTo_abs hp, hy]
  have hw0 : 0 ≤ w 0 := abs_nonneg _
  have hf : Fits F (w 0) := fits_abs hl
  have hwy : ∀ n, w (n + 1) = |(y n).val| := fun n => rfl
  have hsg : ∀ r v : ℚ, 0 ≤ r * v → 0 ≤ r * roundTo F (a * v) := by
    intro r v h
    rcases lt_trichotomy v 0 with c | c | c
    · have hr : r ≤ 0 := by by_contra hc; push Not at hc; nlinarith
      have := roundTo_nonneg hp (-(a * v)) (by nlinarith)
      rw [roundTo_neg] at this
      nlinarith
    · rw [c, mul_zero, roundTo_zero, mul_zero]
    · have hr : 0 ≤ r := by by_contra hc; push Not at hc; nlinarith
      exact mul_nonneg hr (roundTo_nonneg hp _ (mul_nonneg h0 c.le))
  have hsign : ∀ n, 0 ≤ last * (y n).val := by
    intro n
    induction n with
    | zero => rw [hy0]; exact hsg _ _ (mul_self_nonneg _)
    | succ n ih => rw [hy]; exact hsg _ _ ih
  refine ⟨hfin, fun n => ?_, ?_, hsign, fun ha => ?_, fun ha hne n => ?_, fun ha => ?_⟩
  · rw [← hwy, ← hwy]; exact decreases hp a w h0 h1 hw0 hf hw (n + 1)
  · rw [← hwy]; exact decreases hp a w h0 h1 hw0 hf hw 0
  · obtain ⟨N, hN⟩ := reaches_zero hp a w h0 hw0 hf hw ha
    exact ⟨N, fun n hn => abs_eq_zero.mp ((hwy n).symm.trans (hN (n + 1) (by omega)))⟩
  · have := stays_positive hp a w hf hw ha (abs_pos.mpr hne) (n + 1)
    rw [hwy] at this
    exact abs_pos.mp this
  · obtain ⟨N, hN⟩ := ends_small hp a w h0 hw0 hf hw ha
    refine ⟨N, fun n hn => ?_⟩
    have e1 := hN (n + 1) (by omega)
    have e2 := hN (N + 1) (by omega)
    rw [hwy] at e1 e2
    refine ⟨?_, e1.2⟩
    have e : |(y n).val| = |(y N).val| := e1.1.trans e2.1.symm
    rcases abs_eq_abs.mp e with h | h
    · exact h
    · by_cases hl0 : last = 0
      · have := stays_zero a w hw (by show |last| = 0; rw [hl0, abs_zero])
        have e3 := this (n + 1)
        have e4 := this (N + 1)
        rw [hwy] at e3 e4
        rw [abs_eq_zero.mp e3, abs_eq_zero.mp e4]
      · have s1 := hsign n
        have s2 := hsign N
        rw [h] at s1
        have : last * (y N).val = 0 := by linarith
        have := (mul_eq_zero.mp this).resolve_left hl0
        rw [h, this, neg_zero]

/-- **C97** The DC blocker whose last input was zero. -/
theorem C97_blockdc (hp : 0 < F.p) (f : BlockDC (Ieee F) (Ieee F)) (s : Bool) (hx : f.x1 = .num s 0) (hy : f.y1.Finite) (vy : f.y1.Valid) (ha : f.a.Finite) (va : f.a.Valid) (h0 : 0 ≤ f.a.val)
    (h1 : f.a.val ≤ 1) (hb : f.b.Finite) (x : ℕ → Ieee F) (hsil : ∀ n, ∃ s, x n = .num s 0) : Fades F f.a.val f.y1.val (stream BlockDC.call f x) := by
  have step : ∀ g : BlockDC (Ieee F) (Ieee F), g.a = f.a → g.b = f.b → (∃ s, g.x1 = .num s 0) → g.y1.Finite → g.y1.Valid → ∀ n, (g.call (x n)).2.Finite ∧ (g.call (x n)).2.Valid ∧ (g.call (x n)).2.val = roundTo F (f.a.val * g.y1.val) := by
    intro g e1 e2 ⟨s, e3⟩ hg vg n
    obtain ⟨t, ht⟩ := hsil n
    obtain ⟨r, hr⟩ := sub_zero_num (F := F) t s
    obtain ⟨q, hq⟩ := mul_zero_num f.b hb r
    have e : (g.call (x n)).2 = num q 0 + f.a * g.y1 := by
      show g.b * (x n - g.x1) + g.a * g.y1 = _
      rw [e1, e2, e3, ht, hr, hq]
    obtain ⟨m1, m2⟩ := scale_val hp f.a g.y1 ha va hg vg h0 h1
    obtain ⟨m3, m4⟩ := zero_add_val hp q (f.a * g.y1) m1 (mul_valid hp _ _)
    rw [e]
    exact ⟨m3, add_valid hp _ _, m4.trans m2⟩
  have inv : ∀ n, let g := states BlockDC.call f x n; g.a = f.a ∧ g.b = f.b ∧ (∃ s, g.x1 = .num s 0) ∧ g.y1.Finite ∧ g.y1.Valid := by
    intro n
    induction n with
    | zero => exact ⟨rfl, rfl, ⟨s, hx⟩, hy, vy⟩
    | succ n ih =>
      obtain ⟨e1, e2, e3, e4, e5⟩ := ih
      obtain ⟨m1, m2, -⟩ := step _ e1 e2 e3 e4 e5 n
      exact ⟨e1, e2, hsil n, m1, m2⟩
  have key : ∀ n, (stream BlockDC.call f x n).Finite ∧ (stream BlockDC.call f x n).val = roundTo F (f.a.val * (states BlockDC.call f x n).y1.val) := by
    intro n
    obtain ⟨e1, e2, e3, e4, e5⟩ := inv n
    obtain ⟨m1, -, m2⟩ := step _ e1 e2 e3 e4 e5 n
    exact ⟨m1, m2⟩
  exact fades hp f.a.val h0 h1 f.y1.val (valid_fits vy) _ (fun n => (key n).1) (key 0).2 fun n => (key (n + 1)).2

/-- **C97** The exponential moving average; its factor is `1 - alpha`, as the code computes it. -/
theorem C97_ema (hp : 0 < F.p) (f : EMA (Ieee F) (Ieee F)) (hy : f.prev.Finite) (vy : f.prev.Valid) (ha : f.alpha.Finite) (h0 : 0 ≤ (1 - f.alpha).val)
    (h1 : (1 - f.alpha).val ≤ 1) (hc : (1 - f.alpha).Finite) (x : ℕ → Ieee F) (hsil : ∀ n, ∃ s, x n = .num s 0) : Fades F (1 - f.alpha).val f.prev.val (stream EMA.call f x) := by
  have step : ∀ g : EMA (Ieee F) (Ieee F), g.alpha = f.alpha → g.prev.Finite → g.prev.Valid → ∀ n, (g.call (x n)).2.Finite ∧ (g.call (x n)).2.Valid ∧ (g.call (x n)).2.val = roundTo F ((1 - f.alpha).val * g.prev.val) := by
    intro g e1 hg vg n
    obtain ⟨t, ht⟩ := hsil n
    obtain ⟨q, hq⟩ := mul_zero_num f.alpha ha t
    have e : (g.call (x n)).2 = (1 - f.alpha) * g.prev + num q 0 := by
      show (1 - g.alpha) * g.prev + g.alpha * x n = _
      rw [e1, ht, hq]
    obtain ⟨m1, m2⟩ := scale_val hp (1 - f.alpha) g.prev hc (add_valid hp _ _) hg vg h0 h1
    obtain ⟨m3, m4⟩ := add_zero_val hp q ((1 - f.alpha) * g.prev) m1 (mul_valid hp _ _)
    rw [e]
    exact ⟨m3, add_valid hp _ _, m4.trans m2⟩
  have inv : ∀ n, let g := states EMA.call f x n; g.alpha = f.alpha ∧ g.prev.Finite ∧ g.prev.Valid := by
    intro n
    induction n with
    | zero => exact ⟨rfl, hy, vy⟩
    | succ n ih =>
      obtain ⟨e1, e4, e5⟩ := ih
      obtain ⟨m1, m2, -⟩ := step _ e1 e4 e5 n
      exact ⟨e1, m1, m2⟩
  have key : ∀ n, (stream EMA.call f x n).Finite ∧ (stream EMA.call f x n).val = roundTo F ((1 - f.alpha).val * (states EMA.call f x n).prev.val) := by
    intro n
    obtain ⟨e1, e4, e5⟩ := inv n
    obtain ⟨m1, -, m2⟩ := step _ e1 e4 e5 n
    exact ⟨m1, m2⟩
  exact fades hp (1 - f.alpha).val h0 h1 f.prev.val (valid_fits vy) _ (fun n => (key n).1) (key 0).2 fun n => (key (n + 1)).2

/-- Formats like `float` and `double`. -/
structure Usual (F : Format) : Prop where
  p : 4 ≤ F.p
  emin : F.emin + 2 * F.p ≤ 0
  emax : F.p ≤ F.emax

theorem usual_single : Usual Format.single := ⟨by decide, by decide, by decide⟩
theorem usual_double : Usual Format.double := ⟨by decide, by decide, by decide⟩

theorem Usual.fits (u : Usual F) (m : ℤ) (e : ℕ) (hm : |m| < 2 ^ F.p) (he : e ≤ F.p) : Fits F ((m : ℚ) / 2 ^ e) := by
  have e1 : (m : ℚ) / 2 ^ e = m * 2 ^ (-(e : ℤ)) := by rw [zpow_neg, zpow_natCast, div_eq_mul_inv]
  have := u.emin
  exact ⟨⟨m, -e, hm, e1⟩, Binary.multiple_down _ (-e) _ (by omega) ⟨m, e1⟩⟩

theorem Usual.sixteen (u : Usual F) : (16 : ℤ) ≤ 2 ^ F.p := by
  calc (16 : ℤ) = 2 ^ 4 := by norm_num
    _ ≤ _ := pow_le_pow_right₀ (by norm_num) u.p

theorem Usual.normal (u : Usual F) (x : ℚ) (h : 1 / 2 ^ F.p ≤ |x|) : roundTo F x = Binary.round F.p x := by
  refine roundTo_normal x (le_trans ?_ h)
  have := u.emin
  rw [one_div, ← zpow_natCast, ← zpow_neg]
  exact zpow_le_zpow_right₀ (by norm_num) (by omega)

theorem Usual.finite (u : Usual F) (x : ℚ) (h : |x| ≤ 2) : |roundTo F x| < 2 ^ F.emax := by
  have hp : 0 < F.p := by have := u.p; omega
  have h2 : Fits F 2 := by have := u.fits 2 0 (by have := u.sixteen; rw [abs_of_nonneg (by norm_num)]; linarith) (by omega); simpa using this
  rw [roundTo_abs hp]
  have := u.p
  have := u.emax
  calc roundTo F |x| ≤ 2 := roundTo_le hp _ _ h2 h
    _ = (2 : ℚ) ^ (1 : ℤ) := by norm_num
    _ < _ := zpow_lt_zpow_right₀ (by norm_num) (by omega)

theorem Usual.fiveEighths (u : Usual F) : Fits F (5 / 8) := by
  have := u.fits 5 3 (by have := u.sixteen; rw [abs_of_nonneg (by norm_num)]; linarith) (by have := u.p; omega)
  norm_num at this
  exact this

theorem two_mul_le (u : Usual F) (s : ℤ) (hs : s ≤ 2 ^ (F.p - 1)) : (2 * s : ℚ) ≤ 2 ^ F.p := by
  have hp : 0 < F.p := by have := u.p; omega
  have e : (2 : ℚ) ^ F.p = 2 * 2 ^ (F.p - 1) := by rw [← pow_succ', Nat.sub_add_cancel hp]
  have : (s : ℚ) ≤ 2 ^ (F.p - 1) := by exact_mod_cast hs
  rw [e]
  linarith

/-- The quotient of neighbours, rounded. -/
theorem ratio (u : Usual F) (s : ℤ) (h3 : 3 ≤ s) (hs : s ≤ 2 ^ (F.p - 1)) : 5 / 8 ≤ roundTo F (((s - 1 : ℤ) : ℚ) / s) ∧ roundTo F (((s - 1 : ℤ) : ℚ) / s) < 1 - 1 / (2 * s) := by
  have hp : 0 < F.p := by have := u.p; omega
  have hs3 : (3 : ℚ) ≤ s := by exact_mod_cast h3
  have h2s := two_mul_le u s hs
  have hP : (0 : ℚ) < 2 ^ F.p := by positivity
  have hr : 2 / 3 ≤ ((s - 1 : ℤ) : ℚ) / s := by
    rw [div_le_div_iff₀ (by norm_num) (by linarith)]
    push_cast
    linarith
  refine ⟨le_roundTo hp _ _ u.fiveEighths (by linarith), ?_⟩
  have hu : (1 / 2 ^ F.p : ℚ) ≤ 1 / 6 := one_div_le_one_div_of_le (by norm_num) (by linarith)
  have he := Binary.round_error F.p (((s - 1 : ℤ) : ℚ) / s)
  rw [u.normal _ (by rw [abs_of_nonneg (by linarith)]; linarith)]
  rw [abs_of_nonneg (show 0 ≤ ((s - 1 : ℤ) : ℚ) / s by linarith)] at he
  have he := (abs_le.mp he).2
  have e1 : ((s - 1 : ℤ) : ℚ) / s = 1 - 1 / s := by push_cast; field_simp
  have h4 : (1 - 1 / (s : ℚ)) / 2 ^ F.p < 1 / (2 * s) := by
    rw [div_lt_div_iff₀ hP (by linarith)]
    have : (1 - 1 / (s : ℚ)) * (2 * s) = 2 * s - 2 := by field_simp
    rw [this]
    linarith
  have e2 : 1 / (s : ℚ) = 1 / (2 * s) + 1 / (2 * s) := by field_simp; norm_num
  rw [e1] at he ⊢
  linarith

theorem tiny (a : ℚ) (s : ℤ) (h3 : 3 ≤ s) (h : a < 1 - 1 / (2 * s)) : (2 : ℚ) ^ F.emin / (2 * (1 - a)) < s * 2 ^ F.emin := by
  have hs3 : (3 : ℚ) ≤ s := by exact_mod_cast h3
  have hq : (0 : ℚ) < 2 ^ F.emin := by positivity
  have h0 : 0 < 1 / (2 * (s : ℚ)) := by positivity
  rw [div_lt_iff₀ (by linarith)]
  have : 1 < s * (2 * (1 - a)) := by
    have : s * (2 * (1 / (2 * (s : ℚ)))) = 1 := by field_simp
    nlinarith
  nlinarith

/-- **C97** A DC blocker with `samples(s)`, from three samples on: behind the end of a signal its output decays to less than `s` times the smallest positive number and stays there for ever. -/
theorem C97_blockdc_samples (u : Usual F) (f : BlockDC (Ieee F) (Ieee F)) (z : Bool) (hx : f.x1 = .num z 0) (hy : f.y1.Finite) (vy : f.y1.Valid) (hne : f.y1.val ≠ 0) (s : ℤ) (h3 : 3 ≤ s)
    (hs : s ≤ 2 ^ (F.p - 1)) (x : ℕ → Ieee F) (hsil : ∀ n, ∃ s, x n = .num s 0) :
    (∀ n, (stream BlockDC.call (f.samples s) x n).Finite ∧ (stream BlockDC.call (f.samples s) x n).val ≠ 0) ∧
    ∃ N, ∀ n, N ≤ n → (stream BlockDC.call (f.samples s) x n).val = (stream BlockDC.call (f.samples s) x N).val ∧ |(stream BlockDC.call (f.samples s) x n).val| < s * 2 ^ F.emin := by
  have hp : 0 < F.p := by have := u.p; omega
  have h2s := two_mul_le u s hs
  have hs3 : (3 : ℚ) ≤ s := by exact_mod_cast h3
  have hlt : s < 2 ^ F.p := by
    have : (s : ℚ) < 2 ^ F.p := by linarith
    exact_mod_cast this
  have he0 : F.emin ≤ 0 := by have := u.emin; omega
  obtain ⟨c1, c2, c3⟩ := cast_exact hp he0 u.emax (s - 1) (by rw [abs_of_nonneg (by omega)]; omega)
  obtain ⟨d1, d2, d3⟩ := cast_exact hp he0 u.emax s (by rw [abs_of_nonneg (by omega)]; omega)
  obtain ⟨t1, t2, t3⟩ := cast_exact hp he0 u.emax 2 (by have := u.sixteen; rw [abs_of_nonneg (by omega)]; omega)
  obtain ⟨o1, o2, o3⟩ := cast_exact hp he0 u.emax 1 (by have := u.sixteen; rw [abs_of_nonneg (by omega)]; omega)
  have hd0 : ((s : ℤ) : Ieee F).val ≠ 0 := by rw [d3]; exact (by linarith : (0 : ℚ) < s).ne'
  obtain ⟨r1, r2⟩ := ratio u s h3 hs
  have hs0 : 0 < 1 / (2 * (s : ℚ)) := by positivity
  have afin : (((s - 1 : ℤ) : Ieee F) / ((s : ℤ) : Ieee F)).Finite := by
    rw [div_finite _ _ c1 d1 hd0, c3, d3, abs_of_nonneg (by linarith)]
    calc _ < (2 : ℚ) ^ (0 : ℤ) := by rw [zpow_zero]; linarith
      _ ≤ _ := zpow_le_zpow_right₀ (by norm_num) (by have := u.emax; omega)
  have aval := div_val hp _ _ c1 d1 c2 d2 afin hd0
  rw [c3, d3] at aval
  have bfin : ((((1 : ℤ) : Ieee F) + ((s - 1 : ℤ) : Ieee F) / ((s : ℤ) : Ieee F)) / ((2 : ℤ) : Ieee F)).Finite := by
    have hle : |(((1 : ℤ) : Ieee F).val + (((s - 1 : ℤ) : Ieee F) / ((s : ℤ) : Ieee F)).val)| ≤ 2 := by
      rw [o3, aval, Int.cast_one, abs_of_nonneg (by linarith)]; linarith
    have f1 : (((1 : ℤ) : Ieee F) + ((s - 1 : ℤ) : Ieee F) / ((s : ℤ) : Ieee F)).Finite := (add_finite _ _ o1 afin).mpr (u.finite _ hle)
    refine (div_finite _ _ f1 t1 (by rw [t3]; norm_num)).mpr (u.finite _ ?_)
    have hv := add_val hp _ _ o1 afin f1
    have h2 : Fits F 2 := by have := u.fits 2 0 (by have := u.sixteen; rw [abs_of_nonneg (by norm_num)]; linarith) (by omega); simpa using this
    have : |(((1 : ℤ) : Ieee F) + ((s - 1 : ℤ) : Ieee F) / ((s : ℤ) : Ieee F)).val| ≤ 2 := by
      rw [hv, roundTo_abs hp]
      exact roundTo_le hp _ _ h2 hle
    rw [t3, abs_div]
    have e2 : |((2 : ℤ) : ℚ)| = 2 := by norm_num
    rw [e2]
    linarith
  have main := C97_blockdc hp (f.samples s) z hx hy vy afin (div_valid hp _ _) (by show 0 ≤ (_ : ℚ); exact aval ▸ (by linarith)) (by exact aval ▸ (by linarith)) bfin x hsil
  have hav : (f.samples s).a.val = roundTo F (((s - 1 : ℤ) : ℚ) / s) := aval
  rw [hav] at main
  refine ⟨fun n => ⟨main.finite n, main.never (by linarith) hne n⟩, ?_⟩
  obtain ⟨N, hN⟩ := main.stuck (by
    have : (1 : ℚ) / 2 ^ F.p ≤ 1 / (2 * s) := one_div_le_one_div_of_le (by linarith) h2s
    linarith)
  exact ⟨N, fun n hn => ⟨(hN n hn).1, (hN n hn).2.trans_lt (tiny _ s h3 r2)⟩⟩

/-- One minus the reciprocal, each rounded. -/
theorem complement (u : Usual F) (s : ℤ) (h3 : 3 ≤ s) (hs : s ≤ 2 ^ (F.p - 2)) : 0 ≤ roundTo F (1 / s) ∧ roundTo F (1 / s) ≤ 1 / 2 ∧ 5 / 8 ≤ roundTo F (1 - roundTo F (1 / s)) ∧
    roundTo F (1 - roundTo F (1 / s)) < 1 - 1 / (2 * s) := by
  have hp : 0 < F.p := by have := u.p; omega
  have hs3 : (3 : ℚ) ≤ s := by exact_mod_cast h3
  have hP : (0 : ℚ) < 2 ^ F.p := by positivity
  have h4s : (4 * s : ℚ) ≤ 2 ^ F.p := by
    have e : (2 : ℚ) ^ F.p = 4 * 2 ^ (F.p - 2) := by
      rw [show (4 : ℚ) = 2 ^ 2 by norm_num, ← pow_add]
      congr 1
      have := u.p
      omega
    have : (s : ℚ) ≤ 2 ^ (F.p - 2) := by exact_mod_cast hs
    rw [e]
    linarith
  have h16 : (16 : ℚ) ≤ 2 ^ F.p := by exact_mod_cast u.sixteen
  have hu : (1 / 2 ^ F.p : ℚ) ≤ 1 / 16 := one_div_le_one_div_of_le (by norm_num) h16
  have hu0 : (0 : ℚ) < 1 / 2 ^ F.p := by positivity
  have hus : (1 / 2 ^ F.p : ℚ) * s ≤ 1 / 4 := by
    rw [div_mul_eq_mul_div, one_mul, div_le_div_iff₀ hP (by norm_num)]
    linarith
  have hi0 : 0 < 1 / (s : ℚ) := by positivity
  have hi3 : 1 / (s : ℚ) ≤ 1 / 3 := one_div_le_one_div_of_le (by norm_num) hs3
  have his : 1 / (s : ℚ) * s = 1 := by field_simp
  have hnorm : (1 / 2 ^ F.p : ℚ) ≤ 1 / s := one_div_le_one_div_of_le (by linarith) (by linarith)
  have e1 := Binary.round_error F.p (1 / (s : ℚ))
  rw [← u.normal _ (by rw [abs_of_pos hi0]; exact hnorm), abs_of_pos hi0, div_eq_mul_one_div (1 / (s : ℚ)) (2 ^ F.p)] at e1
  have e1 := abs_le.mp e1
  generalize ha : roundTo F (1 / (s : ℚ)) = α at *
  generalize 1 / (s : ℚ) = r at *
  generalize hv : (1 / 2 ^ F.p : ℚ) = v at *
  have h1 : r * v ≤ 1 / 3 * (1 / 16) := mul_le_mul hi3 hu hu0.le (by norm_num)
  have hα0 : 0 ≤ α := by nlinarith
  refine ⟨hα0, by linarith, le_roundTo hp _ _ u.fiveEighths (by linarith), ?_⟩
  have e2 := Binary.round_error F.p (1 - α)
  have h1α : 0 ≤ 1 - α := by linarith
  rw [← u.normal _ (by rw [abs_of_nonneg h1α, hv]; linarith), abs_of_nonneg h1α, div_eq_mul_one_div (1 - α) (2 ^ F.p), hv] at e2
  have e2 := (abs_le.mp e2).2
  have e3 : 1 / (2 * (s : ℚ)) = r / 2 := by
    rw [← his]; field_simp
  rw [e3]
  -- v ≤ r / 4
  have h5 : v ≤ r / 4 := by nlinarith
  nlinarith

/-- **C97** An exponential moving average with `samples(s)`, from three samples on. -/
theorem C97_ema_samples (u : Usual F) (f : EMA (Ieee F) (Ieee F)) (hy : f.prev.Finite) (vy : f.prev.Valid) (hne : f.prev.val ≠ 0) (s : ℤ) (h3 : 3 ≤ s)
    (hs : s ≤ 2 ^ (F.p - 2)) (x : ℕ → Ieee F) (hsil : ∀ n, ∃ s, x n = .num s 0) :
    (∀ n, (stream EMA.call (f.samples s) x n).Finite ∧ (stream EMA.call (f.samples s) x n).val ≠ 0) ∧
    ∃ N, ∀ n, N ≤ n → (stream EMA.call (f.samples s) x n).val = (stream EMA.call (f.samples s) x N).val ∧ |(stream EMA.call (f.samples s) x n).val| < s * 2 ^ F.emin := by
  have hp : 0 < F.p := by have := u.p; omega
  have h2s := two_mul_le u s (hs.trans (pow_le_pow_right₀ (by norm_num) (by omega)))
  have hs3 : (3 : ℚ) ≤ s := by exact_mod_cast h3
  have hlt : s < 2 ^ F.p := by
    have : (s : ℚ) < 2 ^ F.p := by linarith
    exact_mod_cast this
  have he0 : F.emin ≤ 0 := by have := u.emin; omega
  obtain ⟨d1, d2, d3⟩ := cast_exact hp he0 u.emax s (by rw [abs_of_nonneg (by omega)]; omega)
  obtain ⟨o1, o2, o3⟩ := cast_exact hp he0 u.emax 1 (by have := u.sixteen; rw [abs_of_nonneg (by omega)]; omega)
  have hd0 : ((s : ℤ) : Ieee F).val ≠ 0 := by rw [d3]; exact (by linarith : (0 : ℚ) < s).ne'
  obtain ⟨r0, r1, r2, r3⟩ := complement u s h3 hs
  have hs0 : 0 < 1 / (2 * (s : ℚ)) := by positivity
  have afin : (((1 : ℤ) : Ieee F) / ((s : ℤ) : Ieee F)).Finite := by
    rw [div_finite _ _ o1 d1 hd0, o3, d3, Int.cast_one]
    refine u.finite _ ?_
    rw [abs_of_pos (by positivity)]
    exact (one_div_le_one_div_of_le (by norm_num) hs3).trans (by norm_num)
  have aval := div_val hp _ _ o1 d1 o2 d2 afin hd0
  rw [o3, d3, Int.cast_one] at aval
  have cfin : (((1 : ℤ) : Ieee F) - ((1 : ℤ) : Ieee F) / ((s : ℤ) : Ieee F)).Finite := by
    refine (add_finite _ _ o1 (neg_finite _ afin)).mpr (u.finite _ ?_)
    rw [neg_val, o3, aval, Int.cast_one, ← sub_eq_add_neg, abs_of_nonneg (by linarith)]
    linarith
  have cval : (((1 : ℤ) : Ieee F) - ((1 : ℤ) : Ieee F) / ((s : ℤ) : Ieee F)).val = roundTo F (1 - roundTo F (1 / s)) := by
    have := add_val hp _ _ o1 (neg_finite _ afin) cfin
    rw [neg_val, o3, aval, Int.cast_one, ← sub_eq_add_neg] at this
    exact this
  have hcv : (1 - (f.samples s).alpha).val = roundTo F (1 - roundTo F (1 / s)) := cval
  have main := C97_ema hp (f.samples s) hy vy afin (by rw [hcv]; linarith) (by rw [hcv]; linarith) cfin x hsil
  rw [hcv] at main
  refine ⟨fun n => ⟨main.finite n, main.never (by linarith) hne n⟩, ?_⟩
  obtain ⟨N, hN⟩ := main.stuck (by
    have : (1 : ℚ) / 2 ^ F.p ≤ 1 / (2 * s) := one_div_le_one_div_of_le (by linarith) h2s
    linarith)
  exact ⟨N, fun n hn => ⟨(hN n hn).1, (hN n hn).2.trans_lt (tiny _ s h3 r3)⟩⟩

/-- An average over 48 samples that was one before the silence, in single precision. -/
example : ∃ N, ∀ n, N ≤ n → (stream EMA.call ((EMA.init 1 1).samples 48 : EMA (Ieee Format.single) (Ieee Format.single)) (fun _ => 0) n).val ≠ 0 ∧
    |(stream EMA.call ((EMA.init 1 1).samples 48 : EMA (Ieee Format.single) (Ieee Format.single)) (fun _ => 0) n).val| < 48 * 2 ^ (-149 : ℤ) := by
  obtain ⟨o1, o2, o3⟩ := cast_exact (F := Format.single) (by decide) (by decide) (by decide) 1 (by decide)
  obtain ⟨h, N, hN⟩ := C97_ema_samples usual_single (EMA.init 1 1) o1 o2 (by show ((1 : ℤ) : Ieee Format.single).val ≠ 0; rw [o3]; norm_num) 48 (by norm_num) (by norm_num [Format.single]) (fun _ => 0) (fun _ => ⟨false, rfl⟩)
  exact ⟨N, fun n hn => ⟨(h n).2, by have := (hN n hn).2; push_cast at this; exact this⟩⟩

/-- With two samples it ends. -/
example (x : ℕ → Ieee Format.single) (h : ∀ n, ∃ s, x n = .num s 0) : ∃ N, ∀ n, N ≤ n → (stream EMA.call (EMA.init 1 (.num false (1 / 2)) : EMA (Ieee Format.single) (Ieee Format.single)) x n).val = 0 := by
  have e : (1 - .num false (1 / 2) : Ieee Format.single) = .num false (1 / 2) := by decide +kernel
  have ev : (1 - .num false (1 / 2) : Ieee Format.single).val = 1 / 2 := by rw [e]; rfl
  obtain ⟨o1, o2, o3⟩ := cast_exact (F := Format.single) (by decide) (by decide) (by decide) 1 (by decide)
  have := C97_ema (F := Format.single) (by decide) (EMA.init 1 (.num false (1 / 2))) o1 o2 trivial (by show 0 ≤ (1 - .num false (1 / 2) : Ieee Format.single).val; rw [ev]; norm_num)
    (by show (1 - .num false (1 / 2) : Ieee Format.single).val ≤ 1; rw [ev]; norm_num) (by show (1 - .num false (1 / 2) : Ieee Format.single).Finite; rw [e]; trivial) x h
  exact this.zero (by show (1 - .num false (1 / 2) : Ieee Format.single).val ≤ 1 / 2; rw [ev])

end Silence
end DSP
