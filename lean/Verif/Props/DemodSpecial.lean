import Verif.Model.DemodIeee
import Verif.Model.Trigger
import Verif.Props.Nonfinite
import Verif.Props.Range

/-!
# C109: infinities, NaN and silence in the AM demodulator, the normaliser and the trigger
-/

namespace DSP
namespace Ieee

variable {F : Format}

/-- Not negative, not NaN, sign bit clear. -/
def Pos (a : Ieee F) : Prop := a = inf false ∨ ∃ m, 0 ≤ m ∧ a = num false m

theorem Pos.ne_nan {a : Ieee F} (h : Pos a) : a ≠ nan := by
  rcases h with rfl | ⟨m, -, rfl⟩ <;> simp

theorem pos_num {m : ℚ} (h : 0 ≤ m) : Pos (num false m : Ieee F) := .inr ⟨m, h, rfl⟩

theorem pos_pack (x : ℚ) : Pos (pack false x : Ieee F) := by
  rw [pack_cases]
  split
  · exact .inl rfl
  · exact .inr ⟨_, abs_nonneg _, rfl⟩

theorem pack_ne_nan (s : Bool) (x : ℚ) : (pack s x : Ieee F) ≠ nan := by
  rw [pack_cases]; split <;> simp

theorem num_mul (s t : Bool) (a b : ℚ) : (num s a * num t b : Ieee F) = pack (s ^^ t) (a * b) := rfl

theorem pos_add {a b : Ieee F} (ha : Pos a) (hb : Pos b) : Pos (a + b) := by
  rcases ha with rfl | ⟨m, hm, rfl⟩ <;> rcases hb with rfl | ⟨n, hn, rfl⟩
  · exact .inl rfl
  · exact .inl rfl
  · exact .inl rfl
  · rw [add_num]
    simp only [signed, Bool.false_eq_true, if_false, Bool.and_false]
    split
    · exact pos_num le_rfl
    · rw [decide_eq_false (not_lt.mpr (add_nonneg hm hn))]
      exact pos_pack _

theorem pos_mul {m : ℚ} {b : Ieee F} (hm : 0 ≤ m) (hb : Pos b) (h : b = inf false → m ≠ 0) : Pos (num false m * b) := by
  rcases hb with rfl | ⟨n, -, rfl⟩
  · show Pos (if m = 0 then nan else inf (false ^^ false))
    rw [if_neg (h rfl)]
    exact .inl rfl
  · exact pos_pack _

theorem mul_inf {m : ℚ} (h : m ≠ 0) : (num false m * inf false : Ieee F) = inf false := by
  show (if m = 0 then nan else inf (false ^^ false)) = inf false
  rw [if_neg h]; rfl

theorem pos_square (a : Ieee F) (h : a ≠ nan) : Pos (a * a) := by
  cases a with
  | nan => exact absurd rfl h
  | inf s => exact .inl (by show inf (s ^^ s) = _; rw [Bool.xor_self])
  | num s m => rw [num_mul, Bool.xor_self]; exact pos_pack _

theorem pos_sqrt {a : Ieee F} (h : Pos a) : Pos (sqrt a) := by
  rcases h with rfl | ⟨m, -, rfl⟩
  · exact .inl rfl
  · show Pos (if m = 0 then num false 0 else if false then nan else num false |roundReal F (Real.sqrt m)|)
    split
    · exact pos_num le_rfl
    · exact pos_num (abs_nonneg _)

theorem pos_abs (z : Cplx (Ieee F)) (h1 : z.re ≠ nan) (h2 : z.im ≠ nan) : Pos (z.abs sqrt) :=
  pos_sqrt (pos_add (pos_square _ h1) (pos_square _ h2))

theorem nan_add (a : Ieee F) : nan + a = nan := rfl

theorem add_nan (a : Ieee F) : a + nan = nan := by cases a <;> rfl

theorem nan_mul (a : Ieee F) : nan * a = nan := rfl

theorem mul_nan (a : Ieee F) : a * nan = nan := by cases a <;> rfl

theorem nan_div (a : Ieee F) : nan / a = nan := rfl

theorem div_nan (a : Ieee F) : a / nan = nan := by cases a <;> rfl

theorem nan_lt (a : Ieee F) : ¬nan < a := by
  show ¬less nan a = true
  simp [less]

theorem lt_nan (a : Ieee F) : ¬a < nan := by
  show ¬less a nan = true
  cases a <;> simp [less]

theorem num_lt (a b : ℚ) : (num false a : Ieee F) < num false b ↔ a < b := by
  show less (num false a) (num false b) = true ↔ a < b
  simp [less, signed]

theorem num_lt_inf (s : Bool) (a : ℚ) : (num s a : Ieee F) < inf false := by
  show less (num s a) (inf false) = true
  simp [less]

theorem inf_lt (a : Ieee F) : ¬inf false < a := by
  show ¬less (inf false) a = true
  cases a <;> simp [less]

/-- Limiting anything that is not NaN. -/
theorem limited {l h : ℚ} (hl : l ≤ h) {a : Ieee F} (ha : Pos a) : ∃ m, l ≤ m ∧ m ≤ h ∧ stdMin (stdMax a (num false l)) (num false h) = num false m := by
  rcases ha with rfl | ⟨m, -, rfl⟩
  · refine ⟨h, hl, le_rfl, ?_⟩
    rw [stdMax, if_neg (inf_lt _), stdMin, if_pos (num_lt_inf _ _)]
  · rw [stdMax]
    split
    · rw [stdMin, if_neg (by rw [num_lt]; exact not_lt.mpr hl)]
      exact ⟨l, le_rfl, hl, rfl⟩
    · rename_i c
      rw [num_lt, not_lt] at c
      rw [stdMin]
      split
      · exact ⟨h, hl, le_rfl, rfl⟩
      · rename_i d
        rw [num_lt, not_lt] at d
        exact ⟨m, c, d, rfl⟩

theorem limited_inf (l h : ℚ) : stdMin (stdMax (inf false : Ieee F) (num false l)) (num false h) = num false h := by
  rw [stdMax, if_neg (inf_lt _), stdMin, if_pos (num_lt_inf _ _)]

theorem limited_nan (l h : Ieee F) : stdMin (stdMax nan l) h = nan := by
  rw [stdMax, if_neg (nan_lt _), stdMin, if_neg (lt_nan _)]

theorem one_eq (u : Silence.Usual F) : (1 : Ieee F) = num false 1 := by
  have hp : 0 < F.p := by have := u.p; omega
  have he0 : F.emin ≤ 0 := by have := u.emin; omega
  have hone : Fits F 1 := by have := Range.fits_pow (F := F) hp 0 he0; rwa [zpow_zero] at this
  show pack (decide ((1 : ℤ) < 0)) ((1 : ℤ) : ℚ) = num false 1
  rw [Int.cast_one, pack_num _ _ (u.finite 1 (by norm_num)), roundTo_of_fits hp 1 hone, abs_one]
  rfl

/-- The weight of the old level. -/
theorem pos_complement (u : Silence.Usual F) (m : ℚ) (h0 : 0 ≤ m) (h1 : m ≤ 1) : ∃ c, 0 ≤ c ∧ (1 - num false m : Ieee F) = num false c := by
  rw [one_eq u]
  show ∃ c, 0 ≤ c ∧ (num false 1 + num true m : Ieee F) = num false c
  rw [add_num]
  simp only [signed, Bool.false_eq_true, if_false, if_true, Bool.false_and]
  split
  · exact ⟨0, le_rfl, rfl⟩
  · rw [decide_eq_false (by linarith), pack_num _ _ (u.finite _ (by rw [abs_of_nonneg (by linarith)]; linarith))]
    exact ⟨_, abs_nonneg _, rfl⟩

theorem two_eq (u : Silence.Usual F) : (2 : Ieee F) = num false 2 := by
  have hp : 0 < F.p := by have := u.p; omega
  have he0 : F.emin ≤ 0 := by have := u.emin; omega
  have htwo : Fits F 2 := by have := Range.fits_pow (F := F) hp 1 (by omega); rwa [zpow_one] at this
  show pack (decide ((2 : ℤ) < 0)) ((2 : ℤ) : ℚ) = num false 2
  have e : ((2 : ℤ) : ℚ) = 2 := by norm_num
  rw [e, pack_num _ _ (u.finite 2 (by norm_num)), roundTo_of_fits hp 2 htwo]
  norm_num

/-- The square of a number from the square root of the range on. -/
theorem square_inf (u : Silence.Usual F) (s : Bool) (r : ℚ) (k : ℕ) (hk : F.emax ≤ 2 * k) (hr : 2 ^ k ≤ r) : (num s r * num s r : Ieee F) = inf false := by
  have hp : 0 < F.p := by have := u.p; omega
  have he : F.emin ≤ F.emax := by have := u.emin; have := u.emax; omega
  rw [num_mul, Bool.xor_self, pack_cases, if_pos]
  have h1 : (2 : ℚ) ^ F.emax ≤ r * r := by
    calc (2 : ℚ) ^ F.emax ≤ 2 ^ (2 * k : ℤ) := zpow_le_zpow_right₀ (by norm_num) hk
      _ = 2 ^ k * 2 ^ k := by rw [two_mul, zpow_add₀ (by norm_num), zpow_natCast]
      _ ≤ _ := mul_le_mul hr hr (by positivity) ((by positivity : (0 : ℚ) ≤ 2 ^ k).trans hr)
  exact (le_roundTo hp _ _ (Range.fits_pow hp _ he) h1).trans (le_abs_self _)

/-- Positive, perhaps infinite. -/
def Positive (a : Ieee F) : Prop := a = inf false ∨ ∃ m, 0 < m ∧ Fits F m ∧ a = num false m

theorem Positive.pos {a : Ieee F} (h : Positive a) : Pos a := by
  rcases h with h | ⟨m, m0, -, h⟩
  · exact .inl h
  · exact .inr ⟨m, m0.le, h⟩

theorem round_positive (hp : 0 < F.p) {c m : ℚ} (hc : 1 / 2 < c) (hm : 0 < m) (hf : Fits F m) : 0 < roundTo F (c * m) := by
  have := Silence.stays_positive hp c (fun n => Nat.rec m (fun _ y => roundTo F (c * y)) n) hf (fun n => rfl) hc hm 1
  exact this

theorem positive_scale (hp : 0 < F.p) {c : ℚ} (hc : 1 / 2 < c) {a : Ieee F} (ha : Positive a) : Positive (num false c * a) := by
  rcases ha with rfl | ⟨m, m0, hf, rfl⟩
  · exact .inl (mul_inf (by linarith))
  · rw [num_mul, pack_cases]
    split
    · exact .inl rfl
    · have := round_positive hp hc m0 hf
      exact .inr ⟨_, abs_pos.mpr this.ne', fits_abs (roundTo_fits hp _), rfl⟩

theorem positive_add (hp : 0 < F.p) {a b : Ieee F} (ha : Positive a) (hb : Pos b) : Positive (a + b) := by
  rcases ha with rfl | ⟨m, m0, hf, rfl⟩ <;> rcases hb with rfl | ⟨n, hn, rfl⟩
  · exact .inl rfl
  · exact .inl rfl
  · exact .inl rfl
  · rw [add_num]
    simp only [signed, Bool.false_eq_true, if_false, Bool.and_false]
    rw [if_neg (by linarith), decide_eq_false (by linarith), pack_cases]
    split
    · exact .inl rfl
    · have := le_roundTo hp (m + n) m hf (by linarith)
      exact .inr ⟨_, abs_pos.mpr (by linarith), fits_abs (roundTo_fits hp _), rfl⟩

theorem fits_least {m : ℚ} (hm : 0 < m) (hf : Fits F m) : (2 : ℚ) ^ F.emin ≤ m := by
  obtain ⟨k, hk⟩ := hf.2
  have hq : (0 : ℚ) < 2 ^ F.emin := by positivity
  have hk1 : 1 ≤ k := by
    rw [hk] at hm
    have : (0 : ℚ) < k := pos_of_mul_pos_left hm hq.le
    have : 0 < k := by exact_mod_cast this
    omega
  rw [hk]
  exact le_mul_of_one_le_left hq.le (by exact_mod_cast hk1)

/-- The root of a positive number is positive. -/
theorem roundReal_positive (hp : 0 < F.p) (x : ℝ) (h : (2 : ℝ) ^ F.emin ≤ x) : 0 < roundReal F x := by
  have hx : 0 < x := lt_of_lt_of_le (by positivity) h
  unfold roundReal
  simp only []
  have hle : (2 : ℝ) ^ max F.emin (Int.log 2 |x| + 1 - F.p) ≤ x := by
    rcases max_choice F.emin (Int.log 2 |x| + 1 - F.p) with e | e <;> rw [e]
    · exact h
    · rw [abs_of_pos hx]
      refine le_trans (zpow_le_zpow_right₀ (by norm_num) (by omega : Int.log 2 x + 1 - F.p ≤ Int.log 2 x)) ?_
      exact_mod_cast Int.zpow_log_le_self (b := 2) (by norm_num) hx
  generalize max F.emin (Int.log 2 |x| + 1 - F.p) = e at hle
  have h1 : 1 ≤ x / 2 ^ e := by rw [le_div_iff₀ (by positivity), one_mul]; exact hle
  have h2 : 1 ≤ ⌊x / 2 ^ e⌋ := Int.le_floor.mpr (by exact_mod_cast h1)
  have h3 : 1 ≤ Binary.nearestReal (x / 2 ^ e) := by
    unfold Binary.nearestReal
    simp only []
    split_ifs <;> omega
  have : (0 : ℚ) < Binary.nearestReal (x / 2 ^ e) := by exact_mod_cast (by omega : 0 < Binary.nearestReal (x / 2 ^ e))
  positivity

theorem amplitude (u : Silence.Usual F) (y : Ieee F) (hy : Positive y) : sqrt (2 * y) = inf false ∨ ∃ r, 0 < r ∧ sqrt (2 * y) = num false r := by
  have hp : 0 < F.p := by have := u.p; omega
  have he0 : F.emin ≤ 0 := by have := u.emin; omega
  have h2 : Positive (2 * y) := by rw [two_eq u]; exact positive_scale hp (by norm_num) hy
  rcases h2 with e | ⟨m, m0, hf, e⟩ <;> rw [e]
  · exact .inl rfl
  · right
    have hm := fits_least m0 hf
    have hroot : (2 : ℝ) ^ F.emin ≤ Real.sqrt (m : ℝ) := by
      apply Real.le_sqrt_of_sq_le
      have h1 : (2 : ℝ) ^ F.emin ≤ 1 := by
        have := zpow_le_zpow_right₀ (a := (2 : ℝ)) (by norm_num) he0
        rwa [zpow_zero] at this
      have h0 : (0 : ℝ) < 2 ^ F.emin := by positivity
      have hm' : (2 : ℝ) ^ F.emin ≤ m := by
        have : (((2 : ℚ) ^ F.emin : ℚ) : ℝ) ≤ (m : ℝ) := Rat.cast_le.mpr hm
        push_cast at this
        exact this
      nlinarith
    refine ⟨|roundReal F (Real.sqrt m)|, abs_pos.mpr (roundReal_positive hp _ hroot).ne', ?_⟩
    show (if m = 0 then num false 0 else if false = true then nan else _) = _
    rw [if_neg m0.ne']
    rfl

end Ieee

open Ieee Spec

namespace AMDRounded

variable {F : Format}

/-- What the gain control is used with: limits `0 < l <= h`, weights and index from zero to one; the attack is not zero. -/
structure Proper (f : AMDRounded (Ieee F)) (l h : ℚ) : Prop where
  lo : f.lo = num false l
  hi : f.hi = num false h
  pos : 0 < l
  le : l ≤ h
  att : ∃ a, 0 < a ∧ a ≤ 1 ∧ f.att = num false a
  dec : ∃ d, 0 ≤ d ∧ d ≤ 1 ∧ f.dec = num false d
  idx : ∃ i, 0 < i ∧ i ≤ 1 ∧ f.idx = num false i
  avg : ∃ v, 0 ≤ v ∧ f.avg = num false v

theorem step (u : Silence.Usual F) (f : AMDRounded (Ieee F)) (l h : ℚ) (hf : f.Proper l h) (z : Cplx (Ieee F)) (h1 : z.re ≠ nan) (h2 : z.im ≠ nan) :
    ∃ m, l ≤ m ∧ m ≤ h ∧ (f.callIeee z).1 = { f with avg := num false m } ∧ (f.callIeee z).2 ≠ nan ∧ (z.abs sqrt = inf false → m = h ∧ (f.callIeee z).2 = inf false) := by
  obtain ⟨a, a0, a1, ea⟩ := hf.att
  obtain ⟨d, d0, d1, ed⟩ := hf.dec
  obtain ⟨i, i0, i1, ei⟩ := hf.idx
  obtain ⟨v, v0, ev⟩ := hf.avg
  have hamp := pos_abs z h1 h2
  generalize eamp : z.abs sqrt = amp at hamp
  have hw : ∃ w, 0 ≤ w ∧ w ≤ 1 ∧ (amp = inf false → w ≠ 0) ∧ (if amp < f.avg then f.dec else f.att) = num false w := by
    split
    · rename_i c
      exact ⟨d, d0, d1, fun e => absurd c (by rw [e]; exact inf_lt _), ed⟩
    · exact ⟨a, a0.le, a1, fun _ => a0.ne', ea⟩
  obtain ⟨w, w0, w1, wi, ew⟩ := hw
  obtain ⟨c, c0, ec⟩ := pos_complement u w w0 w1
  have el : lerp f.avg amp (num false w : Ieee F) = num false c * num false v + num false w * amp := by
    show (1 - num false w) * f.avg + num false w * amp = _
    rw [ec, ev]
  have hl : Pos (lerp f.avg amp (num false w : Ieee F)) := by
    rw [el]
    exact pos_add (pos_mul c0 (pos_num v0) (by simp)) (pos_mul w0 hamp wi)
  obtain ⟨m, m1, m2, em⟩ := limited hf.le hl
  have m0 : 0 < m := hf.pos.trans_le m1
  have es : f.callIeee z = ({ f with avg := num false m }, (amp / num false m * (1 + f.idx) - 1) / f.idx) := by
    unfold callIeee
    simp only [eamp, ew, hf.lo, hf.hi, em]
  have hq : Pos (amp / num false m) := by
    rcases hamp with rfl | ⟨n, n0, rfl⟩
    · exact .inl rfl
    · show Pos (if m = 0 then _ else pack (false ^^ false) (n / m))
      rw [if_neg m0.ne']
      exact pos_pack _
  have hi' : ∃ j, 0 < j ∧ (1 + f.idx : Ieee F) = num false j := by
    have hp : 0 < F.p := by have := u.p; omega
    have he0 : F.emin ≤ 0 := by have := u.emin; omega
    have hone : Fits F 1 := by have := Range.fits_pow (F := F) hp 0 he0; rwa [zpow_zero] at this
    rw [ei, one_eq u, add_num]
    simp only [signed, Bool.false_eq_true, if_false, Bool.and_false]
    rw [if_neg (by linarith), decide_eq_false (by linarith), pack_num _ _ (u.finite _ (by rw [abs_of_nonneg (by linarith)]; linarith))]
    refine ⟨_, ?_, rfl⟩
    have := le_roundTo hp (1 + i) 1 hone (by linarith)
    exact abs_pos.mpr (by linarith)
  obtain ⟨j, j0, ej⟩ := hi'
  have hprod : Pos (amp / num false m * (1 + f.idx)) := by
    rw [ej]
    rcases hq with e | ⟨n, n0, e⟩
    · rw [e]
      show Pos (if j = 0 then nan else inf (false ^^ false))
      rw [if_neg j0.ne']
      exact .inl rfl
    · rw [e]
      exact pos_pack _
  have fin : ∀ b : Ieee F, b ≠ nan → b / num false i ≠ nan := by
    intro b hb
    cases b with
    | nan => exact absurd rfl hb
    | inf s => show inf (s ^^ false) ≠ nan; simp
    | num s n =>
      show (if i = 0 then _ else pack (s ^^ false) (n / i)) ≠ nan
      rw [if_neg i0.ne']
      exact pack_ne_nan _ _
  have sub : ∀ b : Ieee F, Pos b → b - 1 ≠ nan := by
    intro b hb
    rw [one_eq u]
    rcases hb with rfl | ⟨n, n0, rfl⟩
    · show inf false ≠ nan; simp
    · show (num false n + num true 1 : Ieee F) ≠ nan
      rw [add_num]
      split
      · simp
      · exact pack_ne_nan _ _
  refine ⟨m, m1, m2, by rw [es], ?_, fun e => ?_⟩
  · rw [es]
    show (amp / num false m * (1 + f.idx) - 1) / f.idx ≠ nan
    rw [ei]
    rw [ei] at hprod
    exact fin _ (sub _ hprod)
  · have : lerp f.avg amp (num false w : Ieee F) = inf false := by
      rw [el, e, mul_inf (wi e)]
      rcases pos_mul (F := F) c0 (pos_num v0) (by simp) with e' | ⟨n, -, e'⟩ <;> rw [e'] <;> rfl
    rw [this, limited_inf] at em
    injection em with _ em
    refine ⟨em.symm, ?_⟩
    rw [es]
    show (amp / num false m * (1 + f.idx) - 1) / f.idx = inf false
    rw [e, ej, ei]
    show (inf (false ^^ false) * num false j - 1) / num false i = inf false
    have : (inf (false ^^ false) * num false j : Ieee F) = inf false := by
      show (if j = 0 then nan else inf (false ^^ false)) = _
      rw [if_neg j0.ne']; rfl
    rw [this, one_eq u]
    rfl

/-- **C109** The gain control survives every input but NaN: whatever comes in, also infinities and sizes that overflow, the level stays between its limits and no output is NaN. A size that is infinite gives an infinite
output, sets the level to the upper limit and is forgotten then. -/
theorem C109_amd (u : Silence.Usual F) (f : AMDRounded (Ieee F)) (l h : ℚ) (hf : f.Proper l h) (x : ℕ → Cplx (Ieee F)) (hx : ∀ n, (x n).re ≠ nan ∧ (x n).im ≠ nan) (n : ℕ) :
    (∃ m, l ≤ m ∧ m ≤ h ∧ states callIeee f x (n + 1) = { f with avg := num false m }) ∧ stream callIeee f x n ≠ nan ∧
    ((x n).abs sqrt = inf false → states callIeee f x (n + 1) = { f with avg := num false h } ∧ stream callIeee f x n = inf false) := by
  have inv : ∀ n, ∃ v, 0 ≤ v ∧ states callIeee f x n = { f with avg := num false v } := by
    intro n
    induction n with
    | zero => obtain ⟨v, v0, e⟩ := hf.avg; exact ⟨v, v0, by rw [← e]; rfl⟩
    | succ n ih =>
      obtain ⟨v, v0, e⟩ := ih
      obtain ⟨m, m1, m2, es, -⟩ := step u (states callIeee f x n) l h (by rw [e]; exact ⟨hf.lo, hf.hi, hf.pos, hf.le, hf.att, hf.dec, hf.idx, v, v0, rfl⟩) (x n) (hx n).1 (hx n).2
      exact ⟨m, hf.pos.le.trans m1, by show (callIeee _ _).1 = _; rw [es, e]⟩
  obtain ⟨v, v0, e⟩ := inv n
  obtain ⟨m, m1, m2, es, eo, ei⟩ := step u (states callIeee f x n) l h (by rw [e]; exact ⟨hf.lo, hf.hi, hf.pos, hf.le, hf.att, hf.dec, hf.idx, v, v0, rfl⟩) (x n) (hx n).1 (hx n).2
  have es' : states callIeee f x (n + 1) = { f with avg := num false m } := by show (callIeee _ _).1 = _; rw [es, e]
  exact ⟨⟨m, m1, m2, es'⟩, eo, fun c => ⟨by rw [es', (ei c).1], (ei c).2⟩⟩

theorem nan_level (f : AMDRounded (Ieee F)) (z : Cplx (Ieee F)) (h : lerp f.avg (z.abs sqrt) (if z.abs sqrt < f.avg then f.dec else f.att) = nan) : (f.callIeee z).1.avg = nan ∧ (f.callIeee z).2 = nan := by
  unfold callIeee
  simp only [h, limited_nan, div_nan]
  exact ⟨trivial, rfl⟩

theorem nan_kept (f : AMDRounded (Ieee F)) (z : Cplx (Ieee F)) (h : f.avg = nan) : (f.callIeee z).1.avg = nan ∧ (f.callIeee z).2 = nan := by
  apply nan_level
  rw [h]
  show (1 - _) * nan + _ = nan
  rw [mul_nan, nan_add]

theorem nan_forever (f : AMDRounded (Ieee F)) (x : ℕ → Cplx (Ieee F)) (n : ℕ) (h : (callIeee (states callIeee f x n) (x n)).1.avg = nan ∧ (callIeee (states callIeee f x n) (x n)).2 = nan) (m : ℕ) (hm : n ≤ m) : stream callIeee f x m = nan := by
  have : (callIeee (states callIeee f x m) (x m)).1.avg = nan ∧ (callIeee (states callIeee f x m) (x m)).2 = nan := by
    induction m, hm using Nat.le_induction with
    | base => exact h
    | succ m hm ih => exact nan_kept _ _ ih.1
  exact this.2

/-- **C109** One sample with NaN in one of its parts, and all outputs are NaN from there on. -/
theorem C109_amd_nan (f : AMDRounded (Ieee F)) (x : ℕ → Cplx (Ieee F)) (n m : ℕ) (hn : (x n).re = nan ∨ (x n).im = nan) (hm : n ≤ m) : stream callIeee f x m = nan := by
  refine nan_forever f x n (nan_level _ _ ?_) m hm
  have : (x n).abs sqrt = nan := by
    show sqrt ((x n).re * (x n).re + (x n).im * (x n).im) = nan
    rcases hn with h | h <;> rw [h]
    · rfl
    · rw [nan_mul, add_nan]; rfl
  rw [this]
  show _ + _ * nan = nan
  rw [mul_nan, add_nan]

/-- **C109** If the attack is zero, as long as `agc` has not been called, then the same happens with a sample of infinite size. -/
theorem C109_amd_hold (f : AMDRounded (Ieee F)) (z : Bool) (ha : f.att = num z 0) (x : ℕ → Cplx (Ieee F)) (n m : ℕ) (hn : (x n).abs sqrt = inf false) (hm : n ≤ m) : stream callIeee f x m = nan := by
  refine nan_forever f x n (nan_level _ _ ?_) m hm
  have hs : (states callIeee f x n).att = f.att := by
    clear hn hm
    induction n with
    | zero => rfl
    | succ n ih => exact ih
  rw [hn, if_neg (inf_lt _), hs, ha]
  show _ + num z 0 * inf false = nan
  have : (num z 0 * inf false : Ieee F) = nan := by
    show (if (0 : ℚ) = 0 then nan else _) = nan
    rw [if_pos rfl]
  rw [this, add_nan]

/-- **C109** Samples from the square root of the range on have an infinite size. -/
theorem C109_amd_large (u : Silence.Usual F) (z : Cplx (Ieee F)) (s : Bool) (r : ℚ) (k : ℕ) (hk : F.emax ≤ 2 * k) (hr : 2 ^ k ≤ r) (h : z.re = num s r ∧ z.im ≠ nan ∨ z.im = num s r ∧ z.re ≠ nan) : z.abs sqrt = inf false := by
  have hsq := square_inf u s r k hk hr
  show sqrt (z.re * z.re + z.im * z.im) = inf false
  rcases h with ⟨h1, h2⟩ | ⟨h1, h2⟩
  · rw [h1, hsq]
    rcases pos_square _ h2 with e | ⟨m, -, e⟩ <;> rw [e] <;> rfl
  · rw [h1, hsq]
    rcases pos_square _ h2 with e | ⟨m, -, e⟩ <;> rw [e] <;> rfl

/-- Single precision: the sample 2^64 is large. -/
example (x : ℕ → Cplx (Ieee Format.single)) (h : x 5 = ⟨num true (2 ^ 64), 0⟩) (milli : Ieee Format.single) : stream callIeee (init milli) x 1000 = nan :=
  C109_amd_hold _ false rfl x 5 1000 (C109_amd_large Silence.usual_single _ true (2 ^ 64) 64 (by decide) le_rfl (.inl ⟨by rw [h], by rw [h]; exact (fun e => nomatch e)⟩)) (by norm_num)

/-- With an attack of one half the same sample is forgotten. -/
example (x : ℕ → Cplx (Ieee Format.single)) (hx : ∀ n, (x n).re ≠ nan ∧ (x n).im ≠ nan) (h : x 5 = ⟨num true (2 ^ 64), 0⟩) :
    let f : AMDRounded (Ieee Format.single) := ⟨0, num false (1 / 2), num false (1 / 8), num false (1 / 1024), num false 1, num false 1⟩
    states callIeee f x 6 = { f with avg := num false 1 } ∧ stream callIeee f x 1000 ≠ nan := by
  intro f
  have hf : f.Proper (1 / 1024) 1 := ⟨rfl, rfl, by norm_num, by norm_num, ⟨1 / 2, by norm_num, by norm_num, rfl⟩, ⟨1 / 8, by norm_num, by norm_num, rfl⟩, ⟨1, by norm_num, by norm_num, rfl⟩, ⟨0, le_rfl, rfl⟩⟩
  exact ⟨((C109_amd Silence.usual_single f _ _ hf x hx 5).2.2 (C109_amd_large Silence.usual_single _ true (2 ^ 64) 64 (by decide) le_rfl (.inl ⟨by rw [h], (hx 5).2⟩))).1,
    (C109_amd Silence.usual_single f _ _ hf x hx 1000).2.1⟩

end AMDRounded

/-! ### The normaliser -/

namespace NormalizeRounded

variable {F : Format}

/-- The input without its constant component. -/
noncomputable def blocked (f : NormalizeRounded (Ieee F)) (x : ℕ → Ieee F) (n : ℕ) : Ieee F := stream BlockDC.call f.hpf x n

/-- The mean square. -/
noncomputable def power (f : NormalizeRounded (Ieee F)) (x : ℕ → Ieee F) (n : ℕ) : Ieee F := stream EMA.call f.lpf (fun n => f.blocked x n * f.blocked x n) n

theorem states_eq (f : NormalizeRounded (Ieee F)) (x : ℕ → Ieee F) (n : ℕ) : states callIeee f x n = ⟨states BlockDC.call f.hpf x n, states EMA.call f.lpf (fun n => f.blocked x n * f.blocked x n) n⟩ := by
  induction n with
  | zero => rfl
  | succ n ih =>
    show (callIeee (states callIeee f x n) (x n)).1 = _
    rw [ih]
    rfl

theorem stream_eq (f : NormalizeRounded (Ieee F)) (x : ℕ → Ieee F) (n : ℕ) : stream callIeee f x n = f.blocked x n / sqrt (2 * f.power x n) := by
  show (callIeee (states callIeee f x n) (x n)).2 = _
  rw [states_eq]
  rfl

/-- **C109** A sample that is infinite or NaN, or an overflow in the DC blocker, and no later output is finite. -/
theorem C109_normalize_bad (f : NormalizeRounded (Ieee F)) (x : ℕ → Ieee F) (n m : ℕ) (hn : ¬(x n).Finite ∨ ¬(stream BlockDC.call f.hpf x n).Finite) (hm : n ≤ m) : ¬(stream callIeee f x m).Finite := by
  rw [stream_eq]
  exact div_bad _ _ (Nonfinite.C95_blockdc (F := F) f.hpf x n m hn hm)

theorem weights (u : Silence.Usual F) (s : ℤ) (h3 : 3 ≤ s) (hs : s ≤ 2 ^ (F.p - 2)) :
    ∃ a c, 0 < a ∧ 5 / 8 ≤ c ∧ (1 / (s : Ieee F) : Ieee F) = num false a ∧ (1 - 1 / (s : Ieee F) : Ieee F) = num false c := by
  have hp : 0 < F.p := by have := u.p; omega
  have he0 : F.emin ≤ 0 := by have := u.emin; omega
  have hone : Fits F 1 := by have := Range.fits_pow (F := F) hp 0 he0; rwa [zpow_zero] at this
  obtain ⟨r0, r1, r2, r3⟩ := Silence.complement u s h3 hs
  have hs3 : (3 : ℚ) ≤ s := by exact_mod_cast h3
  have hlt : s < 2 ^ F.p := lt_of_le_of_lt hs (pow_lt_pow_right₀ (by norm_num) (by have := u.p; omega))
  have es : (s : Ieee F) = num false s := by
    obtain ⟨d1, d2, d3⟩ := cast_exact hp he0 u.emax s (by rw [abs_of_nonneg (by omega)]; exact hlt)
    show pack (decide (s < 0)) (s : ℚ) = _
    have d1' : (pack (decide (s < 0)) (s : ℚ) : Ieee F).Finite := d1
    rw [pack_finite] at d1'
    have d3' : (pack (decide (s < 0)) (s : ℚ) : Ieee F).val = s := d3
    rw [pack_num _ _ d1', decide_eq_false (by omega)] at d3' ⊢
    have : |roundTo F (s : ℚ)| = s := d3'
    rw [this]
  have h1s : (1 : ℚ) / s ≤ 1 / 3 := one_div_le_one_div_of_le (by norm_num) hs3
  have h1s0 : (0 : ℚ) < 1 / s := by positivity
  have ea : (1 / (s : Ieee F) : Ieee F) = num false (roundTo F (1 / s)) := by
    rw [one_eq u, es]
    show (if (s : ℚ) = 0 then _ else pack (false ^^ false) (1 / (s : ℚ))) = _
    rw [if_neg (by linarith), pack_num _ _ (u.finite _ (by rw [abs_of_pos h1s0]; linarith)), abs_of_nonneg r0]
    rfl
  have ha : 0 < roundTo F (1 / (s : ℚ)) := by
    refine lt_of_le_of_ne r0 fun h => ?_
    rw [← h, sub_zero, roundTo_of_fits hp 1 hone] at r3
    have : (0 : ℚ) < 1 / (2 * s) := by positivity
    linarith
  refine ⟨_, roundTo F (1 - roundTo F (1 / s)), ha, r2, ea, ?_⟩
  rw [ea, one_eq u]
  show (num false 1 + num true (roundTo F (1 / (s : ℚ))) : Ieee F) = _
  rw [add_num]
  simp only [signed, Bool.false_eq_true, if_false, if_true]
  rw [← sub_eq_add_neg, if_neg (by linarith), decide_eq_false (by linarith), pack_num _ _ (u.finite _ (by rw [abs_of_nonneg (by linarith)]; linarith)), abs_of_nonneg (by linarith)]

theorem power_positive (u : Silence.Usual F) (s : ℤ) (h3 : 3 ≤ s) (hs : s ≤ 2 ^ (F.p - 2)) (g : EMA (Ieee F) (Ieee F)) (hg : Positive g.prev) (ha : g.alpha = 1 / (s : Ieee F)) (x : ℕ → Ieee F) (n : ℕ) (hx : ∀ i ≤ n, Pos (x i)) :
    Positive (stream EMA.call g x n) := by
  have hp : 0 < F.p := by have := u.p; omega
  obtain ⟨a, c, a0, c0, ea, ec⟩ := weights u s h3 hs
  have step : ∀ y v : Ieee F, Positive y → Pos v → Positive (lerp y v g.alpha) := by
    intro y v hy hv
    show Positive ((1 - g.alpha) * y + g.alpha * v)
    rw [ha, ec, ea]
    exact positive_add hp (positive_scale hp (by linarith) hy) (pos_mul a0.le hv fun _ => a0.ne')
  have inv : ∀ k ≤ n, Positive (states EMA.call g x k).prev ∧ (states EMA.call g x k).alpha = g.alpha := by
    intro k
    induction k with
    | zero => exact fun _ => ⟨hg, rfl⟩
    | succ k ih =>
      intro hk
      obtain ⟨i1, i2⟩ := ih (by omega)
      refine ⟨?_, i2⟩
      show Positive (lerp (states EMA.call g x k).prev (x k) (states EMA.call g x k).alpha)
      rw [i2]
      exact step _ _ i1 (hx k (by omega))
  obtain ⟨i1, i2⟩ := inv n le_rfl
  show Positive (lerp (states EMA.call g x n).prev (x n) (states EMA.call g x n).alpha)
  rw [i2]
  exact step _ _ i1 (hx n le_rfl)

/-- **C109** With `samples(s)` from three samples on, silence does no harm: as long as the DC blocker has finite outputs, no output is NaN, and where the signal without its constant component is zero so is the output. -/
theorem C109_normalize (u : Silence.Usual F) (s : ℤ) (h3 : 3 ≤ s) (hs : s ≤ 2 ^ (F.p - 2)) (f : NormalizeRounded (Ieee F)) (hf : Positive f.lpf.prev) (x : ℕ → Ieee F) (n : ℕ)
    (hx : ∀ i ≤ n, (stream BlockDC.call (f.samples s).hpf x i).Finite) :
    stream callIeee (f.samples s) x n ≠ nan ∧ ((stream BlockDC.call (f.samples s).hpf x n).val = 0 → (stream callIeee (f.samples s) x n).Finite ∧ (stream callIeee (f.samples s) x n).val = 0) := by
  have hy : Positive ((f.samples s).power x n) := by
    refine power_positive u s h3 hs (f.samples s).lpf hf rfl _ n fun i hi => pos_square _ fun e => ?_
    have := hx i hi
    rw [show stream BlockDC.call (f.samples s).hpf x i = nan from e] at this
    exact this
  rw [stream_eq]
  have ht : ((f.samples s).blocked x n).Finite := hx n le_rfl
  show _ ∧ (((f.samples s).blocked x n).val = 0 → _)
  generalize (f.samples s).blocked x n = t at ht ⊢
  generalize (f.samples s).power x n = y at hy ⊢
  obtain ⟨z, m, rfl⟩ := (finite_iff t).mp ht
  have ha := amplitude u y hy
  generalize sqrt (2 * y) = q at ha ⊢
  rcases ha with rfl | ⟨r, r0, rfl⟩
  · exact ⟨(fun e => nomatch e), fun _ => ⟨trivial, by show signed _ 0 = 0; exact signed_zero _⟩⟩
  · have e : (num z m / num false r : Ieee F) = pack (z ^^ false) (m / r) := by
      show (if r = 0 then _ else pack (z ^^ false) (m / r)) = _
      rw [if_neg r0.ne']
    rw [e]
    refine ⟨pack_ne_nan _ _, fun h => ?_⟩
    have hm : m = 0 := by
      have : signed z m = 0 := h
      rw [← abs_eq_zero, signed_abs, abs_eq_zero] at this
      exact this
    rw [hm, zero_div, pack_num _ _ (by rw [roundTo_zero, abs_zero]; positivity), roundTo_zero, abs_zero]
    exact ⟨trivial, signed_zero _⟩

/-- **C109** One finite sample whose square overflows behind the DC blocker mutes the normaliser: as long as the blocker has finite outputs, every output is zero from there on. -/
theorem C109_normalize_mute (u : Silence.Usual F) (s : ℤ) (h3 : 3 ≤ s) (hs : s ≤ 2 ^ (F.p - 2)) (f : NormalizeRounded (Ieee F)) (hf : Positive f.lpf.prev) (x : ℕ → Ieee F) (n m : ℕ) (hm : n ≤ m)
    (hx : ∀ i ≤ m, (stream BlockDC.call (f.samples s).hpf x i).Finite) (k : ℕ) (hk : F.emax ≤ 2 * k) (hn : 2 ^ k ≤ |(stream BlockDC.call (f.samples s).hpf x n).val|) :
    (stream callIeee (f.samples s) x m).Finite ∧ (stream callIeee (f.samples s) x m).val = 0 := by
  have hp : 0 < F.p := by have := u.p; omega
  obtain ⟨a, c, a0, c0, ea, ec⟩ := weights u s h3 hs
  set g := (f.samples s).lpf with hg
  have ha : g.alpha = 1 / (s : Ieee F) := rfl
  set w := fun n => (f.samples s).blocked x n * (f.samples s).blocked x n with hw
  have hsq : ∀ i ≤ m, Pos (w i) := fun i hi => pos_square _ fun e => by
    have := hx i hi
    rw [show stream BlockDC.call (f.samples s).hpf x i = nan from e] at this
    exact this
  have halpha : ∀ i, (states EMA.call g w i).alpha = g.alpha := by
    intro i
    induction i with
    | zero => rfl
    | succ i ih => exact ih
  have hwn : w n = inf false := by
    obtain ⟨z, r, e⟩ := (finite_iff _).mp (hx n hm)
    have e' : (f.samples s).blocked x n = num z r := e
    rw [e] at hn
    have hr : 2 ^ k ≤ |r| := by
      have : |(num z r : Ieee F).val| = |r| := signed_abs z r
      rwa [this] at hn
    show (f.samples s).blocked x n * (f.samples s).blocked x n = inf false
    rw [e']
    have := square_inf u z |r| k hk hr
    rw [num_mul, abs_mul_abs_self] at this
    rw [num_mul]
    exact this
  have hinf : ∀ j, n ≤ j → j ≤ m → stream EMA.call g w j = inf false := by
    intro j hj
    induction j, hj using Nat.le_induction with
    | base =>
      intro _
      show (1 - (states EMA.call g w n).alpha) * (states EMA.call g w n).prev + (states EMA.call g w n).alpha * w n = inf false
      rw [halpha, ha, ec, ea, hwn, mul_inf a0.ne']
      have hprev : Positive (states EMA.call g w n).prev := by
        cases n with
        | zero => exact hf
        | succ n => exact power_positive u s h3 hs g hf ha w n fun i hi => hsq i (by omega)
      rcases positive_scale (F := F) hp (c := c) (by linarith) hprev with e | ⟨r, -, -, e⟩ <;> rw [e] <;> rfl
    | succ j hj ih =>
      intro hjm
      have := ih (by omega)
      show (1 - (states EMA.call g w (j + 1)).alpha) * (stream EMA.call g w j) + (states EMA.call g w (j + 1)).alpha * w (j + 1) = inf false
      rw [halpha, ha, ec, ea, this, mul_inf (by linarith)]
      rcases pos_mul a0.le (hsq (j + 1) hjm) (fun _ => a0.ne') with e | ⟨r, -, e⟩ <;> rw [e] <;> rfl
  rw [stream_eq]
  have e : (f.samples s).power x m = inf false := hinf m hm le_rfl
  have e2 : (2 * inf false : Ieee F) = inf false := by rw [two_eq u, Ieee.mul_inf (by norm_num)]
  rw [e, e2]
  obtain ⟨z, r, et⟩ := (finite_iff _).mp (hx m le_rfl)
  rw [show (f.samples s).blocked x m = num z r from et]
  exact ⟨trivial, signed_zero _⟩

/-- Nothing but zeros behind the DC blocker. -/
theorem blocked_zero (f : NormalizeRounded (Ieee F)) (h1 : ∃ z, f.hpf.x1 = num z 0) (h2 : ∃ z, f.hpf.y1 = num z 0) (ha : f.hpf.a.Finite) (hb : f.hpf.b.Finite) (x : ℕ → Ieee F) (hx : ∀ n, ∃ z, x n = num z 0) (n : ℕ) :
    ∃ z, f.blocked x n = num z 0 := by
  have step : ∀ g : BlockDC (Ieee F) (Ieee F), g.a = f.hpf.a → g.b = f.hpf.b → (∃ z, g.x1 = num z 0) → (∃ z, g.y1 = num z 0) → ∀ n, ∃ z, (g.call (x n)).2 = num z 0 := by
    intro g e1 e2 ⟨z1, e3⟩ ⟨z2, e4⟩ n
    obtain ⟨t, ht⟩ := hx n
    obtain ⟨r, hr⟩ := Silence.sub_zero_num (F := F) t z1
    obtain ⟨q, hq⟩ := Silence.mul_zero_num f.hpf.b hb r
    obtain ⟨q', hq'⟩ := Silence.mul_zero_num f.hpf.a ha z2
    refine ⟨q && q', ?_⟩
    show g.b * (x n - g.x1) + g.a * g.y1 = _
    rw [e1, e2, e3, e4, ht, hr, hq, hq', add_num, signed_zero, signed_zero, add_zero, if_pos rfl]
  have inv : ∀ n, let g := states BlockDC.call f.hpf x n; g.a = f.hpf.a ∧ g.b = f.hpf.b ∧ (∃ z, g.x1 = num z 0) ∧ ∃ z, g.y1 = num z 0 := by
    intro n
    induction n with
    | zero => exact ⟨rfl, rfl, h1, h2⟩
    | succ n ih =>
      obtain ⟨e1, e2, e3, e4⟩ := ih
      exact ⟨e1, e2, hx n, step _ e1 e2 e3 e4 n⟩
  obtain ⟨e1, e2, e3, e4⟩ := inv n
  exact step _ e1 e2 e3 e4 n

theorem zero_out (u : Silence.Usual F) (f : NormalizeRounded (Ieee F)) (x : ℕ → Ieee F) (n : ℕ) (z y : Bool) (h1 : f.blocked x n = num z 0) (h2 : f.power x n = num y 0) : stream callIeee f x n = nan := by
  rw [stream_eq, h1, h2, two_eq u, num_mul, mul_zero, pack_num _ _ (by rw [roundTo_zero, abs_zero]; positivity), roundTo_zero, abs_zero]
  have e : sqrt (num (false ^^ y) 0 : Ieee F) = num (false ^^ y) 0 := by simp [sqrt]
  rw [e]
  show (if (0 : ℚ) = 0 then (if (0 : ℚ) = 0 then nan else _) else _) = nan
  rw [if_pos rfl, if_pos rfl]

theorem square_zero (z : Bool) : (num z 0 * num z 0 : Ieee F) = num false 0 := by
  rw [num_mul, mul_zero, pack_num _ _ (by rw [roundTo_zero, abs_zero]; positivity), roundTo_zero, abs_zero, Bool.xor_self]

/-- **C109** With a weight of one half or more, as for two samples or one, or before `samples` is called, silence ends in NaN. -/
theorem C109_normalize_short (u : Silence.Usual F) (f : NormalizeRounded (Ieee F)) (h1 : ∃ z, f.hpf.x1 = num z 0) (h2 : ∃ z, f.hpf.y1 = num z 0) (ha : f.hpf.a.Finite) (hb : f.hpf.b.Finite) (hy : f.lpf.prev.Finite) (vy : f.lpf.prev.Valid)
    (hl : f.lpf.alpha.Finite) (hc : (1 - f.lpf.alpha).Finite) (hc0 : 0 ≤ (1 - f.lpf.alpha).val) (hc1 : (1 - f.lpf.alpha).val ≤ 1 / 2) (x : ℕ → Ieee F) (hx : ∀ n, ∃ z, x n = num z 0) : ∃ N, ∀ n, N ≤ n → stream callIeee f x n = nan := by
  have hp : 0 < F.p := by have := u.p; omega
  have hbl := blocked_zero f h1 h2 ha hb x hx
  have := Silence.C97_ema hp f.lpf hy vy hl hc0 (by linarith) hc (fun n => f.blocked x n * f.blocked x n) fun n => by
    obtain ⟨z, e⟩ := hbl n
    exact ⟨false, by rw [e, square_zero]⟩
  obtain ⟨N, hN⟩ := this.zero hc1
  refine ⟨N, fun n hn => ?_⟩
  obtain ⟨z, e⟩ := hbl n
  have hfin : (f.power x n).Finite := this.finite n
  obtain ⟨y, m, ey⟩ := (finite_iff _).mp hfin
  have hv : (f.power x n).val = 0 := hN n hn
  rw [ey] at hv
  have hm : m = 0 := by
    have : signed y m = 0 := hv
    rw [← abs_eq_zero, signed_abs, abs_eq_zero] at this
    exact this
  exact zero_out u f x n z y e (by rw [ey, hm])

/-- Silence from the start, in single precision. -/
example (n : ℕ) : (stream callIeee ((init (num false (1 / 2)) : NormalizeRounded (Ieee Format.single)).samples 48) (fun _ => 0) n).val = 0 := by
  have hz : ∀ i, ∃ z, stream BlockDC.call ((init (num false (1 / 2)) : NormalizeRounded (Ieee Format.single)).samples 48).hpf (fun _ => 0) i = num z 0 := fun i =>
    blocked_zero ((init (num false (1 / 2)) : NormalizeRounded (Ieee Format.single)).samples 48) ⟨false, rfl⟩ ⟨false, rfl⟩ (by decide +kernel) (by decide +kernel) (fun _ => 0) (fun _ => ⟨false, rfl⟩) i
  refine ((C109_normalize Silence.usual_single 48 (by norm_num) (by norm_num [Format.single]) (init (num false (1 / 2))) (.inr ⟨1 / 2, by norm_num, ?_, rfl⟩) (fun _ => 0) n fun i _ => ?_).2 ?_).2
  · exact Silence.usual_single.fits 1 1 (by norm_num [Format.single]) (by norm_num [Format.single])
  · obtain ⟨z, e⟩ := hz i; rw [e]; trivial
  · obtain ⟨z, e⟩ := hz n; rw [e]; exact signed_zero _

/-- A loud click, then a usual sample: the output is zero. -/
example : (stream callIeee ((init (num false (1 / 2)) : NormalizeRounded (Ieee Format.single)).samples 48) (fun n => if n = 0 then num false (2 ^ 80) else num false 1) 1).val = 0 := by
  refine (C109_normalize_mute Silence.usual_single 48 (by norm_num) (by norm_num [Format.single]) (init (num false (1 / 2))) (.inr ⟨1 / 2, by norm_num, ?_, rfl⟩) _ 0 1 (by norm_num) (fun i hi => ?_) 64 (by decide) ?_).2
  · exact Silence.usual_single.fits 1 1 (by norm_num [Format.single]) (by norm_num [Format.single])
  · interval_cases i <;> decide +kernel
  · decide +kernel

/-- Before `samples` is called silence gives NaN. -/
example : ∃ N, ∀ n, N ≤ n → stream callIeee (init (num false (1 / 2)) : NormalizeRounded (Ieee Format.single)) (fun _ => 0) n = nan := by
  have e : (1 - (init (num false (1 / 2)) : NormalizeRounded (Ieee Format.single)).lpf.alpha) = num false 0 := by decide +kernel
  exact C109_normalize_short Silence.usual_single (init (num false (1 / 2)) : NormalizeRounded (Ieee Format.single)) ⟨false, rfl⟩ ⟨false, rfl⟩ (by decide +kernel) (by decide +kernel) (by decide +kernel)
    (valid_of_fits _ _ (by norm_num) (by norm_num [Format.single]) (Silence.usual_single.fits 1 1 (by norm_num [Format.single]) (by norm_num [Format.single])))
    (by decide +kernel) (by rw [e]; trivial) (by rw [e]; exact le_rfl) (by rw [e]; show (0 : ℚ) ≤ 1 / 2; norm_num) (fun _ => 0) fun _ => ⟨false, rfl⟩

end NormalizeRounded

/-! ### The trigger -/

namespace SchmittTrigger

variable {F : Format}

/-- **C109** NaN never switches the trigger, be it the input or a threshold. -/
theorem C109_trigger (t : SchmittTrigger (Ieee F)) (x : Ieee F) (h : x = nan ∨ t.low = nan ∧ t.high = nan) : t.call x = (t, t.previous) := by
  have h1 : ¬x < t.low := by
    rcases h with h | h
    · rw [h]; exact nan_lt _
    · rw [h.1]; exact lt_nan _
  have h2 : ¬t.high < x := by
    rcases h with h | h
    · rw [h]; exact lt_nan _
    · rw [h.2]; exact nan_lt _
  unfold call
  simp only [h1, h2, if_false, ite_self]

/-- A trigger that is on stays on. -/
example : (⟨num true 1, num false 1, true⟩ : SchmittTrigger (Ieee Format.single)).call nan = (⟨num true 1, num false 1, true⟩, true) := C109_trigger _ _ (.inl rfl)

end SchmittTrigger
end DSP
