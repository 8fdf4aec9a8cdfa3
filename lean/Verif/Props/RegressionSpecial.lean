import Verif.Props.RegressionError
import Verif.Props.DemodSpecial

/-!
# The linear regression with infinities and NaN (C126)
-/

namespace DSP
namespace Regression

open Ieee

variable {F : Format}

/-! ### Sums -/

theorem sumTo_bad (f : ℕ → Ieee F) (n j : ℕ) (hj : j < n) (h : ¬(f j).Finite) : ¬(sumTo f n).Finite := by
  induction n with
  | zero => omega
  | succ n ih =>
    rw [sumTo_succ]
    rcases Nat.lt_succ_iff_lt_or_eq.mp hj with h' | rfl
    · exact add_bad_left _ _ (ih h')
    · exact add_bad_right _ _ h

theorem sumTo_nan (f : ℕ → Ieee F) (n j : ℕ) (hj : j < n) (h : f j = nan) : sumTo f n = nan := by
  induction n with
  | zero => omega
  | succ n ih =>
    rw [sumTo_succ]
    rcases Nat.lt_succ_iff_lt_or_eq.mp hj with h' | rfl
    · rw [ih h', nan_add]
    · rw [h, add_nan]

theorem inf_add (s : Bool) (a : Ieee F) : inf s + a = inf s ∨ inf s + a = nan := by
  rcases a with _ | t | ⟨t, m⟩
  · exact .inr rfl
  · by_cases h : s = t
    · left; show (if s = t then inf s else nan) = inf s; rw [if_pos h]
    · right; show (if s = t then inf s else nan) = nan; rw [if_neg h]
  · exact .inl rfl

theorem add_inf (s : Bool) (a : Ieee F) : a + inf s = inf s ∨ a + inf s = nan := by
  rcases a with _ | t | ⟨t, m⟩
  · exact .inr rfl
  · by_cases h : t = s
    · left; show (if t = s then inf t else nan) = inf s; rw [if_pos h, h]
    · right; show (if t = s then inf t else nan) = nan; rw [if_neg h]
  · exact .inl rfl

theorem sumTo_inf (f : ℕ → Ieee F) (n j : ℕ) (hj : j < n) (s : Bool) (h : f j = inf s) : sumTo f n = inf s ∨ sumTo f n = nan := by
  induction n with
  | zero => omega
  | succ n ih =>
    rw [sumTo_succ]
    rcases Nat.lt_succ_iff_lt_or_eq.mp hj with h' | rfl
    · rcases ih h' with e | e <;> rw [e]
      · exact inf_add s _
      · exact .inr rfl
    · rw [h]; exact add_inf s _

/-- Infinities of both signs. -/
theorem sumTo_both (f : ℕ → Ieee F) (n j k : ℕ) (hj : j < n) (hk : k < n) (s : Bool) (h1 : f j = inf s) (h2 : f k = inf !s) : sumTo f n = nan := by
  rcases sumTo_inf f n j hj s h1 with e | e
  · rcases sumTo_inf f n k hk (!s) h2 with e' | e'
    · rw [e] at e'
      have := Ieee.inf.inj e'
      cases s <;> exact absurd this (by decide)
    · exact e'
  · exact e

/-- An infinite or NaN divided by an infinite or NaN. -/
theorem bad_div_bad (a b : Ieee F) (ha : ¬a.Finite) (hb : ¬b.Finite) : a / b = nan := by
  rcases a with _ | s | ⟨s, m⟩
  · rfl
  · rcases b with _ | t | ⟨t, m⟩
    · rfl
    · rfl
    · exact absurd trivial hb
  · exact absurd trivial ha

/-! ### Signs -/

/-- NaN or a value with the given sign bit. -/
def Sign (s : Bool) (a : Ieee F) : Prop := a = nan ∨ a = inf s ∨ ∃ m, a = num s m

theorem sign_pack (s : Bool) (x : ℚ) : Sign s (pack s x : Ieee F) := by
  rw [pack_cases]
  split
  · exact .inr (.inl rfl)
  · exact .inr (.inr ⟨_, rfl⟩)

theorem sign_mul {s t : Bool} {a b : Ieee F} (ha : Sign s a) (hb : Sign t b) : Sign (s ^^ t) (a * b) := by
  rcases ha with rfl | rfl | ⟨m, rfl⟩
  · exact .inl rfl
  · rcases hb with rfl | rfl | ⟨n, rfl⟩
    · exact .inl rfl
    · exact .inr (.inl rfl)
    · show Sign _ (if n = 0 then nan else inf (s ^^ t))
      split
      · exact .inl rfl
      · exact .inr (.inl rfl)
  · rcases hb with rfl | rfl | ⟨n, rfl⟩
    · exact .inl rfl
    · show Sign _ (if m = 0 then nan else inf (s ^^ t))
      split
      · exact .inl rfl
      · exact .inr (.inl rfl)
    · exact sign_pack _ _

theorem sign_bad {s : Bool} {a : Ieee F} (h : Sign s a) (hb : ¬a.Finite) : a = nan ∨ a = inf s := by
  rcases h with h | h | ⟨m, rfl⟩
  · exact .inl h
  · exact .inr h
  · exact absurd trivial hb

theorem exists_sign (a : Ieee F) : ∃ s, Sign s a := by
  rcases a with _ | s | ⟨s, m⟩
  · exact ⟨false, .inl rfl⟩
  · exact ⟨s, .inr (.inl rfl)⟩
  · exact ⟨s, .inr (.inr ⟨m, rfl⟩)⟩

theorem cast_num (u : Silence.Usual F) (n : ℕ) (hn : n < 2 ^ F.p) : ((n : ℤ) : Ieee F) = num false n ∧ Fits F n := by
  have hp : 0 < F.p := by have := u.p; omega
  have he0 : F.emin ≤ 0 := by have := u.emin; omega
  obtain ⟨d1, d2, d3⟩ := cast_exact hp he0 u.emax (n : ℤ) (by rw [abs_of_nonneg (by omega)]; exact_mod_cast hn)
  have hf := valid_fits d2
  rw [d3] at hf
  refine ⟨?_, by exact_mod_cast hf⟩
  have e : ((n : ℤ) : Ieee F) = pack (decide ((n : ℤ) < 0)) ((n : ℤ) : ℚ) := rfl
  rw [e, pack_finite] at d1
  rw [e, pack_num _ _ d1, roundTo_of_fits hp _ hf, decide_eq_false (by omega), abs_of_nonneg (by positivity)]
  push_cast
  rfl

/-- The first and the last place lie on both sides of the middle. -/
theorem sides (u : Silence.Usual F) (L : ℕ) (hL : 2 ≤ L) (hLp : L < 2 ^ F.p) :
    Sign true ((((0 : ℕ) : ℤ) : Ieee F) - (((L : ℤ) - 1 : ℤ) : Ieee F) / 2) ∧ Sign false ((((L - 1 : ℕ) : ℤ) : Ieee F) - (((L : ℤ) - 1 : ℤ) : Ieee F) / 2) := by
  have hp : 0 < F.p := by have := u.p; omega
  obtain ⟨e0, -⟩ := cast_num u 0 (by positivity)
  obtain ⟨e1, f1⟩ := cast_num u (L - 1) (by omega)
  rw [show ((L : ℤ) - 1 : ℤ) = ((L - 1 : ℕ) : ℤ) by omega, e0, e1, two_eq u]
  set l : ℚ := ((L - 1 : ℕ) : ℚ) with hl
  have l1 : 1 ≤ l := by rw [hl]; exact_mod_cast (by omega : 1 ≤ L - 1)
  have hhalf : Fits F (1 / 2) := by have := u.fits 1 1 (by rw [abs_one]; exact one_lt_pow₀ (by norm_num) hp.ne') (by omega); norm_num at this ⊢; exact this
  have r1 : 1 / 2 ≤ roundTo F (l / 2) := le_roundTo hp _ _ hhalf (by linarith)
  have r2 : roundTo F (l / 2) ≤ l := roundTo_le hp _ _ f1 (by linarith)
  have ed : (num false l / num false 2 : Ieee F) = pack false (l / 2) := by
    show (if (2 : ℚ) = 0 then _ else pack (false ^^ false) (l / 2)) = _
    rw [if_neg (by norm_num)]; rfl
  rw [ed, pack_cases]
  set r := roundTo F (l / 2) with hr
  split
  · exact ⟨.inr (.inl rfl), by
      rename_i h
      exfalso
      have hv := val_lt (F := F) (a := ((L - 1 : ℕ) : ℤ)) (cast_exact hp (by have := u.emin; omega) u.emax _ (by rw [abs_of_nonneg (by omega)]; exact_mod_cast (by omega : L - 1 < 2 ^ F.p))).2.1
      rw [e1] at hv
      have : (num false l : Ieee F).val = l := rfl
      rw [this, abs_of_nonneg (by linarith)] at hv
      rw [abs_of_nonneg (by linarith)] at h
      linarith⟩
  · rw [abs_of_nonneg (by linarith)]
    constructor
    · show Sign true (num false ((0 : ℕ) : ℚ) + num true r : Ieee F)
      rw [add_num]
      simp only [signed, Bool.false_eq_true, if_false, if_true, Nat.cast_zero, zero_add]
      rw [if_neg (by linarith), decide_eq_true (by linarith)]
      exact sign_pack _ _
    · show Sign false (num false l + num true r : Ieee F)
      rw [add_num]
      simp only [signed, Bool.false_eq_true, if_false, if_true]
      split
      · exact .inr (.inr ⟨0, rfl⟩)
      · rw [decide_eq_false (by linarith)]
        exact sign_pack _ _

/-- Nothing finite at both ends, with opposite signs. -/
theorem spread (f : ℕ → Ieee F) (L : ℕ) (hL : 2 ≤ L) (s : Bool) (h1 : Sign s (f 0)) (h2 : Sign (!s) (f (L - 1))) (b1 : ¬(f 0).Finite) (b2 : ¬(f (L - 1)).Finite) : sumTo f L = nan := by
  rcases sign_bad h1 b1 with a1 | a1
  · exact sumTo_nan _ L 0 (by omega) a1
  · rcases sign_bad h2 b2 with a2 | a2
    · exact sumTo_nan _ L (L - 1) (by omega) a2
    · exact sumTo_both _ L 0 (L - 1) (by omega) (by omega) _ a1 a2

theorem sub_inf (s : Bool) (a : Ieee F) : a - inf s = inf (!s) ∨ a - inf s = nan := add_inf (!s) a

/-- **C126** On a uniform grid one sample that is infinite or NaN, or a sum of the samples that overflows, makes everything NaN: the slope, both intercepts and the value of the line at any place. -/
theorem C126_uniform (u : Silence.Usual F) (y : ℕ → Ieee F) (L : ℕ) (hL : 2 ≤ L) (hLp : L < 2 ^ F.p) (x0 dx : Ieee F) (hy : (∃ j < L, ¬(y j).Finite) ∨ ¬(sumTo y L).Finite) :
    ∃ f, uniform ((List.range L).map y) L x0 dx = .ok f ∧ f.slope = nan ∧ f.yint = nan ∧ f.xint = nan ∧ ∀ x, f.eval x = nan := by
  have hs : ¬(sumTo y L).Finite := by
    rcases hy with ⟨j, hj, h⟩ | h
    · exact sumTo_bad y L j hj h
    · exact h
  refine ⟨_, uniform_eq y L x0 dx, ?_⟩
  simp only [finish, Line.eval]
  set mid : Ieee F := (((L : ℤ) - 1 : ℤ) : Ieee F) / 2 with hmid
  set g : Ieee F := sumTo y L / ((L : ℤ) : Ieee F) with hg
  have hgb : ¬g.Finite := div_bad _ _ hs
  have hc : sumTo (fun j => (dx * (((j : ℤ) : Ieee F) - mid)) * (y j - g)) L = nan := by
    obtain ⟨s1, s2⟩ := sides u L hL hLp
    rw [← hmid] at s1 s2
    obtain ⟨d, hd⟩ := exists_sign dx
    have t0 : ∀ j : ℕ, ¬((dx * (((j : ℤ) : Ieee F) - mid)) * (y j - g)).Finite := fun j => mul_bad_right _ _ (sub_bad_right _ _ hgb)
    have hsg : g = nan ∨ ∃ s, g = inf s := by
      rcases hgv : g with _ | s | ⟨s, m⟩
      · exact .inl rfl
      · exact .inr ⟨s, rfl⟩
      · rw [hgv] at hgb; exact absurd trivial hgb
    rcases hsg with e | ⟨s, e⟩
    · refine sumTo_nan _ L 0 (by omega) ?_
      show _ * (y 0 - g) = nan
      rw [e, show y 0 - nan = nan from add_nan _, mul_nan]
    · have sg : ∀ j, Sign (!s) (y j - g) := by
        intro j
        rw [e]
        rcases sub_inf s (y j) with h | h
        · exact .inr (.inl h)
        · exact .inl h
      have b1 := sign_mul (sign_mul hd s1) (sg 0)
      have b2 := sign_mul (sign_mul hd s2) (sg (L - 1))
      have q1 := t0 0
      have q2 := t0 (L - 1)
      refine spread _ L hL (d ^^ true ^^ !s) b1 ?_ q1 q2
      have e : (!(d ^^ true ^^ !s)) = (d ^^ false ^^ !s) := by cases d <;> cases s <;> rfl
      rw [e]
      exact b2
  rw [hc]
  have e1 : ∀ v : Ieee F, nan / v = nan := nan_div
  have e2 : ∀ v : Ieee F, v - nan = nan := fun v => add_nan v
  refine ⟨e1 _, ?_, ?_, fun x => ?_⟩
  · rw [e1, nan_mul, e2]
  · rw [div_nan, e2]
  · rw [e1, nan_mul, nan_mul, e2, nan_add]

/-- **C126** A place that is infinite or NaN makes everything NaN. -/
theorem C126_places (x y : ℕ → Ieee F) (L j : ℕ) (hj : j < L) (hx : ¬(x j).Finite) :
    ∃ f, general ((List.range L).map x) ((List.range L).map y) L = .ok f ∧ f.slope = nan ∧ f.yint = nan ∧ f.xint = nan ∧ ∀ t, f.eval t = nan := by
  refine ⟨_, general_eq' x y L, ?_⟩
  simp only [finish, Line.eval]
  set m : Ieee F := sumTo x L / ((L : ℤ) : Ieee F) with hm
  set g : Ieee F := sumTo y L / ((L : ℤ) : Ieee F) with hg
  have hmb : ¬m.Finite := div_bad _ _ (sumTo_bad x L j hj hx)
  have hv : ¬(sumTo (fun j => (x j - m) * (x j - m)) L).Finite := sumTo_bad _ L j hj (mul_bad_left _ _ (sub_bad_right _ _ hmb))
  have hc : ¬(sumTo (fun j => (x j - m) * (y j - g)) L).Finite := sumTo_bad _ L j hj (mul_bad_left _ _ (sub_bad_right _ _ hmb))
  have hs := bad_div_bad _ _ hc hv
  have e2 : ∀ v : Ieee F, v - nan = nan := fun v => add_nan v
  refine ⟨hs, ?_, ?_, fun t => ?_⟩
  · rw [hs, nan_mul, e2]
  · rw [bad_div_bad _ _ (mul_bad_right _ _ hv) hc, e2]
  · rw [hs, nan_mul, nan_mul, e2, nan_add]

/-- **C126** A value that is infinite or NaN, at any places: the crossing is NaN, and neither the slope nor the intercept nor any value of the line is finite. -/
theorem C126_values (x y : ℕ → Ieee F) (L j : ℕ) (hj : j < L) (hy : ¬(y j).Finite) :
    ∃ f, general ((List.range L).map x) ((List.range L).map y) L = .ok f ∧ f.xint = nan ∧ ¬f.slope.Finite ∧ ¬f.yint.Finite ∧ ∀ t, ¬(f.eval t).Finite := by
  refine ⟨_, general_eq' x y L, ?_⟩
  simp only [finish, Line.eval]
  set m : Ieee F := sumTo x L / ((L : ℤ) : Ieee F) with hm
  set g : Ieee F := sumTo y L / ((L : ℤ) : Ieee F) with hg
  have hgb : ¬g.Finite := div_bad _ _ (sumTo_bad y L j hj hy)
  have hc : ¬(sumTo (fun j => (x j - m) * (y j - g)) L).Finite := sumTo_bad _ L j hj (mul_bad_right _ _ (sub_bad_right _ _ hgb))
  have e2 : ∀ v : Ieee F, v - nan = nan := fun v => add_nan v
  refine ⟨?_, div_bad _ _ hc, sub_bad_left _ _ hgb, fun t => add_bad_left _ _ (sub_bad_left _ _ hgb)⟩
  rw [bad_div_bad _ _ (mul_bad_left _ _ hgb) hc, e2]

/-- Whether the result is a line for which something holds. -/
def Holds (r : M (Line (Ieee F))) (P : Line (Ieee F) → Bool) : Bool :=
  match r with
  | .ok f => P f
  | .error _ => false

/-- **C126** Flat lines and small steps in single precision. Two samples of one: the line is one everywhere, the crossing is infinite. Two samples of zero: the line is zero, the crossing is NaN. And with steps of `2^-80`
the squares of the places vanish, so that the samples 0 and 1 give an infinite slope and the samples 1 and 1 no slope at all, though the exact ones, `2^80` and zero, are numbers of the format. -/
theorem C126_limits :
    Holds (uniform [1, 1] 2 (0 : Ieee .single) 1) (fun f => f.slope == 0 && f.eval 5 == 1 && (f.xint == inf true || f.xint == inf false)) ∧
    Holds (uniform [0, 0] 2 (0 : Ieee .single) 1) (fun f => f.slope == 0 && f.eval 5 == 0 && decide (f.xint = nan)) ∧
    Holds (uniform [0, 1] 2 (0 : Ieee .single) (num false (1 / 2 ^ 80))) (fun f => f.slope == inf false) ∧
    Holds (uniform [1, 1] 2 (0 : Ieee .single) (num false (1 / 2 ^ 80))) (fun f => decide (f.slope = nan)) := by
  refine ⟨?_, ?_, ?_, ?_⟩ <;> decide +kernel

/-- One NaN among five samples, in single precision. -/
example : ∃ f, uniform ((List.range 5).map fun j => if j = 3 then (nan : Ieee .single) else 1) 5 0 1 = .ok f ∧ f.slope = nan ∧ ∀ x, f.eval x = nan := by
  obtain ⟨f, h1, h2, -, -, h3⟩ := C126_uniform Silence.usual_single (fun j => if j = 3 then nan else 1) 5 (by norm_num) (by norm_num [Format.single]) 0 1 (.inl ⟨3, by norm_num, fun h => h⟩)
  exact ⟨f, h1, h2, h3⟩

/-- One infinite place or value among five. -/
example : (∃ f, general ((List.range 5).map fun j => if j = 3 then (inf true : Ieee .single) else 1) ((List.range 5).map fun _ => 1) 5 = .ok f ∧ f.slope = nan) ∧
    ∃ f, general ((List.range 5).map fun j => ((j : ℤ) : Ieee .single)) ((List.range 5).map fun j => if j = 3 then (inf true : Ieee .single) else 1) 5 = .ok f ∧ f.xint = nan := by
  obtain ⟨f, h1, h2, -⟩ := C126_places (fun j => if j = 3 then (inf true : Ieee .single) else 1) (fun _ => 1) 5 3 (by norm_num) (fun h => h)
  obtain ⟨f', h1', h2', -⟩ := C126_values (fun j => ((j : ℤ) : Ieee .single)) (fun j => if j = 3 then (inf true : Ieee .single) else 1) 5 3 (by norm_num) (fun h => h)
  exact ⟨⟨f, h1, h2⟩, f', h1', h2'⟩

end Regression
end DSP
