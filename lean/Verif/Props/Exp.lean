import Verif.Model.Elementary
import Verif.Lemmas.PolyDeriv
import Verif.Lemmas.Digits
import Verif.Props.Phasor
import Verif.Props.PnmPixels
import Mathlib.Analysis.SpecialFunctions.Log.Deriv
import Mathlib.Analysis.SpecialFunctions.Pow.Real
import Mathlib.Analysis.Calculus.MeanValue
import Mathlib.Tactic.IntervalCases

/-!
# C38: ldexp and exp10
-/

namespace DSP.Exp
open PolyBound

theorem shl_small (k : ℕ) (h : k ≤ 30) : shl k = .ok (2 ^ k) := by
  unfold shl
  rw [if_neg (by omega), if_neg (by omega), Int.toNat_natCast]
  rfl

theorem shl_square (k : ℕ) (h : k ≤ 31) : ∃ s, shl k = .ok s ∧ (s : ℝ) * s = 2 ^ (2 * k) := by
  by_cases c : k = 31
  · subst c
    exact ⟨-2147483648, rfl, by norm_num⟩
  · refine ⟨2 ^ k, shl_small k (by omega), ?_⟩
    push_cast
    rw [two_mul, pow_add]

theorem shl_large (k : ℤ) (h : 32 ≤ k) : shl k = .error .shift := by
  unfold shl
  rw [if_pos (Or.inr h)]

/-- Multiplication by a power of two, in both directions. -/
theorem C38_ldexp (x : ℝ) (n : ℤ) (h1 : -255 ≤ n) (h2 : n ≤ 255) : ldexp x n = .ok (x * 2 ^ n) := by
  have key : ∀ a : ℕ, a ≤ 255 → ∃ s, shl (Int.tdiv a 8) = .ok s ∧ shl ((a : ℤ) - Int.tdiv a 8 * 8) = .ok (2 ^ (a % 8)) ∧ ((s : ℝ) * s) * (s * s) * (s * s * (s * s)) * 2 ^ (a % 8) = 2 ^ a := by
    intro a ha
    have e1 : Int.tdiv (a : ℤ) 8 = ((a / 8 : ℕ) : ℤ) := by rw [Int.tdiv_eq_ediv_of_nonneg (by omega)]; omega
    have e2 : (a : ℤ) - ((a / 8 : ℕ) : ℤ) * 8 = ((a % 8 : ℕ) : ℤ) := by omega
    obtain ⟨s, hs, hs2⟩ := shl_square (a / 8) (by omega)
    refine ⟨s, by rw [e1, hs], by rw [e1, e2, shl_small _ (by omega)], ?_⟩
    rw [hs2, ← pow_add, ← pow_add, ← pow_add]
    congr 1
    omega
  unfold ldexp
  by_cases c : n < 0
  · obtain ⟨a, rfl⟩ : ∃ a : ℕ, n = -(a : ℤ) := ⟨n.natAbs, by omega⟩
    obtain ⟨s, k1, k2, k3⟩ := key a (by omega)
    have hi : int32 (- -(a : ℤ)) = .ok (a : ℤ) := by rw [neg_neg]; exact if_pos (by omega)
    have hi' : (if -(a : ℤ) < 0 then int32 (- -(a : ℤ)) else pure (-(a : ℤ))) = (.ok (a : ℤ) : M ℤ) := by rw [if_pos c, hi]
    simp only [bind, Except.bind, hi']
    rw [k1]
    simp only []
    rw [k2]
    simp only []
    push_cast
    rw [if_pos c, k3, fdiv_ok (by positivity), zpow_neg, zpow_natCast]
    rfl
  · obtain ⟨a, rfl⟩ : ∃ a : ℕ, n = (a : ℤ) := ⟨n.natAbs, by omega⟩
    obtain ⟨s, k1, k2, k3⟩ := key a (by omega)
    have hi' : (if (a : ℤ) < 0 then int32 (-(a : ℤ)) else pure (a : ℤ)) = (.ok (a : ℤ) : M ℤ) := by rw [if_neg c]; rfl
    simp only [bind, Except.bind, hi']
    rw [k1]
    simp only []
    rw [k2]
    simp only []
    push_cast
    rw [if_neg c, k3, zpow_natCast]
    rfl

/-- The shift is undefined for larger powers, though doubles reach from `2^-1074` to `2^1023`. -/
theorem C38_ldexp_shift (x : ℝ) (n : ℤ) (h1 : 256 ≤ |n|) (h2 : |n| ≤ 2147483647) : ldexp x n = .error .shift := by
  have hi' : (if n < 0 then int32 (-n) else pure n) = (.ok |n| : M ℤ) := by
    by_cases c : n < 0
    · rw [if_pos c, abs_of_neg c]
      rw [abs_of_neg c] at h1 h2
      exact if_pos (by omega)
    · rw [if_neg c, abs_of_nonneg (by omega)]
      rfl
  unfold ldexp
  simp only [bind, Except.bind, hi']
  rw [shl_large _ (by rw [Int.tdiv_eq_ediv_of_nonneg (by omega)]; omega)]

/-! ### The rational function -/

/-- `py / x`, lowest power of `x^2` first. -/
def A : List ℚ := [2.39423741207388267439E3, 4.06717289936872725516E2, 1.17452732554344059015E1, 4.09962519798587023075E-2]

/-- `qy`. -/
def B : List ℚ := [2.07960819286001865907E3, 1.27209271178345121210E3, 8.50936160849306532625E1, 1]

/-- `qy^2 - py^2`. -/
def W : List ℚ := add (mul B B) (neg (mul [0, 1] (mul A A)))

/-- The derivative of the error of the logarithm times `W`. -/
def N : List ℚ := add (smul 2 (add (mul (add A (mul [0, 2] (deriv A))) B) (neg (mul [0, 2] (mul A (deriv B)))))) (neg (smul Digits.log10 W))

theorem checkError : check (add (smul (4 / 10 ^ 18) W) N) 0 0.022801 16 = true ∧ check (add (smul (4 / 10 ^ 18) W) (neg N)) 0 0.022801 16 = true := by
  constructor <;> decide +kernel

theorem checkPositive : check (add [-1] (add B (neg (smul 0.1511 A)))) 0 0.022801 4 = true := by decide +kernel

theorem positive (x : ℝ) (hx : |x| ≤ 0.151) : 0 < eval A (x * x) ∧ |x * eval A (x * x)| < eval B (x * x) := by
  have hA : 0 < eval A (x * x) := by
    have := mul_self_nonneg x
    simp only [A, eval_cons, eval_nil]
    push_cast
    positivity
  have hxx : x * x ≤ 0.022801 := by
    rw [← abs_mul_abs_self x]
    nlinarith [abs_nonneg x]
  have h := check_sound _ 0 0.022801 4 checkPositive (x * x) (by push_cast; exact mul_self_nonneg x) (by push_cast; exact hxx) (by norm_num) (by norm_num)
  simp only [eval_add, eval_neg, eval_smul, eval_cons, eval_nil] at h
  push_cast at h
  refine ⟨hA, ?_⟩
  rw [abs_mul, abs_of_pos hA]
  nlinarith

/-- What the rational function computes. -/
noncomputable def E (x : ℝ) : ℝ := (eval B (x * x) + x * eval A (x * x)) / (eval B (x * x) - x * eval A (x * x))

theorem E_pos (x : ℝ) (hx : |x| ≤ 0.151) : 0 < E x := by
  obtain ⟨-, h⟩ := positive x hx
  rw [abs_lt] at h
  exact div_pos (by linarith) (by linarith)

theorem W_pos (x : ℝ) (hx : |x| ≤ 0.151) : 0 < eval W (x * x) := by
  obtain ⟨-, h⟩ := positive x hx
  rw [abs_lt] at h
  simp only [W, eval_mul, eval_add, eval_neg, eval_cons, eval_nil]
  push_cast
  nlinarith

theorem error_deriv (x : ℝ) (hx : |x| ≤ 0.151) : ∃ d, HasDerivAt (fun x => Real.log (E x) - Digits.log10 * x) d x ∧ d * eval W (x * x) = eval N (x * x) := by
  obtain ⟨-, h⟩ := positive x hx
  rw [abs_lt] at h
  have hu : HasDerivAt (fun x : ℝ => x * x) (1 * x + x * 1) x := (hasDerivAt_id x).mul (hasDerivAt_id x)
  have hA : HasDerivAt (fun x => eval A (x * x)) (eval (deriv A) (x * x) * (1 * x + x * 1)) x := HasDerivAt.comp x (h₂ := eval A) (h := fun x => x * x) (hasDerivAt_eval A (x * x)) hu
  have hB : HasDerivAt (fun x => eval B (x * x)) (eval (deriv B) (x * x) * (1 * x + x * 1)) x := HasDerivAt.comp x (h₂ := eval B) (h := fun x => x * x) (hasDerivAt_eval B (x * x)) hu
  have hp : HasDerivAt (fun x => x * eval A (x * x)) (1 * eval A (x * x) + x * (eval (deriv A) (x * x) * (1 * x + x * 1))) x := (hasDerivAt_id x).mul hA
  have n1 : eval B (x * x) + x * eval A (x * x) ≠ 0 := by linarith
  have n2 : eval B (x * x) - x * eval A (x * x) ≠ 0 := by linarith
  have hE := (hB.add hp).div (hB.sub hp) n2
  have hL := hE.log (by simpa using div_ne_zero n1 n2)
  have hd := hL.sub ((hasDerivAt_id x).const_mul (Digits.log10 : ℝ))
  refine ⟨_, hd, ?_⟩
  simp only [Pi.add_apply, Pi.sub_apply, Pi.div_apply, W, N, eval_mul, eval_add, eval_smul, eval_neg, eval_cons, eval_nil]
  push_cast
  generalize eval A (x * x) = a at n1 n2 ⊢
  generalize eval B (x * x) = b at n1 n2 ⊢
  generalize eval (PolyBound.deriv A) (x * x) = a'
  generalize eval (PolyBound.deriv B) (x * x) = b'
  have n3 : b + x * a ≠ 0 := n1
  field_simp
  ring

theorem E_error (x : ℝ) (hx : |x| ≤ 0.151) : |Real.log (E x) - Digits.log10 * x| ≤ 4 / 10 ^ 18 * |x| := by
  have hb : ∀ z ∈ Set.Icc (-0.151 : ℝ) 0.151, |z| ≤ 0.151 := fun z hz => abs_le.mpr hz
  let f' : ℝ → ℝ := fun z => if h : |z| ≤ 0.151 then (error_deriv z h).choose else 0
  have hf : ∀ z (h : |z| ≤ 0.151), HasDerivAt (fun x => Real.log (E x) - Digits.log10 * x) (f' z) z ∧ f' z * eval W (z * z) = eval N (z * z) := by
    intro z h
    have e : f' z = (error_deriv z h).choose := dif_pos h
    rw [e]
    exact (error_deriv z h).choose_spec
  have := Convex.norm_image_sub_le_of_norm_hasDerivWithin_le (f := fun x => Real.log (E x) - Digits.log10 * x) (f' := f') (C := 4 / 10 ^ 18) (s := Set.Icc (-0.151) 0.151)
    (fun z hz => (hf z (hb z hz)).1.hasDerivWithinAt) (fun z hz => by
      rw [Real.norm_eq_abs]
      have hd := (hf z (hb z hz)).2
      have hW := W_pos z (hb z hz)
      have hzz : z * z ≤ 0.022801 := by
        have := hb z hz
        rw [← abs_mul_abs_self z]
        nlinarith [abs_nonneg z]
      have a := check_sound _ 0 0.022801 16 checkError.1 (z * z) (by rw [Rat.cast_zero]; exact mul_self_nonneg z) (by push_cast; exact hzz) (by norm_num) (by norm_num)
      have b := check_sound _ 0 0.022801 16 checkError.2 (z * z) (by rw [Rat.cast_zero]; exact mul_self_nonneg z) (by push_cast; exact hzz) (by norm_num) (by norm_num)
      simp only [eval_add, eval_smul, eval_neg] at a b
      rw [← hd] at a b
      push_cast at a b
      rw [abs_le]
      constructor
      · by_contra c
        push Not at c
        nlinarith
      · by_contra c
        push Not at c
        nlinarith) (convex_Icc _ _) (x := 0) (y := x) (by norm_num) (abs_le.mp hx)
  have e0 : E 0 = 1 := by
    simp only [E, zero_mul, add_zero, sub_zero, B, eval_cons]
    norm_num
  simpa only [Real.norm_eq_abs, e0, Real.log_one, mul_zero, sub_zero] using this

/-- Reduction of the argument. -/
noncomputable def reduced (x : ℝ) : ℝ := x - Pnm.nearbyint (x * 3.32192809488736234787e0) * 3.01025390625000000000E-1 - Pnm.nearbyint (x * 3.32192809488736234787e0) * 4.60503898119521373889E-6

theorem reduced_small (x : ℝ) (hx : |x| ≤ 6 * 10 ^ 8) : |reduced x| ≤ 0.151 := by
  have h := abs_le.mp (Pnm.nearbyint_near (x * 3.32192809488736234787e0))
  rw [reduced]
  generalize ((Pnm.nearbyint (x * 3.32192809488736234787e0) : ℤ) : ℝ) = i at *
  rw [abs_le] at hx ⊢
  constructor
  · norm_num at h hx ⊢
    linarith [h.1, h.2, hx.1, hx.2]
  · norm_num at h hx ⊢
    linarith [h.1, h.2, hx.1, hx.2]

theorem exp10_ok (x : ℝ) (hx : |x| ≤ 6 * 10 ^ 8) : exp10 x = ldexp (E (reduced x)) (Pnm.nearbyint (x * 3.32192809488736234787e0)) := by
  have hr := reduced_small x hx
  obtain ⟨-, h⟩ := positive _ hr
  rw [abs_lt] at h
  have hi : int32 (Pnm.nearbyint (x * 3.32192809488736234787e0)) = .ok (Pnm.nearbyint (x * 3.32192809488736234787e0)) := by
    have h := abs_le.mp (Pnm.nearbyint_near (x * 3.32192809488736234787e0))
    rw [abs_le] at hx
    apply if_pos
    constructor
    · have : ((-2147483648 : ℤ) : ℝ) ≤ Pnm.nearbyint (x * 3.32192809488736234787e0) := by push_cast; norm_num at h ⊢; linarith [h.1, h.2, hx.1, hx.2]
      exact_mod_cast this
    · have : ((Pnm.nearbyint (x * 3.32192809488736234787e0) : ℤ) : ℝ) ≤ ((2147483647 : ℤ) : ℝ) := by push_cast; norm_num at h ⊢; linarith [h.1, h.2, hx.1, hx.2]
      exact_mod_cast this
  have e1 : ∀ y : ℝ, y * (y * y * (y * y * (y * y * 4.09962519798587023075E-2 + 1.17452732554344059015E1) + 4.06717289936872725516E2) + 2.39423741207388267439E3) = y * eval A (y * y) := by
    intro y
    simp only [A, eval_cons, eval_nil]
    push_cast
    ring
  have e2 : ∀ y : ℝ, y * y * (y * y * (y * y + 8.50936160849306532625E1) + 1.27209271178345121210E3) + 2.07960819286001865907E3 = eval B (y * y) := by
    intro y
    simp only [B, eval_cons, eval_nil]
    push_cast
    ring
  unfold exp10
  simp only [e1, e2]
  rw [← reduced, hi, fdiv_ok (by linarith)]
  simp only [bind, Except.bind]
  congr 1
  have : eval B (reduced x * reduced x) - reduced x * eval A (reduced x * reduced x) ≠ 0 := by linarith
  rw [E]
  generalize eval B (reduced x * reduced x) = b at this ⊢
  generalize eval A (reduced x * reduced x) = a at this ⊢
  field_simp
  ring

/-- The relative error of `exp10` is at most `2^-60` as long as the power of two is one `ldexp` can do. -/
theorem C38_exp10 (x : ℝ) (hx : |x| ≤ 76.9) : ∃ v, exp10 x = .ok v ∧ |v - (10 : ℝ) ^ x| ≤ (10 : ℝ) ^ x / 2 ^ 60 := by
  have hr := reduced_small x (hx.trans (by norm_num))
  have hn := abs_le.mp (Pnm.nearbyint_near (x * 3.32192809488736234787e0))
  have he := E_error _ hr
  have hE := E_pos _ hr
  have hx' := abs_le.mp hx
  rw [exp10_ok x (hx.trans (by norm_num))]
  have d : x = reduced x + Pnm.nearbyint (x * 3.32192809488736234787e0) * (3.01025390625000000000E-1 + 4.60503898119521373889E-6) := by rw [reduced]; ring
  generalize hi : Pnm.nearbyint (x * 3.32192809488736234787e0) = i at *
  generalize reduced x = y at *
  have b1 : -255 ≤ i := by
    have : ((-256 : ℤ) : ℝ) < i := by push_cast; norm_num at hn hx' ⊢; linarith [hn.1, hn.2, hx'.1, hx'.2]
    have : -256 < i := by exact_mod_cast this
    omega
  have b2 : i ≤ 255 := by
    have : (i : ℝ) < ((256 : ℤ) : ℝ) := by push_cast; norm_num at hn hx' ⊢; linarith [hn.1, hn.2, hx'.1, hx'.2]
    have : i < 256 := by exact_mod_cast this
    omega
  rw [C38_ldexp _ i b1 b2]
  refine ⟨_, rfl, ?_⟩
  have b1' : (-255 : ℝ) ≤ i := by exact_mod_cast b1
  have b2' : (i : ℝ) ≤ 255 := by exact_mod_cast b2
  set η : ℝ := (Real.log (E y) + i * Real.log 2) - x * Real.log 10 with hη
  have h2 := abs_le.mp Digits.log_two
  have h10 := abs_le.mp Digits.log_ten
  have hη' : |η| ≤ 6.1 / 10 ^ 19 := by
    have s1 : η = (Real.log (E y) - Digits.log10 * y) + y * (Digits.log10 - Real.log 10) + i * (Real.log 2 - (3.01025390625000000000E-1 + 4.60503898119521373889E-6) * Real.log 10) := by
      rw [hη]
      nth_rw 1 [d]
      ring
    have k1 : |Digits.log10 - Real.log 10| ≤ 1 / 10 ^ 30 := by rw [abs_le]; constructor <;> linarith [h10.1, h10.2]
    have k2 : |Real.log 2 - (3.01025390625000000000E-1 + 4.60503898119521373889E-6) * Real.log 10| ≤ 1 / 10 ^ 24 := by
      rw [Digits.log2] at h2
      rw [Digits.log10] at h10
      push_cast at h2 h10
      rw [abs_le]
      constructor <;> norm_num at h2 h10 ⊢ <;> linarith [h2.1, h2.2, h10.1, h10.2]
    have k3 : |(i : ℝ)| ≤ 255 := abs_le.mpr ⟨b1', b2'⟩
    rw [s1]
    calc _ ≤ |(Real.log (E y) - Digits.log10 * y) + y * (Digits.log10 - Real.log 10)| + |(i : ℝ) * (Real.log 2 - (3.01025390625000000000E-1 + 4.60503898119521373889E-6) * Real.log 10)| := abs_add_le _ _
      _ ≤ (|Real.log (E y) - Digits.log10 * y| + |y * (Digits.log10 - Real.log 10)|) + |(i : ℝ) * (Real.log 2 - (3.01025390625000000000E-1 + 4.60503898119521373889E-6) * Real.log 10)| := by
        gcongr
        exact abs_add_le _ _
      _ ≤ (4 / 10 ^ 18 * 0.151 + 0.151 * (1 / 10 ^ 30)) + 255 * (1 / 10 ^ 24) := by
        rw [abs_mul, abs_mul]
        gcongr
        exact he.trans (by gcongr)
      _ ≤ _ := by norm_num
  have hv : E y * 2 ^ i = (10 : ℝ) ^ x * Real.exp η := by
    rw [Real.rpow_def_of_pos (by norm_num), ← Real.exp_add, hη, show Real.log 10 * x + (Real.log (E y) + i * Real.log 2 - x * Real.log 10) = Real.log (E y) + i * Real.log 2 by ring,
      Real.exp_add, Real.exp_log hE, mul_comm (i : ℝ), ← Real.rpow_def_of_pos (by norm_num), Real.rpow_intCast]
  have hp : (0 : ℝ) < (10 : ℝ) ^ x := by positivity
  have hq := Real.abs_exp_sub_one_sub_id_le (x := η) (hη'.trans (by norm_num))
  have h3 : |Real.exp η - 1| ≤ 1 / 2 ^ 60 := by
    have := abs_add_le (Real.exp η - 1 - η) η
    rw [sub_add_cancel] at this
    have h4 : η ^ 2 ≤ (6.1 / 10 ^ 19) ^ 2 := by rw [← sq_abs]; gcongr
    refine this.trans ((add_le_add (hq.trans h4) hη').trans (by norm_num))
  rw [hv, show (10 : ℝ) ^ x * Real.exp η - (10 : ℝ) ^ x = (10 : ℝ) ^ x * (Real.exp η - 1) by ring, abs_mul, abs_of_pos hp]
  calc _ ≤ (10 : ℝ) ^ x * (1 / 2 ^ 60) := by gcongr
    _ = _ := by ring

/-- Beyond that it does not reach a result, far inside the range of double precision. -/
theorem C38_exp10_shift (x : ℝ) (h1 : 77 ≤ |x|) (h2 : |x| ≤ 6 * 10 ^ 8) : exp10 x = .error .shift := by
  rw [exp10_ok x h2]
  have hn := abs_le.mp (Pnm.nearbyint_near (x * 3.32192809488736234787e0))
  have h2' := abs_le.mp h2
  generalize hi : Pnm.nearbyint (x * 3.32192809488736234787e0) = i at *
  apply C38_ldexp_shift
  · rcases le_abs.mp h1 with h | h
    · have : ((255 : ℤ) : ℝ) < i := by push_cast; norm_num at hn ⊢; linarith [hn.1, hn.2]
      have : 255 < i := by exact_mod_cast this
      exact le_abs.mpr (Or.inl (by omega))
    · have : (i : ℝ) < ((-255 : ℤ) : ℝ) := by push_cast; norm_num at hn ⊢; linarith [hn.1, hn.2]
      have : i < -255 := by exact_mod_cast this
      exact le_abs.mpr (Or.inr (by omega))
  · rw [abs_le]
    constructor
    · have : ((-2147483647 : ℤ) : ℝ) ≤ i := by push_cast; norm_num at hn ⊢; linarith [hn.1, hn.2, h2'.1, h2'.2]
      exact_mod_cast this
    · have : (i : ℝ) ≤ ((2147483647 : ℤ) : ℝ) := by push_cast; norm_num at hn ⊢; linarith [hn.1, hn.2, h2'.1, h2'.2]
      exact_mod_cast this

/-- Nine bits down. -/
example : ldexp 3 (-9) = .ok (3 / 512) := by rw [C38_ldexp _ _ (by norm_num) (by norm_num)]; norm_num

/-- One thousand. -/
example : ∃ v, exp10 3 = .ok v ∧ |v - 1000| ≤ 1000 / 2 ^ 60 := by
  obtain ⟨v, h1, h2⟩ := C38_exp10 3 (by norm_num [abs_le])
  exact ⟨v, h1, by norm_num at h2 ⊢; exact h2⟩

/-- A number double precision can hold easily. -/
example : exp10 100 = .error .shift := C38_exp10_shift 100 (by norm_num) (by norm_num)

end DSP.Exp
