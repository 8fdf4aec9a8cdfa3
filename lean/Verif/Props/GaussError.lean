import Verif.Props.FirSineError
import Mathlib.Analysis.Complex.ExponentialBounds

/-!
# C83: the Gaussian window in floating point
-/

namespace DSP
namespace Win

open Spec

/-- An exponential function with an error below one unit in the last place. -/
def LibraryExp (p : ℕ) (exp : Binary p → Binary p) : Prop := ∀ a, |((exp a).val : ℝ) - Real.exp a.val| ≤ 2 * (1 / 2 ^ p) * Real.exp a.val

/-- A power whose squares have an error below one unit in the last place. -/
def LibraryPow (p : ℕ) [NeZero p] (pow : Binary p → Binary p → Binary p) : Prop := ∀ a, |((pow a ((2 : ℤ) : Binary p)).val : ℝ) - (a.val : ℝ) ^ 2| ≤ 2 * (1 / 2 ^ p) * (a.val : ℝ) ^ 2

/-- The exponential of a number that is not positive, with a relative error in it. -/
theorem exp_near (x y δ : ℝ) (hx : 0 ≤ x) (hδ0 : 0 ≤ δ) (hδ : δ ≤ 1 / 20) (h : |y - x| ≤ δ * x) : |Real.exp (-y) - Real.exp (-x)| ≤ 0.4 * δ := by
  obtain ⟨h1, h2⟩ := abs_le.mp h
  -- both are at least `(1 - δ) x`
  have hm : ∀ a b : ℝ, (1 - δ) * x ≤ a → a ≤ b → b - a ≤ δ * x → |Real.exp (-b) - Real.exp (-a)| ≤ 0.4 * δ := fun a b ha hab hd => by
    have e1 : Real.exp (-b) ≤ Real.exp (-a) := Real.exp_le_exp.mpr (by linarith)
    have e2 : Real.exp (-a) * (1 - (b - a)) ≤ Real.exp (-b) := by
      have := Real.add_one_le_exp (-(b - a))
      have e : Real.exp (-b) = Real.exp (-a) * Real.exp (-(b - a)) := by rw [← Real.exp_add]; congr 1; ring
      rw [e]
      exact mul_le_mul_of_nonneg_left (by linarith) (Real.exp_pos _).le
    rw [abs_sub_comm, abs_of_nonneg (by linarith)]
    have e3 : Real.exp (-a) * (b - a) ≤ Real.exp (-a) * (δ * x) := mul_le_mul_of_nonneg_left hd (Real.exp_pos _).le
    have e4 : Real.exp (-a) * (a * Real.exp 1) ≤ 1 := by
      have := Real.add_one_le_exp (a - 1)
      have e : Real.exp a = Real.exp (a - 1) * Real.exp 1 := by rw [← Real.exp_add]; congr 1; ring
      have g : a * Real.exp 1 ≤ Real.exp a := by
        rw [e]; exact mul_le_mul_of_nonneg_right (by linarith) (Real.exp_pos _).le
      calc _ ≤ Real.exp (-a) * Real.exp a := mul_le_mul_of_nonneg_left g (Real.exp_pos _).le
        _ = 1 := by rw [← Real.exp_add]; simp
    have e5 : x * 2.58 ≤ a * Real.exp 1 := by
      have g : x * 0.95 ≤ a := by nlinarith
      have g0 : 0 ≤ a := by linarith
      have := Real.exp_one_gt_d9
      calc x * 2.58 ≤ x * 0.95 * 2.7182818283 := by nlinarith
        _ ≤ a * Real.exp 1 := by gcongr
    have e6 : Real.exp (-a) * (x * 2.58) ≤ 1 := (mul_le_mul_of_nonneg_left e5 (Real.exp_pos _).le).trans e4
    have e7 : Real.exp (-a) * x ≤ 0.4 := by linarith
    have e8 : Real.exp (-a) * (δ * x) ≤ 0.4 * δ := by
      calc _ = Real.exp (-a) * x * δ := by ring
        _ ≤ _ := mul_le_mul_of_nonneg_right e7 hδ0
    linarith
  rcases le_total x y with c | c
  · exact hm x y (by nlinarith) c (by linarith)
  · rw [abs_sub_comm]
    exact hm y x (by nlinarith) c (by linarith)

variable (p : ℕ) [NeZero p] (hp : 10 ≤ p) (hp' : p ≤ 53) (n N : ℤ) (hN : 2 ≤ N) (hN2 : N ≤ 2147483647) (hNp : N ≤ 2 ^ p) (hn : 0 ≤ n) (hnN : n < N)

include hp hN hNp hn hnN in
/-- The distance from the middle is exact. -/
theorem middle_exact : (((n : Binary p) - ((N - 1 : ℤ) : Binary p) / ((2 : ℤ) : Binary p)).val : ℝ) = (n : ℝ) - ((N : ℝ) - 1) / 2 := by
  have h2 := Binary.cast_exact p 2 (by
    have : (2 : ℤ) ^ 10 ≤ 2 ^ p := by gcongr; norm_num
    rw [abs_of_pos (by norm_num)]
    linarith)
  have e1 := Binary.cast_exact p n (by rw [abs_of_nonneg hn]; linarith)
  have e2 := Binary.cast_exact p (N - 1) (by rw [abs_of_nonneg (by linarith)]; linarith)
  have e3 : (((N - 1 : ℤ) : Binary p) / ((2 : ℤ) : Binary p)).val = ((N - 1 : ℤ) : ℚ) / 2 := by
    show Binary.round p (((N - 1 : ℤ) : Binary p).val / ((2 : ℤ) : Binary p).val) = _
    rw [e2, h2]
    exact Binary.round_of_representable p _ ⟨N - 1, -1, by rw [abs_of_nonneg (by linarith)]; linarith, by push_cast; ring⟩
  have e4 : ((n : Binary p) - ((N - 1 : ℤ) : Binary p) / ((2 : ℤ) : Binary p)).val = (n : ℚ) - ((N - 1 : ℤ) : ℚ) / 2 := by
    show Binary.round p ((n : Binary p).val - (((N - 1 : ℤ) : Binary p) / ((2 : ℤ) : Binary p)).val) = _
    rw [e1, e3]
    refine Binary.round_of_representable p _ ⟨2 * n - (N - 1), -1, ?_, by push_cast; ring⟩
    rw [abs_lt]
    constructor <;> linarith
  rw [e4]
  push_cast
  ring

include hp hp' hN hN2 hNp hn hnN in
/-- **C83** The Gaussian window is off by at most eight units. -/
theorem C83_gauss (exp : Binary p → Binary p) (hexp : LibraryExp p exp) (pow : Binary p → Binary p → Binary p) (hpow : LibraryPow p pow) (o : Binary p) (ho : o.val ≠ 0) :
    ∃ w, Rounded.gauss exp pow (Binary.literal 53 p 0.5) o n N = .ok w ∧ |(w.val : ℝ) - Real.exp (-(((2 * n - (N - 1 : ℤ)) / (o.val * (N - 1 : ℤ))) ^ 2 / 2))| ≤ 8 / 2 ^ p := by
  have hR := binary_roundedField p
  have hu0 : (0 : ℝ) ≤ 1 / 2 ^ p := by positivity
  have hu := unit_small p hp
  have hm := middle_exact p hp n N hN hNp hn hnN
  have hh := literal_half 53 p hp'
  have h2 : (((2 : ℤ) : Binary p).val : ℝ) = 2 := by
    rw [Binary.cast_exact p 2 (by
      have : (2 : ℤ) ^ 10 ≤ 2 ^ p := by gcongr; norm_num
      rw [abs_of_pos (by norm_num)]
      linarith)]
    norm_num
  have hN1 : (((N - 1 : ℤ) : Binary p).val : ℝ) = ((N - 1 : ℤ) : ℝ) := by
    rw [Binary.cast_exact p (N - 1) (by rw [abs_of_nonneg (by linarith)]; linarith)]
    norm_num
  have hN0 : ((N - 1 : ℤ) : ℝ) ≠ 0 := by exact_mod_cast (show N - 1 ≠ 0 by omega)
  have ho' : (o.val : ℝ) ≠ 0 := by exact_mod_cast ho
  -- the divisor
  have r1 : Rel (1 / 2 ^ p) 1 ((o * ((N - 1 : ℤ) : Binary p)).val : ℝ) ((o.val : ℝ) * ((N - 1 : ℤ) : ℝ)) := by
    have := hR.mul o ((N - 1 : ℤ) : Binary p)
    rw [hN1] at this
    simpa using (Rel.refl (1 / 2 ^ p) ((o.val : ℝ) * ((N - 1 : ℤ) : ℝ))).round hu0 this
  have r2 : Rel (1 / 2 ^ p) 2 ((o * ((N - 1 : ℤ) : Binary p) / ((2 : ℤ) : Binary p)).val : ℝ) ((o.val : ℝ) * ((N - 1 : ℤ) : ℝ) / 2) := by
    have := hR.div (o * ((N - 1 : ℤ) : Binary p)) ((2 : ℤ) : Binary p) (by rw [h2]; norm_num)
    rw [h2] at this
    have half : Rel (1 / 2 ^ p) 0 ((2 : ℝ)⁻¹) ((2 : ℝ)⁻¹) := Rel.refl _ _
    have := (r1.mul_exact hu0 half).round hu0 (by rw [← div_eq_mul_inv]; exact this)
    rw [← div_eq_mul_inv] at this
    exact this
  have hd : (o.val : ℝ) * ((N - 1 : ℤ) : ℝ) / 2 ≠ 0 := div_ne_zero (mul_ne_zero ho' hN0) two_ne_zero
  have r3 := (Rel.refl (1 / 2 ^ p) ((n : ℝ) - ((N : ℝ) - 1) / 2)).div hu0 (by linarith) r2 hd (by norm_num at hu ⊢; linarith) (fun hb => by
    have := hR.div ((n : Binary p) - ((N - 1 : ℤ) : Binary p) / ((2 : ℤ) : Binary p)) _ hb
    rw [hm] at this
    exact this)
  obtain ⟨hd0, r3⟩ := r3
  have hz : (o * ((N - 1 : ℤ) : Binary p) / ((2 : ℤ) : Binary p) == 0) = false := Fir.beq_zero_false p hd0
  refine ⟨_, by simp only [Rounded.gauss, bind, Except.bind, int32_fits (show -2147483648 ≤ N - 1 ∧ N - 1 ≤ 2147483647 by omega), hz, M.ite, Bool.false_eq_true, if_false]; rfl, ?_⟩
  generalize hq : ((n : Binary p) - ((N - 1 : ℤ) : Binary p) / ((2 : ℤ) : Binary p)) / (o * ((N - 1 : ℤ) : Binary p) / ((2 : ℤ) : Binary p)) = q at *
  have hQ : ((n : ℝ) - ((N : ℝ) - 1) / 2) / ((o.val : ℝ) * ((N - 1 : ℤ) : ℝ) / 2) = (2 * n - (N - 1 : ℤ)) / (o.val * (N - 1 : ℤ)) := by
    field_simp
    push_cast
    ring
  rw [hQ] at r3
  generalize ((2 * n - (N - 1 : ℤ)) / (o.val * (N - 1 : ℤ)) : ℝ) = Q at *
  -- the square and its half
  have r4 := r3.mul_exact hu0 r3
  have e4 := r4.bound (C := 8.1) hu0 (by norm_num at hu ⊢; linarith) (by norm_num at hu ⊢; linarith)
  have hP := hpow q
  have hM := hR.mul (-Binary.literal 53 p 0.5) (pow q ((2 : ℤ) : Binary p))
  rw [hR.neg, hh] at hM
  have hE := hexp (-Binary.literal 53 p 0.5 * pow q ((2 : ℤ) : Binary p))
  generalize -Binary.literal 53 p 0.5 * pow q ((2 : ℤ) : Binary p) = m at *
  generalize pow q ((2 : ℤ) : Binary p) = s at *
  rw [show (8 : ℝ) / 2 ^ p = 8 * (1 / 2 ^ p) by ring]
  generalize (1 : ℝ) / 2 ^ p = u at *
  rw [← sq, ← sq, abs_of_nonneg (sq_nonneg Q)] at e4
  have hQ2 := sq_nonneg Q
  generalize Q ^ 2 = A at *
  generalize (q.val : ℝ) ^ 2 = B at *
  obtain ⟨a1, a2⟩ := abs_le.mp e4
  have hB : B ≤ 1.01 * A := by nlinarith
  have hP' : |(s.val : ℝ) - A| ≤ 10.2 * u * A := by
    have g : 2 * u * B ≤ 2 * u * (1.01 * A) := mul_le_mul_of_nonneg_left hB (by linarith)
    obtain ⟨b1, b2⟩ := abs_le.mp hP
    have : 0 ≤ u * A := mul_nonneg hu0 hQ2
    rw [abs_le]
    constructor <;> nlinarith
  have hs : |(s.val : ℝ)| ≤ 1.02 * A := by
    have := abs_sub_abs_le_abs_sub (s.val : ℝ) A
    rw [abs_of_nonneg hQ2] at this
    nlinarith
  have hM' : |-(m.val : ℝ) - A / 2| ≤ 11.3 * u * (A / 2) := by
    have g : u * |-(1 / 2) * (s.val : ℝ)| ≤ u * (1 / 2 * (1.02 * A)) := by
      rw [abs_mul, abs_neg, abs_of_pos (by norm_num : (0 : ℝ) < 1 / 2)]
      gcongr
    obtain ⟨b1, b2⟩ := abs_le.mp (hM.trans g)
    obtain ⟨c1, c2⟩ := abs_le.mp hP'
    have : 0 ≤ u * A := mul_nonneg hu0 hQ2
    rw [abs_le]
    constructor <;> nlinarith
  have e5 := exp_near (A / 2) (-(m.val : ℝ)) (11.3 * u) (by linarith) (by linarith) (by norm_num at hu ⊢; linarith) hM'
  rw [neg_neg] at e5
  have e6 : Real.exp (-(A / 2)) ≤ 1 := Real.exp_le_one_iff.mpr (by linarith)
  obtain ⟨c1, c2⟩ := abs_le.mp e5
  have e7 : Real.exp (m.val : ℝ) ≤ 1.01 := by norm_num at hu ⊢; linarith
  have e8 : 2 * u * Real.exp (m.val : ℝ) ≤ 2 * u * 1.01 := mul_le_mul_of_nonneg_left e7 (by linarith)
  obtain ⟨d1, d2⟩ := abs_le.mp (hE.trans e8)
  rw [abs_le]
  constructor <;> linarith

/-- The correctly rounded functions. -/
noncomputable def roundedExp {p : ℕ} [NeZero p] (a : Binary p) : Binary p :=
  ⟨Binary.roundReal p (Real.exp (a.val : ℝ)), Binary.roundReal_representable p (Nat.pos_of_ne_zero (NeZero.ne p)) _⟩

noncomputable def roundedPow {p : ℕ} [NeZero p] (a b : Binary p) : Binary p :=
  ⟨Binary.roundReal p ((a.val : ℝ) ^ (b.val : ℝ)), Binary.roundReal_representable p (Nat.pos_of_ne_zero (NeZero.ne p)) _⟩

theorem roundedExp_library (p : ℕ) [NeZero p] : LibraryExp p roundedExp := by
  intro a
  have := Binary.roundReal_error p (Real.exp (a.val : ℝ))
  rw [abs_of_pos (Real.exp_pos _)] at this
  refine this.trans ?_
  have h : 0 ≤ Real.exp (a.val : ℝ) / 2 ^ p := by positivity
  rw [show 2 * (1 / 2 ^ p) * Real.exp (a.val : ℝ) = 2 * (Real.exp (a.val : ℝ) / 2 ^ p) by ring]
  linarith

theorem roundedPow_library (p : ℕ) [NeZero p] (hp : 10 ≤ p) : LibraryPow p roundedPow := by
  intro a
  have h2 : (((2 : ℤ) : Binary p).val : ℝ) = 2 := by
    rw [Binary.cast_exact p 2 (by
      have : (2 : ℤ) ^ 10 ≤ 2 ^ p := by gcongr; norm_num
      rw [abs_of_pos (by norm_num)]
      linarith)]
    norm_num
  have := Binary.roundReal_error p ((a.val : ℝ) ^ (((2 : ℤ) : Binary p).val : ℝ))
  show |(Binary.roundReal p ((a.val : ℝ) ^ (((2 : ℤ) : Binary p).val : ℝ)) : ℝ) - _| ≤ _
  rw [h2, Real.rpow_two, abs_of_nonneg (sq_nonneg (a.val : ℝ))] at this
  rw [h2, Real.rpow_two]
  refine this.trans ?_
  have h : 0 ≤ (a.val : ℝ) ^ 2 / 2 ^ p := by positivity
  rw [show 2 * (1 / 2 ^ p) * (a.val : ℝ) ^ 2 = 2 * ((a.val : ℝ) ^ 2 / 2 ^ p) by ring]
  linarith

/-- The first weight of a window of 65 samples in single precision, with the parameter 1/2. -/
example (o : Binary 24) (ho : o.val = 1 / 2) : ∃ w, Rounded.gauss roundedExp roundedPow (Binary.literal 53 24 0.5) o 0 65 = .ok w ∧ |(w.val : ℝ) - Real.exp (-2)| ≤ 8 / 2 ^ 24 := by
  obtain ⟨w, e, h⟩ := C83_gauss 24 (by norm_num) (by norm_num) 0 65 (by norm_num) (by norm_num) (by norm_num) (by norm_num) (by norm_num) _ (roundedExp_library 24) _ (roundedPow_library 24 (by norm_num)) o (by rw [ho]; norm_num)
  refine ⟨w, e, ?_⟩
  rw [ho] at h
  norm_num at h ⊢
  exact h

end Win
end DSP
