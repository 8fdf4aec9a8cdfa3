import Verif.Model.Window
import Verif.Spec.Taper
import Verif.Props.UnitCircle
import Verif.Props.Utils

/-!
# Window functions (C62)
-/

namespace DSP
namespace Win

open Spec

/-! ### Trigonometry -/

theorem cos_mirror (n M : ℤ) (hM : 1 ≤ M) : Real.cos (2 * Real.pi * (M - n : ℤ) / M) = Real.cos (2 * Real.pi * n / M) := by
  have : (M : ℝ) ≠ 0 := by exact_mod_cast (by omega : M ≠ 0)
  rw [show 2 * Real.pi * ((M - n : ℤ) : ℝ) / M = 2 * Real.pi - 2 * Real.pi * n / M by push_cast; field_simp, Real.cos_two_pi_sub]

theorem cos_half (n : ℤ) (hn : 1 ≤ n) : Real.cos (2 * Real.pi * n / (2 * n : ℤ)) = -1 := by
  have : (n : ℝ) ≠ 0 := by exact_mod_cast (by omega : n ≠ 0)
  rw [show 2 * Real.pi * (n : ℝ) / ((2 * n : ℤ) : ℝ) = Real.pi by push_cast; field_simp, Real.cos_pi]

theorem cos_tmod (k M : ℤ) (hM : 1 ≤ M) : Real.cos (2 * Real.pi * (k.tmod M : ℤ) / M) = Real.cos (2 * Real.pi * k / M) := by
  have h : (M : ℝ) ≠ 0 := by exact_mod_cast (by omega : M ≠ 0)
  have e : (k : ℝ) = M * (k.tdiv M : ℤ) + (k.tmod M : ℤ) := by exact_mod_cast (Int.mul_tdiv_add_tmod k M).symm
  rw [show 2 * Real.pi * (k : ℝ) / M = 2 * Real.pi * (k.tmod M : ℤ) / M + (k.tdiv M : ℤ) * (2 * Real.pi) by rw [e]; field_simp; ring,
    Real.cos_add_int_mul_two_pi]

theorem sin_tmod (k M : ℤ) (hM : 1 ≤ M) : Real.sin (2 * Real.pi * (k.tmod M : ℤ) / M) = Real.sin (2 * Real.pi * k / M) := by
  have h : (M : ℝ) ≠ 0 := by exact_mod_cast (by omega : M ≠ 0)
  have e : (k : ℝ) = M * (k.tdiv M : ℤ) + (k.tmod M : ℤ) := by exact_mod_cast (Int.mul_tdiv_add_tmod k M).symm
  rw [show 2 * Real.pi * (k : ℝ) / M = 2 * Real.pi * (k.tmod M : ℤ) / M + (k.tdiv M : ℤ) * (2 * Real.pi) by rw [e]; field_simp; ring,
    Real.sin_add_int_mul_two_pi]

theorem cos_double (n M : ℤ) : Real.cos (2 * Real.pi * (2 * n : ℤ) / M) = 2 * Real.cos (2 * Real.pi * n / M) ^ 2 - 1 := by
  rw [← Real.cos_two_mul]; congr 1; push_cast; ring

theorem irem_ok (a b : ℤ) (h : b ≠ 0) : irem a b = .ok (a.tmod b) := by simp [irem, h]

theorem tmod_range (a b : ℤ) (h : 1 ≤ b) : -b ≤ a.tmod b ∧ a.tmod b ≤ b := by
  have h1 := Int.tmod_lt_of_pos a (by omega : 0 < b)
  have h2 := Int.lt_tmod_of_pos a (by omega : 0 < b)
  omega

/-! ### The windows -/

/-- The rectangular window is one on its support and zero elsewhere. -/
theorem C62_rect (N : ℤ) (hN : 1 ≤ N) : IsTaper N (fun n => rect n N) ∧ ∀ n, (0 ≤ n ∧ n < N → rect n N = 1) ∧ (¬ (0 ≤ n ∧ n < N) → rect n N = 0) := by
  have h1 : ∀ n, 0 ≤ n → n < N → rect n N = 1 := fun n h0 h1 => by simp [rect, h0, h1]
  refine ⟨⟨fun n h0 h2 => ?_, fun n h0 h2 => ?_, fun n h0 h2 => ?_, fun n h => ?_⟩, fun n => ⟨fun h => h1 n h.1 h.2, fun h => ?_⟩⟩
  · rw [h1 n h0 h2, h1 _ (by omega) (by omega)]
  · rw [h1 n h0 h2]; norm_num
  · rw [h1 n h0 h2]
  · exact h1 n (by omega) (by omega)
  · simp only [rect]; rw [if_neg h]

variable (N : ℤ) (hN : 2 ≤ N) (hN2 : N ≤ 134217728)

include hN hN2 in
/-- Hann window: a raised cosine. -/
theorem C62_hann : ∃ w, IsTaper N w ∧ ∀ n, 0 ≤ n → n < N → hann Kernels.exact n N = .ok (w n) ∧ w n = (1 - Real.cos (2 * Real.pi * n / (N - 1 : ℤ))) / 2 := by
  refine ⟨fun n => (1 - Real.cos (2 * Real.pi * n / (N - 1 : ℤ))) / 2, ⟨fun n h0 h1 => ?_, fun n _ _ => ?_, fun n _ _ => ?_, fun n h => ?_⟩, fun n h0 h1 => ⟨?_, rfl⟩⟩
  · rw [cos_mirror n (N - 1) (by omega)]
  · have := Real.cos_le_one (2 * Real.pi * n / (N - 1 : ℤ)); linarith
  · have := Real.neg_one_le_cos (2 * Real.pi * n / (N - 1 : ℤ)); linarith
  · rw [show N - 1 = 2 * n by omega, cos_half n (by omega)]; norm_num
  · simp only [hann, bind, Except.bind, int32_fits (show -2147483648 ≤ N - 1 ∧ N - 1 ≤ 2147483647 by omega), pure, Except.pure,
      UnitCircle.cos_exact n (N - 1) (by omega) (by omega) (by omega) (by omega)]
    congr 1; simp only [exactCos]; ring

include hN hN2 in
/-- Hamming window: a raised cosine on a pedestal. -/
theorem C62_hamming : ∃ w, IsTaper N w ∧ ∀ n, 0 ≤ n → n < N →
    hamming Kernels.exact n N = .ok (w n) ∧ w n = 0.54 - 0.46 * Real.cos (2 * Real.pi * n / (N - 1 : ℤ)) ∧ 0.08 ≤ w n := by
  refine ⟨fun n => 0.54 - 0.46 * Real.cos (2 * Real.pi * n / (N - 1 : ℤ)), ⟨fun n h0 h1 => ?_, fun n _ _ => ?_, fun n _ _ => ?_, fun n h => ?_⟩,
    fun n h0 h1 => ⟨?_, rfl, ?_⟩⟩
  · rw [cos_mirror n (N - 1) (by omega)]
  · have := Real.cos_le_one (2 * Real.pi * n / (N - 1 : ℤ)); linarith
  · have := Real.neg_one_le_cos (2 * Real.pi * n / (N - 1 : ℤ)); linarith
  · rw [show N - 1 = 2 * n by omega, cos_half n (by omega)]; norm_num
  · simp only [hamming, bind, Except.bind, int32_fits (show -2147483648 ≤ N - 1 ∧ N - 1 ≤ 2147483647 by omega), pure, Except.pure,
      UnitCircle.cos_exact n (N - 1) (by omega) (by omega) (by omega) (by omega)]
    rfl
  · have := Real.cos_le_one (2 * Real.pi * n / (N - 1 : ℤ)); simp only []; linarith

/-- The argument of the cardinal sine. -/
noncomputable def lanczosX (n N : ℤ) : ℝ := (2 * n - (N - 1 : ℤ)) / (N - 1 : ℤ)

include hN in
theorem lanczosX_bound (n : ℤ) (h0 : 0 ≤ n) (h1 : n < N) : |lanczosX n N| ≤ 1 := by
  have h : (0 : ℝ) < (N - 1 : ℤ) := by exact_mod_cast (by omega : 0 < N - 1)
  have h0 : (0 : ℝ) ≤ n := by exact_mod_cast h0
  have h1 : (n : ℝ) ≤ (N - 1 : ℤ) := by exact_mod_cast (by omega : n ≤ N - 1)
  rw [lanczosX, abs_le, le_div_iff₀ h, div_le_iff₀ h]
  constructor <;> linarith

theorem sinc_unit (x : ℝ) (h : |x| ≤ 1) : 0 ≤ sinc x ∧ sinc x ≤ 1 := by
  have even : sinc x = sinc |x| := by
    rcases abs_cases x with ⟨h, -⟩ | ⟨h, -⟩
    · rw [h]
    · rw [h]; simp only [sinc, eq_comm (a := (0 : ℝ)), neg_eq_zero, mul_neg, Real.sin_neg, neg_div_neg_eq]
  rw [even]
  generalize hy : |x| = y at *
  have hy0 : 0 ≤ y := by rw [← hy]; exact abs_nonneg x
  by_cases c : 0 = y
  · rw [← c]; simp [sinc]
  · have hy1 : 0 < y := lt_of_le_of_ne hy0 c
    have hp : 0 < Real.pi * y := mul_pos Real.pi_pos hy1
    simp only [sinc, c, if_false]
    refine ⟨div_nonneg (Real.sin_nonneg_of_nonneg_of_le_pi hp.le (by nlinarith [Real.pi_pos])) hp.le, ?_⟩
    rw [div_le_one hp]
    exact Real.sin_le hp.le

include hN hN2 in
/-- Lanczos window: the main lobe of the cardinal sine. -/
theorem C62_lanczos : ∃ w, IsTaper N w ∧ ∀ n, 0 ≤ n → n < N →
    lanczos Kernels.exact n N = .ok (w n) ∧
      (2 * n ≠ N - 1 → w n = Real.sin (Real.pi * ((2 * n - (N - 1 : ℤ)) / (N - 1 : ℤ))) / (Real.pi * ((2 * n - (N - 1 : ℤ)) / (N - 1 : ℤ)))) := by
  have hM : (N - 1 : ℤ) ≠ 0 := by omega
  have hM' : ((N - 1 : ℤ) : ℝ) ≠ 0 := by exact_mod_cast hM
  have hz : ∀ n : ℤ, 2 * n ≠ N - 1 → lanczosX n N ≠ 0 := fun n c => by
    have : ((2 * n - (N - 1) : ℤ) : ℝ) ≠ 0 := by exact_mod_cast (by omega : 2 * n - (N - 1) ≠ 0)
    rw [lanczosX]
    exact div_ne_zero (by push_cast at this ⊢; exact this) hM'
  refine ⟨fun n => sinc (lanczosX n N), ⟨fun n h0 h1 => ?_, fun n h0 h1 => ?_, fun n h0 h1 => ?_, fun n h => ?_⟩, fun n h0 h1 => ⟨?_, fun c => ?_⟩⟩
  · have : lanczosX (N - 1 - n) N = -lanczosX n N := by simp only [lanczosX]; push_cast; field_simp; ring
    simp only [this]
    simp only [sinc, eq_comm (a := (0 : ℝ)), neg_eq_zero, mul_neg, Real.sin_neg, neg_div_neg_eq]
  · exact (sinc_unit _ (lanczosX_bound N hN n h0 h1)).1
  · exact (sinc_unit _ (lanczosX_bound N hN n h0 h1)).2
  · have : lanczosX n N = 0 := by simp only [lanczosX]; rw [show N - 1 = 2 * n by omega]; push_cast; simp
    simp [this, sinc]
  · simp only [lanczos, bind, Except.bind, int32_fits (show -2147483648 ≤ N - 1 ∧ N - 1 ≤ 2147483647 by omega),
      int32_fits (show -2147483648 ≤ 2 * n ∧ 2 * n ≤ 2147483647 by omega)]
    by_cases c : 2 * n = N - 1
    · rw [if_pos c]
      have : lanczosX n N = 0 := by simp only [lanczosX]; rw [← c]; push_cast; simp
      simp [this, sinc, pure, Except.pure]
    · rw [if_neg c]
      simp only [int32_fits (show -2147483648 ≤ 2 * n - (N - 1) ∧ 2 * n - (N - 1) ≤ 2147483647 by omega),
        int32_fits (show -2147483648 ≤ 2 * (N - 1) ∧ 2 * (N - 1) ≤ 2147483647 by omega),
        UnitCircle.sin_exact (2 * n - (N - 1)) (2 * (N - 1)) (by omega) (by omega) (by omega) (by omega)]
      have hd : ((2 * n - (N - 1) : ℤ) : ℝ) ≠ 0 := by exact_mod_cast (by omega : 2 * n - (N - 1) ≠ 0)
      rw [fdiv_ok hM']
      simp only []
      rw [fdiv_ok (div_ne_zero (mul_ne_zero Real.pi_ne_zero hd) hM')]
      simp only [sinc, (hz n c).symm, if_false]
      congr 1
      have e : lanczosX n N = ((2 * n - (N - 1) : ℤ) : ℝ) / ((N - 1 : ℤ) : ℝ) := by rw [lanczosX]; push_cast; rfl
      rw [exactSin, e]
      congr 1
      · congr 1
        push_cast
        push_cast at hM'
        field_simp
      · ring
  · have h := (hz n c).symm
    simp only [lanczosX] at h
    simp only [sinc, lanczosX, h, if_false]

include hN hN2 in
theorem blackman_ok (a0 a1 a2 : ℝ) (n : ℤ) (h0 : 0 ≤ n) (h1 : n < N) :
    blackman Kernels.exact a0 a1 a2 n N =
      .ok (a0 - a1 * Real.cos (2 * Real.pi * n / (N - 1 : ℤ)) + a2 * Real.cos (2 * Real.pi * (2 * n : ℤ) / (N - 1 : ℤ))) := by
  have ht := tmod_range (2 * n) (N - 1) (by omega)
  simp only [blackman, bind, Except.bind, int32_fits (show -2147483648 ≤ N - 1 ∧ N - 1 ≤ 2147483647 by omega),
    int32_fits (show -2147483648 ≤ 2 * n ∧ 2 * n ≤ 2147483647 by omega), pure, Except.pure,
    UnitCircle.cos_exact n (N - 1) (by omega) (by omega) (by omega) (by omega), irem_ok (2 * n) (N - 1) (by omega),
    UnitCircle.cos_exact _ (N - 1) (by omega) (by omega) ht.1 ht.2]
  simp only [exactCos]
  rw [cos_tmod (2 * n) (N - 1) (by omega)]

theorem blackman_taper (a0 a1 a2 : ℝ) (hN : 2 ≤ N) (h0 : ∀ c : ℝ, -1 ≤ c → c ≤ 1 → 0 ≤ a0 - a1 * c + a2 * (2 * c ^ 2 - 1))
    (h1 : ∀ c : ℝ, -1 ≤ c → c ≤ 1 → a0 - a1 * c + a2 * (2 * c ^ 2 - 1) ≤ 1) (h2 : a0 + a1 + a2 = 1) :
    IsTaper N (fun n : ℤ => a0 - a1 * Real.cos (2 * Real.pi * n / (N - 1 : ℤ)) + a2 * Real.cos (2 * Real.pi * (2 * n : ℤ) / (N - 1 : ℤ))) := by
  have e : ∀ n : ℤ, Real.cos (2 * Real.pi * (2 * n : ℤ) / (N - 1 : ℤ)) = 2 * Real.cos (2 * Real.pi * n / (N - 1 : ℤ)) ^ 2 - 1 := fun n => cos_double n (N - 1)
  refine ⟨fun n _ _ => ?_, fun n _ _ => ?_, fun n _ _ => ?_, fun n h => ?_⟩
  · simp only [e]; rw [cos_mirror n (N - 1) (by omega)]
  · simp only [e]; exact h0 _ (Real.neg_one_le_cos _) (Real.cos_le_one _)
  · simp only [e]; exact h1 _ (Real.neg_one_le_cos _) (Real.cos_le_one _)
  · simp only [e]; rw [show N - 1 = 2 * n by omega, cos_half n (by omega)]; linarith

include hN hN2 in
/-- Blackman windows: symmetric for all coefficients, proper windows for `Blackman(a)` with `|a| <= 1/4` (that includes the usual 0.16) and for the "exact" one. -/
theorem C62_blackman (a : ℝ) (ha : |a| ≤ 1 / 4) :
    (∃ w, IsTaper N w ∧ ∀ n, 0 ≤ n → n < N → blackmanA Kernels.exact a n N = .ok (w n) ∧
      w n = (1 - a) / 2 - 1 / 2 * Real.cos (2 * Real.pi * n / (N - 1 : ℤ)) + a / 2 * Real.cos (4 * Real.pi * n / (N - 1 : ℤ))) ∧
    ∃ w, IsTaper N w ∧ ∀ n, 0 ≤ n → n < N → blackmanExact Kernels.exact n N = .ok (w n) ∧
      w n = 7938 / 18608 - 9240 / 18608 * Real.cos (2 * Real.pi * n / (N - 1 : ℤ)) + 1430 / 18608 * Real.cos (4 * Real.pi * n / (N - 1 : ℤ)) := by
  have hd : ∀ n : ℤ, Real.cos (2 * Real.pi * (2 * n : ℤ) / (N - 1 : ℤ)) = Real.cos (4 * Real.pi * n / (N - 1 : ℤ)) := fun n => by
    congr 1; push_cast; ring
  obtain ⟨a1, a2⟩ := abs_le.mp ha
  constructor
  · refine ⟨_, blackman_taper N ((1 - a) / 2) 0.5 (a / 2) hN (fun c h1 h2 => ?_) (fun c h1 h2 => ?_) (by ring_nf), fun n h0 h1 =>
      ⟨blackman_ok N hN hN2 _ _ _ n h0 h1, ?_⟩⟩
    · have : (1 - a) / 2 - 0.5 * c + a / 2 * (2 * c ^ 2 - 1) = (1 - c) * (1 / 2 - a - a * c) := by ring
      rw [this]
      exact mul_nonneg (by linarith) (by nlinarith)
    · have : (1 - a) / 2 - 0.5 * c + a / 2 * (2 * c ^ 2 - 1) = 1 - (1 + c) * (1 / 2 + a - a * c) := by ring
      rw [this]
      have := mul_nonneg (show (0 : ℝ) ≤ 1 + c by linarith) (show 0 ≤ 1 / 2 + a - a * c by nlinarith)
      linarith
    · simp only [hd]; norm_num
  · refine ⟨_, blackman_taper N (7938 / 18608) (9240 / 18608) (1430 / 18608) hN (fun c h1 h2 => ?_) (fun c h1 h2 => ?_) (by norm_num), fun n h0 h1 =>
      ⟨blackman_ok N hN hN2 _ _ _ n h0 h1, ?_⟩⟩
    · nlinarith [mul_nonneg (show (0 : ℝ) ≤ 1 - c by linarith) (show (0 : ℝ) ≤ 1 - c by linarith)]
    · nlinarith [mul_nonneg (show (0 : ℝ) ≤ 1 + c by linarith) (show (0 : ℝ) ≤ 1 - c by linarith)]
    · simp only [hd]

include hN hN2 in
/-- Any coefficients give a symmetric window. -/
theorem C62_blackman_symmetric (a0 a1 a2 : ℝ) (n : ℤ) (h0 : 0 ≤ n) (h1 : n < N) :
    ∃ v, blackman Kernels.exact a0 a1 a2 n N = .ok v ∧ blackman Kernels.exact a0 a1 a2 (N - 1 - n) N = .ok v := by
  refine ⟨_, blackman_ok N hN hN2 a0 a1 a2 n h0 h1, ?_⟩
  rw [blackman_ok N hN hN2 a0 a1 a2 _ (by omega) (by omega), cos_double, cos_double, cos_mirror n (N - 1) (by omega)]

/-- Why `a` is bounded: with `a = 1/2` the weight at a twelfth of the window is negative. -/
theorem C62_blackman_negative : ∃ v, blackmanA Kernels.exact (1 / 2) 1 13 = .ok v ∧ v < 0 := by
  refine ⟨_, blackman_ok 13 (by norm_num) (by norm_num) _ _ _ 1 (by norm_num) (by norm_num), ?_⟩
  rw [cos_double]
  have e : Real.cos (2 * Real.pi * ((1 : ℤ) : ℝ) / ((13 - 1 : ℤ) : ℝ)) = Real.sqrt 3 / 2 := by
    rw [show 2 * Real.pi * ((1 : ℤ) : ℝ) / ((13 - 1 : ℤ) : ℝ) = Real.pi / 6 by push_cast; ring, Real.cos_pi_div_six]
  rw [e]
  have h3 : Real.sqrt 3 ^ 2 = 3 := Real.sq_sqrt (by norm_num)
  have h4 : 1 < Real.sqrt 3 := by rw [Real.lt_sqrt] <;> norm_num
  have h5 : Real.sqrt 3 < 2 := by rw [Real.sqrt_lt] <;> norm_num
  norm_num
  nlinarith

include hN in
theorem gauss_ok (o : ℝ) (ho : o ≠ 0) (hN2 : N ≤ 2147483647) (n : ℤ) :
    gauss o n N = .ok (Real.exp (-(((2 * n - (N - 1 : ℤ)) / (o * (N - 1 : ℤ))) ^ 2 / 2))) := by
  have hM' : ((N - 1 : ℤ) : ℝ) ≠ 0 := by exact_mod_cast (by omega : N - 1 ≠ 0)
  simp only [gauss, bind, Except.bind, int32_fits (show -2147483648 ≤ N - 1 ∧ N - 1 ≤ 2147483647 by omega)]
  rw [fdiv_ok (div_ne_zero (mul_ne_zero ho hM') two_ne_zero)]
  simp only [pure, Except.pure]
  congr 2
  rw [Real.rpow_two]
  field_simp
  norm_num

include hN in
/-- Gaussian window. -/
theorem C62_gauss (o : ℝ) (ho : o ≠ 0) (hN2 : N ≤ 2147483647) : ∃ w, IsTaper N w ∧ ∀ n, gauss o n N = .ok (w n) ∧
    w n = Real.exp (-(((2 * n - (N - 1 : ℤ)) / (o * (N - 1 : ℤ))) ^ 2 / 2)) ∧ 0 < w n := by
  refine ⟨fun n => Real.exp (-(((2 * n - (N - 1 : ℤ)) / (o * (N - 1 : ℤ))) ^ 2 / 2)), ⟨fun n _ _ => ?_, fun n _ _ => (Real.exp_pos _).le, fun n _ _ => ?_, fun n h => ?_⟩,
    fun n => ⟨gauss_ok N hN o ho hN2 n, rfl, Real.exp_pos _⟩⟩
  · congr 3; push_cast; rw [show (2 * ((N : ℝ) - 1 - n) - (N - 1)) = -(2 * n - (N - 1)) by ring, neg_div, neg_sq]
  · rw [Real.exp_le_one_iff]
    have := sq_nonneg ((2 * n - (N - 1 : ℤ)) / (o * (N - 1 : ℤ)))
    linarith
  · rw [show N - 1 = 2 * n by omega]; push_cast; simp

/-! ### With the polynomials of the code -/

include hN hN2 in
/-- The approximation of the cosine changes the windows by less than `2^-57` (times the coefficients). -/
theorem C62_accuracy (n : ℤ) (h0 : 0 ≤ n) (h1 : n < N) :
    (∃ v w, hann Kernels.code n N = .ok v ∧ hann Kernels.exact n N = .ok w ∧ |v - w| < 1 / 2 ^ 58) ∧
    (∃ v w, hamming Kernels.code n N = .ok v ∧ hamming Kernels.exact n N = .ok w ∧ |v - w| < 1 / 2 ^ 58) ∧
    ∀ a0 a1 a2, ∃ v w, blackman Kernels.code a0 a1 a2 n N = .ok v ∧ blackman Kernels.exact a0 a1 a2 n N = .ok w ∧ |v - w| ≤ (|a1| + |a2|) / 2 ^ 57 := by
  obtain ⟨⟨c, hc, hc'⟩, -⟩ := UnitCircle.C36_accuracy n (N - 1) (by omega) (by omega) (by omega) (by omega)
  have ht := tmod_range (2 * n) (N - 1) (by omega)
  obtain ⟨⟨d, hd, hd'⟩, -⟩ := UnitCircle.C36_accuracy _ (N - 1) (by omega) (by omega) ht.1 ht.2
  have i1 := int32_fits (show -2147483648 ≤ N - 1 ∧ N - 1 ≤ 2147483647 by omega)
  have i2 := int32_fits (show -2147483648 ≤ 2 * n ∧ 2 * n ≤ 2147483647 by omega)
  have e1 := UnitCircle.cos_exact n (N - 1) (by omega) (by omega) (by omega) (by omega)
  have e2 := UnitCircle.cos_exact _ (N - 1) (by omega) (by omega) ht.1 ht.2
  have e3 := irem_ok (2 * n) (N - 1) (by omega)
  refine ⟨⟨_, _, by simp only [hann, bind, Except.bind, i1, hc]; rfl, by simp only [hann, bind, Except.bind, i1, e1]; rfl, ?_⟩,
    ⟨_, _, by simp only [hamming, bind, Except.bind, i1, hc]; rfl, by simp only [hamming, bind, Except.bind, i1, e1]; rfl, ?_⟩, fun a0 a1 a2 =>
    ⟨_, _, by simp only [blackman, bind, Except.bind, i1, i2, e3, hc, hd]; rfl, by simp only [blackman, bind, Except.bind, i1, i2, e3, e1, e2]; rfl, ?_⟩⟩
  · simp only [exactCos]
    rw [show ∀ x y : ℝ, 0.5 * (1 - x) - 0.5 * (1 - y) = -(0.5 * (x - y)) by intro x y; ring, abs_neg, abs_mul, abs_of_nonneg (by norm_num : (0 : ℝ) ≤ 0.5)]
    norm_num at hc' ⊢; linarith
  · simp only [exactCos]
    rw [show ∀ x y : ℝ, 0.54 - 0.46 * x - (0.54 - 0.46 * y) = -(0.46 * (x - y)) by intro x y; ring, abs_neg, abs_mul, abs_of_nonneg (by norm_num : (0 : ℝ) ≤ 0.46)]
    norm_num at hc' ⊢; linarith
  · simp only [exactCos]
    rw [show ∀ x y z w : ℝ, a0 - a1 * x + a2 * y - (a0 - a1 * z + a2 * w) = -(a1 * (x - z)) + a2 * (y - w) by intro x y z w; ring]
    refine (abs_add_le _ _).trans ?_
    rw [abs_neg, abs_mul, abs_mul, add_div, div_eq_mul_one_div |a1|, div_eq_mul_one_div |a2|]
    exact add_le_add (mul_le_mul_of_nonneg_left hc'.le (abs_nonneg _)) (mul_le_mul_of_nonneg_left hd'.le (abs_nonneg _))

/-- A window of a single sample divides zero by zero (Lanczos and the rectangle do not). -/
theorem C62_single (K : Kernels) (a0 a1 a2 o : ℝ) :
    hann K 0 1 = .error .divZero ∧ hamming K 0 1 = .error .divZero ∧ blackman K a0 a1 a2 0 1 = .error .divZero ∧ gauss o 0 1 = .error .divZero ∧
      kaiser o 0 1 = .error .divZero ∧ lanczos K 0 1 = .ok 1 := by
  have h := (UnitCircle.C36_no_steps K).1
  refine ⟨?_, ?_, ?_, ?_, ?_, ?_⟩
  · simp [hann, int32, bind, Except.bind, h]
  · simp [hamming, int32, bind, Except.bind, h]
  · simp [blackman, int32, bind, Except.bind, h]
  · simp [gauss, int32, bind, Except.bind, fdiv]
  · simp [kaiser, int32, bind, Except.bind, fdiv]
  · simp [lanczos, int32, bind, Except.bind, pure, Except.pure]

/-- Five samples of the Hann window. -/
example : hann Kernels.exact 1 5 = .ok (1 / 2) := by
  obtain ⟨w, -, h⟩ := C62_hann 5 (by norm_num) (by norm_num)
  obtain ⟨h1, h2⟩ := h 1 (by norm_num) (by norm_num)
  rw [h1, h2, show 2 * Real.pi * ((1 : ℤ) : ℝ) / ((5 - 1 : ℤ) : ℝ) = Real.pi / 2 by push_cast; ring, Real.cos_pi_div_two]
  norm_num

end Win
end DSP
