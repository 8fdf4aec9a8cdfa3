import Verif.Props.NaturalSplineStable
import Verif.Lemmas.Interpolate
import Mathlib.Analysis.SpecialFunctions.Trigonometric.Deriv

/-!
# C105: how well a natural spline approximates the function its data are from
-/

namespace DSP
namespace NaturalSpline

open Spec

/-- The curvature at the knots is near that of the function; what is wrong at the ends decays inside. -/
theorem cs_near (K : ℕ) (e R : ℕ → ℝ) (M a b : ℝ) (hM : 0 ≤ M) (ha : 0 ≤ a) (hb : 0 ≤ b) (h : ∀ i, i + 3 ≤ K → e i + 4 * e (i + 1) + e (i + 2) = R i) (hR : ∀ i, i + 3 ≤ K → |R i| ≤ 3 / 4 * M)
    (h0 : |e 0| ≤ a) (h1 : |e (K - 1)| ≤ b) (i : ℕ) (hi : i < K) : |e i| ≤ 3 / 8 * M + a * 0.27 ^ i + b * 0.27 ^ (K - 1 - i) := by
  obtain ⟨m, hm, hmax⟩ := Finset.exists_max_image (Finset.range K) (fun i => |e i| - (3 / 8 * M + a * 0.27 ^ i + b * 0.27 ^ (K - 1 - i))) ⟨i, Finset.mem_range.mpr hi⟩
  rw [Finset.mem_range] at hm
  suffices |e m| - (3 / 8 * M + a * 0.27 ^ m + b * 0.27 ^ (K - 1 - m)) ≤ 0 by
    have := hmax i (Finset.mem_range.mpr hi)
    linarith
  by_cases c0 : m = 0
  · subst c0
    have : 0 ≤ b * 0.27 ^ (K - 1 - 0) := by positivity
    rw [pow_zero]
    linarith
  by_cases c1 : m = K - 1
  · subst c1
    have : 0 ≤ a * 0.27 ^ (K - 1) := by positivity
    rw [Nat.sub_self, pow_zero]
    linarith
  obtain ⟨j, rfl⟩ : ∃ j, m = j + 1 := ⟨m - 1, by omega⟩
  obtain ⟨n, hn⟩ : ∃ n, K = j + n + 3 := ⟨K - j - 3, by omega⟩
  have t := h j (by omega)
  have hr := hR j (by omega)
  have m0 := hmax j (Finset.mem_range.mpr (by omega))
  have m2 := hmax (j + 2) (Finset.mem_range.mpr (by omega))
  rw [show K - 1 - j = n + 2 by omega, show K - 1 - (j + 1) = n + 1 by omega] at m0
  rw [show K - 1 - (j + 2) = n by omega, show K - 1 - (j + 1) = n + 1 by omega] at m2
  rw [show K - 1 - (j + 1) = n + 1 by omega]
  have pj : 0 ≤ a * 0.27 ^ j := by positivity
  have pn : 0 ≤ b * 0.27 ^ n := by positivity
  have q1 : a * (0.27 : ℝ) ^ (j + 1) = 0.27 * (a * 0.27 ^ j) := by ring
  have q2 : b * (0.27 : ℝ) ^ (n + 1) = 0.27 * (b * 0.27 ^ n) := by ring
  have q3 : a * (0.27 : ℝ) ^ (j + 2) = 0.0729 * (a * 0.27 ^ j) := by ring
  have q4 : b * (0.27 : ℝ) ^ (n + 2) = 0.0729 * (b * 0.27 ^ n) := by ring
  rw [q1, q2, q4] at m0
  rw [q1, q2, q3] at m2
  rw [q1, q2]
  have e1 : |4 * e (j + 1)| ≤ |R j| + |e j| + |e (j + 2)| := by
    have : 4 * e (j + 1) = R j - e j - e (j + 2) := by linarith
    rw [this]
    exact (abs_sub _ _).trans (add_le_add_left (abs_sub _ _) _)
  rw [abs_mul, abs_of_pos (by norm_num : (0 : ℝ) < 4)] at e1
  generalize a * (0.27 : ℝ) ^ j = A at *
  generalize b * (0.27 : ℝ) ^ n = B at *
  linarith

section
variable (y : ℕ → ℝ) (K : ℕ) (hK : 2 ≤ K) (g g1 g2 g3 g4 : ℝ → ℝ) (hy : ∀ i < K, y i = g i) (h1 : ∀ x : ℝ, 0 ≤ x → x ≤ K - 1 → HasDerivAt g (g1 x) x) (h2 : ∀ x : ℝ, 0 ≤ x → x ≤ K - 1 → HasDerivAt g1 (g2 x) x)
include hy h1 h2

/-- Between two knots, by the difference of the second derivatives. -/
theorem S_chord (k : ℕ) (hk : k + 2 ≤ K) (B : ℝ) (hB : ∀ t, 0 ≤ t → t ≤ 1 → |2 * ((1 - t) * cs y K k + t * cs y K (k + 1)) - g2 (k + t)| ≤ B) (t : ℝ) (t0 : 0 ≤ t) (t1 : t ≤ 1) :
    |S y K (k + t) - g (k + t)| ≤ B / 8 := by
  have hkK : (k : ℝ) + 2 ≤ K := by exact_mod_cast hk
  have hk0 : (0 : ℝ) ≤ k := by positivity
  have hS : S y K (k + t) = p0 y K k (k + t) := by
    by_cases c : t = 1
    · subst c
      have := (S_natural y K (by omega)).knots (k + 1) (by omega)
      push_cast at this
      rw [this, p0_form]; ring
    · exact pieces_eq _ _ _ (mono _) k (by omega) _ (Or.inr (by linarith)) (Or.inr (by push_cast; have := lt_of_le_of_ne t1 c; linarith))
  have hB0 : 0 ≤ B := (abs_nonneg _).trans (hB 0 le_rfl zero_le_one)
  have := chord_error k B (fun x => p0 y K k x - g x) (fun x => p1 y K k x - g1 x) (fun x => p2 y K k x - g2 x) (fun x x0 x1 => (p0_deriv y K k x).sub (h1 x (by linarith) (by linarith)))
    (fun x x0 x1 => (p1_deriv y K k x).sub (h2 x (by linarith) (by linarith))) (fun x x0 x1 => by
      have := hB (x - k) (by linarith) (by linarith)
      rw [show (k : ℝ) + (x - k) = x by ring] at this
      refine le_trans (le_of_eq ?_) this
      congr 1
      simp only [p2, ds]; ring) t t0 t1
  rw [hS]
  have z0 : p0 y K k k - g k = 0 := by
    rw [p0_form, hy k (by omega)]; ring
  have z1 : p0 y K k (k + 1) - g (k + 1) = 0 := by
    have := hy (k + 1) (by omega)
    push_cast at this
    rw [p0_form, this]; ring
  simp only [z0, z1, mul_zero, add_zero, sub_zero] at this
  refine this.trans ?_
  nlinarith [sq_nonneg (t - 1 / 2)]

/-- With two derivatives. -/
theorem S_second (hK : 2 ≤ K) (M : ℝ) (hM : ∀ x : ℝ, 0 ≤ x → x ≤ K - 1 → |g2 x| ≤ M) (x : ℝ) (x0 : 0 ≤ x) (x1 : x ≤ K - 1) : |S y K x - g x| ≤ M / 2 := by
  obtain ⟨k, hk, -, -, ht⟩ := piece_of K hK 1 x (by linarith) (by linarith)
  obtain ⟨t0, t1⟩ := ht le_rfl
  have hkK : (k : ℝ) + 2 ≤ K := by exact_mod_cast hk
  have hk0 : (0 : ℝ) ≤ k := by positivity
  have hM0 : 0 ≤ M := (abs_nonneg _).trans (hM x x0 x1)
  have hc := cs_bound y K M hM0 (fun i hi => by
    have hi' : (i : ℝ) + 3 ≤ K := by exact_mod_cast hi
    have hi0 : (0 : ℝ) ≤ i := by positivity
    have := second_difference (i + 1) M g g1 g2 (fun x a b => h1 x (by linarith) (by linarith)) (fun x a b => h2 x (by linarith) (by linarith)) (fun x a b => hM x (by linarith) (by linarith))
    rw [hy i (by omega), hy (i + 1) (by omega), hy (i + 2) (by omega)]
    push_cast
    rw [show (i : ℝ) + 2 = i + 1 + 1 by ring]
    rw [add_sub_cancel_right] at this
    exact this)
  have := S_chord y K g g1 g2 hy h1 h2 k hk (4 * M) (fun t t0 t1 => by
    have c0 := abs_le.mp (hc k (by omega))
    have c1 := abs_le.mp (hc (k + 1) (by omega))
    have c2 := abs_le.mp (hM (k + t) (by linarith) (by linarith))
    rw [abs_le]
    constructor <;> nlinarith) (x - k) (by linarith) (by linarith)
  rw [show (k : ℝ) + (x - k) = x by ring] at this
  linarith

/-- The coefficients of the spline are near to half the second derivative, except near the ends. -/
theorem cs_fourth (hK : 2 ≤ K) (h3 : ∀ x : ℝ, 0 ≤ x → x ≤ K - 1 → HasDerivAt g2 (g3 x) x) (h4 : ∀ x : ℝ, 0 ≤ x → x ≤ K - 1 → HasDerivAt g3 (g4 x) x)
    (M : ℝ) (hM : ∀ x : ℝ, 0 ≤ x → x ≤ K - 1 → |g4 x| ≤ M) (i : ℕ) (hi : i < K) : |cs y K i - g2 i / 2| ≤ 3 / 8 * M + |g2 0| / 2 * 0.27 ^ i + |g2 (K - 1)| / 2 * 0.27 ^ (K - 1 - i) := by
  have hK' : (2 : ℝ) ≤ K := by exact_mod_cast hK
  have hM0 : 0 ≤ M := (abs_nonneg _).trans (hM 0 le_rfl (by linarith))
  have hlast : ((K - 1 : ℕ) : ℝ) = K - 1 := by rw [Nat.cast_sub (by omega)]; norm_num
  exact cs_near K (fun i => cs y K i - g2 i / 2) (fun i => 3 * (y (i + 2) - 2 * y (i + 1) + y i) - (g2 i + 4 * g2 (i + 1) + g2 (i + 2)) / 2) M (|g2 0| / 2) (|g2 (K - 1)| / 2) hM0 (by positivity) (by positivity)
    (fun i hi => by
      have := tridiagonal y K i hi
      push_cast
      linarith) (fun i hi => by
      have hi' : (i : ℝ) + 3 ≤ K := by exact_mod_cast hi
      have hi0 : (0 : ℝ) ≤ i := by positivity
      have := stencil (i + 1) M g g1 g2 g3 g4 (fun x a b => h1 x (by linarith) (by linarith)) (fun x a b => h2 x (by linarith) (by linarith)) (fun x a b => h3 x (by linarith) (by linarith))
        (fun x a b => h4 x (by linarith) (by linarith)) (fun x a b => hM x (by linarith) (by linarith))
      rw [hy i (by omega), hy (i + 1) (by omega), hy (i + 2) (by omega)]
      push_cast
      rw [show (i : ℝ) + 2 = i + 1 + 1 by ring]
      rw [add_sub_cancel_right] at this
      exact this) (by
      simp only [cs_zero y K hK, Nat.cast_zero, zero_sub, abs_neg, abs_div]
      norm_num) (by
      simp only [cs_last y K, hlast, zero_sub, abs_neg, abs_div]
      norm_num) i hi

/-- With four derivatives. -/
theorem S_fourth (hK : 2 ≤ K) (h3 : ∀ x : ℝ, 0 ≤ x → x ≤ K - 1 → HasDerivAt g2 (g3 x) x) (h4 : ∀ x : ℝ, 0 ≤ x → x ≤ K - 1 → HasDerivAt g3 (g4 x) x)
    (M : ℝ) (hM : ∀ x : ℝ, 0 ≤ x → x ≤ K - 1 → |g4 x| ≤ M) (k : ℕ) (hk : k + 2 ≤ K) (t : ℝ) (t0 : 0 ≤ t) (t1 : t ≤ 1) :
    |S y K (k + t) - g (k + t)| ≤ 7 / 64 * M + (|g2 0| * 0.27 ^ k + |g2 (K - 1)| * 0.27 ^ (K - 2 - k)) / 8 := by
  have hkK : (k : ℝ) + 2 ≤ K := by exact_mod_cast hk
  have hk0 : (0 : ℝ) ≤ k := by positivity
  have hM0 : 0 ≤ M := (abs_nonneg _).trans (hM k (by linarith) (by linarith))
  have hlast : ((K - 1 : ℕ) : ℝ) = K - 1 := by rw [Nat.cast_sub (by omega)]; norm_num
  have hc := cs_fourth y K g g1 g2 g3 g4 hy h1 h2 hK h3 h4 M hM
  refine (S_chord y K g g1 g2 hy h1 h2 k hk (7 / 8 * M + (|g2 0| * 0.27 ^ k + |g2 (K - 1)| * 0.27 ^ (K - 2 - k))) (fun t t0 t1 => ?_) t t0 t1).trans (le_of_eq (by ring))
  have c0 := hc k (by omega)
  have c1 := hc (k + 1) (by omega)
  have c2 := chord_error k M g2 g3 g4 (fun x a b => h3 x (by linarith) (by linarith)) (fun x a b => h4 x (by linarith) (by linarith)) (fun x a b => hM x (by linarith) (by linarith)) t t0 t1
  rw [show K - 1 - k = K - 2 - k + 1 by omega, pow_succ] at c0
  rw [show K - 1 - (k + 1) = K - 2 - k by omega, pow_succ] at c1
  push_cast at c1
  have pa : 0 ≤ |g2 0| * (0.27 : ℝ) ^ k := by positivity
  have pb : 0 ≤ |g2 (K - 1)| * (0.27 : ℝ) ^ (K - 2 - k) := by positivity
  have q1 : |g2 0| / 2 * ((0.27 : ℝ) ^ k * 0.27) = 0.135 * (|g2 0| * 0.27 ^ k) := by ring
  have q2 : |g2 (K - 1)| / 2 * ((0.27 : ℝ) ^ (K - 2 - k) * 0.27) = 0.135 * (|g2 (K - 1)| * (0.27 : ℝ) ^ (K - 2 - k)) := by ring
  have q3 : |g2 0| / 2 * (0.27 : ℝ) ^ k = (|g2 0| * 0.27 ^ k) / 2 := by ring
  have q4 : |g2 (K - 1)| / 2 * (0.27 : ℝ) ^ (K - 2 - k) = (|g2 (K - 1)| * (0.27 : ℝ) ^ (K - 2 - k)) / 2 := by ring
  rw [q2, q3] at c0
  rw [q1, q4] at c1
  generalize |g2 0| * (0.27 : ℝ) ^ k = A at *
  generalize |g2 (K - 1)| * (0.27 : ℝ) ^ (K - 2 - k) = B at *
  have c0 : |cs y K k - g2 k / 2| ≤ 3 / 8 * M + A / 2 + B / 2 := by linarith
  have c1 : |cs y K (k + 1) - g2 (k + 1) / 2| ≤ 3 / 8 * M + A / 2 + B / 2 := by linarith
  have c2 : |g2 (k + t) - ((1 - t) * g2 k + t * g2 (k + 1))| ≤ M / 8 := c2.trans (by nlinarith [sq_nonneg (t - 1 / 2)])
  have e : 2 * ((1 - t) * cs y K k + t * cs y K (k + 1)) - g2 (k + t) =
      2 * (1 - t) * (cs y K k - g2 k / 2) + 2 * t * (cs y K (k + 1) - g2 (k + 1) / 2) - (g2 (k + t) - ((1 - t) * g2 k + t * g2 (k + 1))) := by ring
  rw [e]
  refine (abs_sub _ _).trans ?_
  have m0 := mul_le_mul_of_nonneg_left c0 (by linarith : 0 ≤ 2 * (1 - t))
  have m1 := mul_le_mul_of_nonneg_left c1 (by linarith : 0 ≤ 2 * t)
  have a0 := abs_add_le (2 * (1 - t) * (cs y K k - g2 k / 2)) (2 * t * (cs y K (k + 1) - g2 (k + 1) / 2))
  rw [abs_mul (2 * (1 - t)), abs_mul (2 * t), abs_of_nonneg (by linarith : 0 ≤ 2 * (1 - t)), abs_of_nonneg (by linarith : 0 ≤ 2 * t)] at a0
  linarith

end

/-! ### For the code -/

section
variable (K : ℕ) (hK : 2 ≤ K) (hK3 : K ≤ 2147483648) (junk Y : List ℝ) (hj : junk.length = K - 1) (st : ℕ) (x0 dx : ℝ) (hdx : dx ≠ 0) (f f1 f2 f3 f4 : ℝ → ℝ) (hy : ∀ i : ℕ, i < K → Y[i * st]? = some (f (x0 + i * dx)))
  (h1 : ∀ t : ℝ, 0 ≤ t → t ≤ K - 1 → HasDerivAt f (f1 (x0 + t * dx)) (x0 + t * dx)) (h2 : ∀ t : ℝ, 0 ≤ t → t ≤ K - 1 → HasDerivAt f1 (f2 (x0 + t * dx)) (x0 + t * dx))

theorem along (x0 dx t c : ℝ) (f : ℝ → ℝ) (h : HasDerivAt f c (x0 + t * dx)) (e : ℝ) : HasDerivAt (fun t => f (x0 + t * dx) * e) (c * (e * dx)) t := by
  have h0 : HasDerivAt (fun t : ℝ => x0 + t * dx) dx t := by
    simpa using ((hasDerivAt_id t).mul_const dx).const_add x0
  have := (h.comp t h0).mul_const e
  refine this.congr_deriv ?_
  ring

include hK hK3 hj hdx hy h1 h2

/-- **C105** If the data are the values at the knots of a function whose second derivative is at most `M` between the first and the last one, then the natural spline differs from it by at most `M dx² / 2` there. -/
theorem C105_second (M : ℝ) (hM : ∀ t : ℝ, 0 ≤ t → t ≤ K - 1 → |f2 (x0 + t * dx)| ≤ M) : ∃ s, make K junk Y x0 dx st = .ok s ∧
    ∀ x, 0 ≤ (x - x0) / dx → (x - x0) / dx ≤ K - 1 → ∃ v, s.call K x = .ok v ∧ |v - f x| ≤ M * dx ^ 2 / 2 := by
  obtain ⟨s, e, h, -⟩ := code_ok K hK junk Y hj st _ hy x0 dx hdx
  refine ⟨s, e, fun x a b => ⟨_, h x ?_, ?_⟩⟩
  · have : (K : ℝ) ≤ 2147483648 := by exact_mod_cast hK3
    rw [abs_of_nonneg a]; linarith
  · have := S_second (fun i => f (x0 + i * dx)) K (fun t => f (x0 + t * dx) * 1) (fun t => f1 (x0 + t * dx) * (1 * dx)) (fun t => f2 (x0 + t * dx) * (1 * dx * dx)) (fun i _ => (mul_one _).symm)
      (fun t a b => along x0 dx t _ f (h1 t a b) 1) (fun t a b => along x0 dx t _ f1 (h2 t a b) _) hK (M * dx ^ 2) (fun t a b => by
        rw [abs_mul, show 1 * dx * dx = dx ^ 2 by ring, abs_of_nonneg (sq_nonneg dx)]
        exact mul_le_mul_of_nonneg_right (hM t a b) (sq_nonneg dx)) ((x - x0) / dx) a b
    simp only [mul_one] at this
    rw [div_mul_cancel₀ _ hdx, add_sub_cancel] at this
    exact this

/-- **C105** If the fourth derivative is at most `M`, then in the interval `k` it is at most `7/64 M dx⁴`, and what the second derivatives at the first and the last knot add, which is at most an eighth of them at the ends and decays
by a factor of `0.27` with each knot. -/
theorem C105_fourth (h3 : ∀ t : ℝ, 0 ≤ t → t ≤ K - 1 → HasDerivAt f2 (f3 (x0 + t * dx)) (x0 + t * dx)) (h4 : ∀ t : ℝ, 0 ≤ t → t ≤ K - 1 → HasDerivAt f3 (f4 (x0 + t * dx)) (x0 + t * dx))
    (M : ℝ) (hM : ∀ t : ℝ, 0 ≤ t → t ≤ K - 1 → |f4 (x0 + t * dx)| ≤ M) : ∃ s, make K junk Y x0 dx st = .ok s ∧
    ∀ (k : ℕ) x, k + 2 ≤ K → k ≤ (x - x0) / dx → (x - x0) / dx ≤ k + 1 → ∃ v, s.call K x = .ok v ∧
      |v - f x| ≤ 7 / 64 * M * dx ^ 4 + (|f2 x0| * 0.27 ^ k + |f2 (x0 + (K - 1) * dx)| * 0.27 ^ (K - 2 - k)) * dx ^ 2 / 8 := by
  obtain ⟨s, e, h, -⟩ := code_ok K hK junk Y hj st _ hy x0 dx hdx
  refine ⟨s, e, fun k x hk a b => ⟨_, h x ?_, ?_⟩⟩
  · have h0 : (K : ℝ) ≤ 2147483648 := by exact_mod_cast hK3
    have h1 : (k : ℝ) + 2 ≤ K := by exact_mod_cast hk
    have h2 : (0 : ℝ) ≤ k := by positivity
    rw [abs_of_nonneg (by linarith)]; linarith
  · have := S_fourth (fun i => f (x0 + i * dx)) K (fun t => f (x0 + t * dx) * 1) (fun t => f1 (x0 + t * dx) * (1 * dx)) (fun t => f2 (x0 + t * dx) * (1 * dx * dx))
      (fun t => f3 (x0 + t * dx) * (1 * dx * dx * dx)) (fun t => f4 (x0 + t * dx) * (1 * dx * dx * dx * dx)) (fun i _ => (mul_one _).symm)
      (fun t a b => along x0 dx t _ f (h1 t a b) 1) (fun t a b => along x0 dx t _ f1 (h2 t a b) _) hK (fun t a b => along x0 dx t _ f2 (h3 t a b) _) (fun t a b => along x0 dx t _ f3 (h4 t a b) _) (M * dx ^ 4)
      (fun t a b => by
        rw [abs_mul, show 1 * dx * dx * dx * dx = dx ^ 4 by ring, abs_of_nonneg (by positivity : 0 ≤ dx ^ 4)]
        exact mul_le_mul_of_nonneg_right (hM t a b) (by positivity)) k hk ((x - x0) / dx - k) (by linarith) (by linarith)
    simp only [mul_one, zero_mul, add_zero] at this
    rw [add_sub_cancel, div_mul_cancel₀ _ hdx, add_sub_cancel, show 1 * dx * dx = dx ^ 2 by ring, abs_mul (f2 _), abs_mul (f2 _), abs_of_nonneg (sq_nonneg dx)] at this
    refine this.trans (le_of_eq ?_)
    ring

end

/-- **C105** What the ends add is not an artefact: the fourth derivative of the square is zero, but the spline through its values at three knots is too large by `dx² / 16` in the middle of the first interval. -/
theorem C105_ends (dx : ℝ) (hdx : dx ≠ 0) : ∃ s, make 3 [0, 0] [0, dx ^ 2, (2 * dx) ^ 2] 0 dx 1 = .ok s ∧ s.call 3 (dx / 2) = .ok ((dx / 2) ^ 2 + dx ^ 2 / 16) := by
  obtain ⟨s, e, h, -⟩ := code_ok 3 (by norm_num) [0, 0] [0, dx ^ 2, (2 * dx) ^ 2] rfl 1 (fun i => (i * dx) ^ 2) (fun i hi => by interval_cases i <;> simp) 0 dx hdx
  refine ⟨s, e, ?_⟩
  have hh : (dx / 2 - 0) / dx = 1 / 2 := by field_simp; ring
  rw [h _ (by rw [hh]; norm_num [abs_lt]), hh]
  congr 1
  rw [S, pieces_eq _ _ _ (mono _) 0 (by norm_num) _ (Or.inl rfl) (Or.inr (by norm_num)), p0_form]
  have e0 : cs (fun i : ℕ => ((i : ℝ) * dx) ^ 2) 3 0 = 0 := cs_zero _ 3 (by norm_num)
  have e2 : cs (fun i : ℕ => ((i : ℝ) * dx) ^ 2) 3 2 = 0 := cs_last _ 3
  have e1 := tridiagonal (fun i : ℕ => ((i : ℝ) * dx) ^ 2) 3 0 (by norm_num)
  norm_num [e0, e2] at e1 ⊢
  linear_combination (-1 / 32 : ℝ) * e1

/-- The sine at steps of a tenth, from 0 to 3. -/
example : ∃ s, make 31 (List.replicate 30 0) ((List.range 31).map fun i : ℕ => Real.sin (0 + i * 0.1)) 0 0.1 1 = .ok s ∧
    ∀ (k : ℕ) (x : ℝ), k + 2 ≤ 31 → k ≤ (x - 0) / 0.1 → (x - 0) / 0.1 ≤ k + 1 → ∃ v, s.call 31 x = .ok v ∧
      |v - Real.sin x| ≤ 7 / 64 * 1 * 0.1 ^ 4 + (|-Real.sin 0| * 0.27 ^ k + |-Real.sin (0 + ((31 : ℕ) - 1) * 0.1)| * 0.27 ^ (31 - 2 - k)) * 0.1 ^ 2 / 8 :=
  C105_fourth 31 (by norm_num) (by norm_num) (List.replicate 30 0) ((List.range 31).map fun i : ℕ => Real.sin (0 + i * 0.1)) (by simp) 1 0 0.1 (by norm_num) Real.sin Real.cos (fun x => -Real.sin x) (fun x => -Real.cos x)
    (fun x => Real.sin x) (fun i hi => by simp [hi]) (fun t _ _ => Real.hasDerivAt_sin _) (fun t _ _ => Real.hasDerivAt_cos _) (fun t _ _ => (Real.hasDerivAt_sin _).neg)
    (fun t _ _ => by have := (Real.hasDerivAt_cos (0 + t * 0.1)).neg; rw [neg_neg] at this; exact this) 1 (fun t _ _ => Real.abs_sin_le_one _)

end NaturalSpline
end DSP
