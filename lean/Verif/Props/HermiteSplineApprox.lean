import Verif.Props.HermiteSpline
import Verif.Lemmas.Interpolate
import Mathlib.Analysis.SpecialFunctions.Trigonometric.Deriv

/-!
# C105: how well a cubic Hermite spline approximates the function its data are from
-/

namespace DSP
namespace HermiteSpline

open Spec

/-- A piece and its chord. -/
theorem blend_chord (t a b w m n d : ℝ) (t0 : 0 ≤ t) (t1 : t ≤ 1) (hm : |w * m - (b - a)| ≤ d) (hn : |w * n - (b - a)| ≤ d) : |blend t a b w m n - ((1 - t) * a + t * b)| ≤ d / 4 := by
  have e : blend t a b w m n - ((1 - t) * a + t * b) = t * (1 - t) * ((1 - t) * (w * m - (b - a)) - t * (w * n - (b - a))) := by
    simp only [blend, h00, h10, h01, h11]; ring
  have hd : 0 ≤ d := (abs_nonneg _).trans hm
  rw [e, abs_mul, abs_of_nonneg (mul_nonneg t0 (by linarith))]
  have h1 : |(1 - t) * (w * m - (b - a)) - t * (w * n - (b - a))| ≤ d := by
    refine (abs_sub _ _).trans ?_
    rw [abs_mul, abs_mul, abs_of_nonneg t0, abs_of_nonneg (by linarith : 0 ≤ 1 - t)]
    nlinarith
  have h2 : t * (1 - t) ≤ 1 / 4 := by nlinarith [sq_nonneg (t - 1 / 2)]
  have := mul_le_mul h2 h1 (abs_nonneg _) (by norm_num)
  linarith

section
variable (n : ℕ) (x : ℕ → ℝ) (hx : ∀ i, i + 1 < n → x i < x (i + 1)) (hn : 3 ≤ n) (H : ℝ) (hH : ∀ i, i + 1 < n → x (i + 1) - x i ≤ H) (f f1 f2 : ℝ → ℝ)
  (h1 : ∀ t, x 0 ≤ t → t ≤ x (n - 1) → HasDerivAt f (f1 t) t) (h2 : ∀ t, x 0 ≤ t → t ≤ x (n - 1) → HasDerivAt f1 (f2 t) t) (M : ℝ) (hM : ∀ t, x 0 ≤ t → t ≤ x (n - 1) → |f2 t| ≤ M)
include hx hn hH h1 h2 hM

omit hH h1 h2 hM in
theorem inside (i : ℕ) (hi : i < n) : x 0 ≤ x i ∧ x i ≤ x (n - 1) := by
  constructor
  · rcases Nat.eq_zero_or_pos i with rfl | h
    · exact le_rfl
    · exact (increasing n x hx 0 i h hi).le
  · by_cases h : i = n - 1
    · rw [h]
    · exact (increasing n x hx i (n - 1) (by omega) (by omega)).le

omit hH in
/-- The slope of a chord and those of the function at its ends. -/
theorem slope_near (k : ℕ) (hk : k + 1 < n) : |slope x (fun i => f (x i)) k - f1 (x k)| ≤ M * (x (k + 1) - x k) / 2 ∧ |slope x (fun i => f (x i)) k - f1 (x (k + 1))| ≤ M * (x (k + 1) - x k) / 2 := by
  have hw := hx k hk
  have i0 := inside n x hx hn k (by omega)
  have i1 := inside n x hx hn (k + 1) hk
  have key : ∀ a h : ℝ, h ≠ 0 → |f (a + h) - f a - f1 a * h| ≤ M * h ^ 2 / 2 → |(f (a + h) - f a) / h - f1 a| ≤ M * |h| / 2 := fun a h h0 hb => by
    have e : (f (a + h) - f a) / h - f1 a = (f (a + h) - f a - f1 a * h) / h := by field_simp
    rw [e, abs_div, div_le_iff₀ (abs_pos.mpr h0)]
    refine hb.trans (le_of_eq ?_)
    rw [← sq_abs h]; ring
  constructor
  · have := key (x k) (x (k + 1) - x k) (by linarith) (tangent_error _ _ M f f1 f2 (fun t t0 t1 => h1 _ (by nlinarith) (by nlinarith)) (fun t t0 t1 => h2 _ (by nlinarith) (by nlinarith)) (fun t t0 t1 => hM _ (by nlinarith) (by nlinarith)))
    rw [add_sub_cancel, abs_of_pos (show 0 < x (k + 1) - x k by linarith)] at this
    exact this
  · have := key (x (k + 1)) (x k - x (k + 1)) (by linarith) (tangent_error _ _ M f f1 f2 (fun t t0 t1 => h1 _ (by nlinarith) (by nlinarith)) (fun t t0 t1 => h2 _ (by nlinarith) (by nlinarith)) (fun t t0 t1 => hM _ (by nlinarith) (by nlinarith)))
    rw [add_sub_cancel, abs_of_neg (show x k - x (k + 1) < 0 by linarith), neg_sub, ← neg_div_neg_eq, neg_sub, neg_sub] at this
    exact this

theorem central_near (k : ℕ) (hk : k + 1 < n) : |chordSlopes n x (fun i => f (x i)) k - slope x (fun i => f (x i)) k| ≤ M * H / 2 ∧ |chordSlopes n x (fun i => f (x i)) (k + 1) - slope x (fun i => f (x i)) k| ≤ M * H / 2 := by
  have hM0 : 0 ≤ M := (abs_nonneg _).trans (hM (x 0) le_rfl (inside n x hx hn 0 (by omega)).2)
  have hH0 : 0 ≤ H := by linarith [hx 0 (by omega), hH 0 (by omega)]
  have hMH : 0 ≤ M * H := mul_nonneg hM0 hH0
  have step : ∀ j, j + 2 < n → |slope x (fun i => f (x i)) j - slope x (fun i => f (x i)) (j + 1)| ≤ M * H := fun j hj => by
    have a := abs_le.mp (slope_near n x hx hn f f1 f2 h1 h2 M hM j (by omega)).2
    have b := abs_le.mp (slope_near n x hx hn f f1 f2 h1 h2 M hM (j + 1) (by omega)).1
    have c := mul_le_mul_of_nonneg_left (hH j (by omega)) hM0
    have d := mul_le_mul_of_nonneg_left (hH (j + 1) (by omega)) hM0
    rw [abs_le]
    constructor <;> linarith
  have inner : ∀ j, j + 2 < n → chordSlopes n x (fun i => f (x i)) (j + 1) = (slope x (fun i => f (x i)) j + slope x (fun i => f (x i)) (j + 1)) / 2 := fun j hj => by
    simp only [chordSlopes, slope]
    rw [if_neg (by omega), if_neg (by omega), Nat.add_sub_cancel]
  constructor
  · rcases Nat.eq_zero_or_pos k with rfl | h
    · rw [slopes_first, sub_self, abs_zero]; positivity
    · obtain ⟨j, rfl⟩ : ∃ j, k = j + 1 := ⟨k - 1, by omega⟩
      have := abs_le.mp (step j (by omega))
      rw [inner j (by omega), abs_le]
      constructor <;> linarith
  · by_cases h : k + 1 = n - 1
    · rw [h, slopes_last n x _ (by omega), show n - 1 - 1 = k by omega, sub_self, abs_zero]; positivity
    · have := abs_le.mp (step k (by omega))
      rw [inner k (by omega), abs_le]
      constructor <;> linarith

/-- **C105** If the data are values of a function whose second derivative is at most `M` between the first and the last abscissa, and these are at most `H` apart, then the cubic Hermite spline differs from it by at most `M H² / 4` there. -/
theorem C105_hermite (t : ℝ) (t0 : x 0 ≤ t) (t1 : t ≤ x (n - 1)) : ∃ v, eval ((List.range n).map x) ((List.range n).map fun i => f (x i)) t = .ok v ∧ |v - f t| ≤ M * H ^ 2 / 4 := by
  refine ⟨_, eval_ok n x _ hx hn t, ?_⟩
  have hM0 : 0 ≤ M := (abs_nonneg _).trans (hM t t0 t1)
  have hH0 : 0 ≤ H := by linarith [hx 0 (by omega), hH 0 (by omega)]
  obtain ⟨k, hk, k0, k1⟩ : ∃ k, k + 2 ≤ n ∧ x k ≤ t ∧ t ≤ x (k + 1) := by
    have : ∀ m, m + 1 < n → t ≤ x (m + 1) → ∃ k, k + 2 ≤ n ∧ x k ≤ t ∧ t ≤ x (k + 1) := by
      intro m
      induction m with
      | zero => exact fun h h' => ⟨0, h, t0, h'⟩
      | succ m ih =>
        intro h h'
        rcases le_total (x (m + 1)) t with c | c
        · exact ⟨m + 1, h, c, h'⟩
        · exact ih (by omega) c
    exact this (n - 2) (by omega) (by rw [show n - 2 + 1 = n - 1 by omega]; exact t1)
  have hw := hx k (by omega)
  have hwH := hH k (by omega)
  have i0 := inside n x hx hn k (by omega)
  have i1 := inside n x hx hn (k + 1) (by omega)
  rw [S_closed n x _ _ hx k (by omega) (by omega) t (Or.inr k0) (Or.inr k1), q0]
  obtain ⟨s, hs⟩ : ∃ s, s = (t - x k) / (x (k + 1) - x k) := ⟨_, rfl⟩
  have hs0 : 0 ≤ s := by rw [hs]; exact div_nonneg (by linarith) (by linarith)
  have hs1 : s ≤ 1 := by rw [hs, div_le_one (by linarith)]; linarith
  have ht : t = x k + s * (x (k + 1) - x k) := by rw [hs, div_mul_cancel₀ _ (by linarith)]; ring
  rw [← hs]
  obtain ⟨c0, c1⟩ := central_near n x hx hn H hH f f1 f2 h1 h2 M hM k (by omega)
  have hsl : (x (k + 1) - x k) * slope x (fun i => f (x i)) k = f (x (k + 1)) - f (x k) := by
    simp only [slope]; rw [mul_div_cancel₀ _ (by linarith)]
  generalize hwd : x (k + 1) - x k = w at *
  have hw0 : 0 < w := by linarith
  have scale : ∀ m, |m - slope x (fun i => f (x i)) k| ≤ M * H / 2 → |w * m - (f (x (k + 1)) - f (x k))| ≤ M * H ^ 2 / 2 := fun m hm => by
    rw [← hsl, ← mul_sub, abs_mul, abs_of_pos hw0]
    have := mul_le_mul hwH hm (abs_nonneg _) hH0
    linarith
  have e1 := blend_chord s (f (x k)) (f (x (k + 1))) w _ _ _ hs0 hs1 (scale _ c0) (scale _ c1)
  have hd : ∀ t, HasDerivAt (fun t : ℝ => x k + t * w) w t := fun t => by simpa using ((hasDerivAt_id t).mul_const w).const_add (x k)
  have e2 := chord_error 0 (M * H ^ 2) (fun t => f (x k + t * w)) (fun t => f1 (x k + t * w) * w) (fun t => f2 (x k + t * w) * w * w)
    (fun s s0 s1 => (h1 _ (by nlinarith) (by nlinarith)).comp s (hd s)) (fun s s0 s1 => ((h2 _ (by nlinarith) (by nlinarith)).comp s (hd s)).mul_const w) (fun s s0 s1 => by
      rw [mul_assoc, ← sq, abs_mul, abs_of_nonneg (sq_nonneg w)]
      exact mul_le_mul (hM _ (by nlinarith) (by nlinarith)) (by gcongr) (sq_nonneg w) hM0) s hs0 hs1
  simp only [zero_add, zero_mul, add_zero, one_mul] at e2
  rw [← ht, show x k + w = x (k + 1) by linarith] at e2
  have e3 : M * H ^ 2 * (s * (1 - s)) / 2 ≤ M * H ^ 2 / 8 := by
    have : s * (1 - s) ≤ 1 / 4 := by nlinarith [sq_nonneg (s - 1 / 2)]
    have hMH : 0 ≤ M * H ^ 2 := by positivity
    nlinarith
  rw [abs_le] at e1 e2 ⊢
  constructor <;> linarith

end

/-- The sine at steps of a tenth, from 0 to 3. -/
example (t : ℝ) (t0 : 0 ≤ t) (t1 : t ≤ 3) : ∃ v, eval ((List.range 31).map fun i : ℕ => (i : ℝ) * 0.1) ((List.range 31).map fun i : ℕ => Real.sin (i * 0.1)) t = .ok v ∧ |v - Real.sin t| ≤ 1 * 0.1 ^ 2 / 4 :=
  C105_hermite 31 (fun i : ℕ => (i : ℝ) * 0.1) (fun i _ => by push_cast; linarith) (by norm_num) 0.1 (fun i _ => by push_cast; linarith) Real.sin Real.cos (fun x => -Real.sin x) (fun t _ _ => Real.hasDerivAt_sin _)
    (fun t _ _ => Real.hasDerivAt_cos _) 1 (fun t _ _ => by rw [abs_neg]; exact Real.abs_sin_le_one _) t (by simpa using t0) (by norm_num; exact t1)

end HermiteSpline
end DSP
