import Verif.Props.NaturalSplineSmooth
import Mathlib.Analysis.Calculus.MeanValue
import Mathlib.Algebra.Order.BigOperators.Group.Finset

/-!
# C102: how far a natural spline can leave its data, and how much it depends on them
-/

namespace DSP
namespace NaturalSpline

open Spec

/-! ### The coefficients -/

/-- The second differences bound the coefficients of the squares. -/
theorem cs_bound (y : ℕ → ℝ) (K : ℕ) (D : ℝ) (hD0 : 0 ≤ D) (hD : ∀ i, i + 3 ≤ K → |y (i + 2) - 2 * y (i + 1) + y i| ≤ D) (i : ℕ) (hi : i < K) : |cs y K i| ≤ 3 / 2 * D := by
  obtain ⟨m, hm, hmax⟩ := Finset.exists_max_image (Finset.range K) (fun i => |cs y K i|) ⟨i, Finset.mem_range.mpr hi⟩
  rw [Finset.mem_range] at hm
  refine (hmax i (Finset.mem_range.mpr hi)).trans ?_
  by_cases c0 : m = 0
  · subst c0
    by_cases c : K = 1
    · subst c; rw [show cs y 1 0 = 0 from cs_last y 1]; simp; linarith
    · rw [cs_zero y K (by omega)]; simp; linarith
  by_cases c1 : m = K - 1
  · rw [c1, cs_last]; simp; linarith
  obtain ⟨j, rfl⟩ : ∃ j, m = j + 1 := ⟨m - 1, by omega⟩
  have h := tridiagonal y K j (by omega)
  have h0 := hmax j (Finset.mem_range.mpr (by omega))
  have h2 := hmax (j + 2) (Finset.mem_range.mpr (by omega))
  have hd := hD j (by omega)
  rw [abs_le] at hd h0 h2
  have key : |4 * cs y K (j + 1)| ≤ 3 * D + 2 * |cs y K (j + 1)| := by
    rw [abs_le]
    constructor <;> linarith
  rw [abs_mul, abs_of_pos (by norm_num : (0 : ℝ) < 4)] at key
  linarith

theorem cs_size (y : ℕ → ℝ) (K : ℕ) (B : ℝ) (hB : ∀ i < K, |y i| ≤ B) (i : ℕ) (hi : i < K) : |cs y K i| ≤ 6 * B := by
  have hB0 : 0 ≤ B := (abs_nonneg _).trans (hB i hi)
  refine (cs_bound y K (4 * B) (by positivity) (fun j hj => ?_) i hi).trans (le_of_eq (by ring))
  have h0 := abs_le.mp (hB j (by omega))
  have h1 := abs_le.mp (hB (j + 1) (by omega))
  have h2 := abs_le.mp (hB (j + 2) (by omega))
  rw [abs_le]
  constructor <;> linarith

theorem cs_steps (y : ℕ → ℝ) (K : ℕ) (d : ℝ) (hd0 : 0 ≤ d) (hd : ∀ i, i + 1 < K → |y (i + 1) - y i| ≤ d) (i : ℕ) (hi : i < K) : |cs y K i| ≤ 3 * d := by
  refine (cs_bound y K (2 * d) (by positivity) (fun j hj => ?_) i hi).trans (le_of_eq (by ring))
  have h0 := abs_le.mp (hd j (by omega))
  have h1 := abs_le.mp (hd (j + 1) (by omega))
  rw [abs_le]
  constructor <;> linarith

/-! ### The pieces -/

theorem p0_form (y : ℕ → ℝ) (K k : ℕ) (x : ℝ) : p0 y K k x =
    (1 - (x - k)) * y k + (x - k) * y (k + 1) - (x - k) * (1 - (x - k)) / 3 * ((2 - (x - k)) * cs y K k + (1 + (x - k)) * cs y K (k + 1)) := by
  simp only [p0, bs, ds]; ring

theorem p1_form (y : ℕ → ℝ) (K k : ℕ) (x : ℝ) : p1 y K k x =
    (y (k + 1) - y k) - ((3 * (1 - (x - k)) ^ 2 - 1) * cs y K k + (1 - 3 * (x - k) ^ 2) * cs y K (k + 1)) / 3 := by
  simp only [p1, bs, ds]; ring

/-- The numbers of one piece between its knots and a little beyond. -/
theorem piece_near {t f a b c e B : ℝ} (hf0 : 0 ≤ f) (hf : f ≤ 1 / 10) (h0 : -f ≤ t) (h1 : t ≤ 1 + f) (ha : |a| ≤ B) (hb : |b| ≤ B) (hc : |c| ≤ 6 * B) (he : |e| ≤ 6 * B) :
    |(1 - t) * a + t * b - t * (1 - t) / 3 * ((2 - t) * c + (1 + t) * e)| ≤ (5 / 2 + 2 * f) * B := by
  have hB : 0 ≤ B := (abs_nonneg _).trans ha
  have e1 : |(1 - t) * a + t * b| ≤ (1 + 2 * f) * B := by
    refine (abs_add_le _ _).trans ?_
    rw [abs_mul, abs_mul]
    have : |1 - t| + |t| ≤ 1 + 2 * f := by
      rcases abs_cases (1 - t) with ⟨q, -⟩ | ⟨q, -⟩ <;> rcases abs_cases t with ⟨q', -⟩ | ⟨q', -⟩ <;> rw [q, q'] <;> linarith
    have t1 := mul_le_mul_of_nonneg_left ha (abs_nonneg (1 - t))
    have t2 := mul_le_mul_of_nonneg_left hb (abs_nonneg t)
    nlinarith
  have e2 : |t * (1 - t) / 3| ≤ 1 / 12 := by
    rw [abs_le]
    constructor <;> nlinarith [sq_nonneg (t - 1 / 2)]
  have e3 : |(2 - t) * c + (1 + t) * e| ≤ 18 * B := by
    refine (abs_add_le _ _).trans ?_
    rw [abs_mul, abs_mul, abs_of_nonneg (by linarith : 0 ≤ 2 - t), abs_of_nonneg (by linarith : 0 ≤ 1 + t)]
    have t1 := mul_le_mul_of_nonneg_left hc (by linarith : 0 ≤ 2 - t)
    have t2 := mul_le_mul_of_nonneg_left he (by linarith : 0 ≤ 1 + t)
    linarith
  refine (abs_sub _ _).trans ?_
  rw [abs_mul]
  have := mul_le_mul e2 e3 (abs_nonneg _) (by norm_num)
  linarith

/-- The same anywhere. -/
theorem piece_far {t T a b c e B : ℝ} (hT : 1 ≤ T) (h0 : -(T - 1) ≤ t) (h1 : t ≤ T) (ha : |a| ≤ B) (hb : |b| ≤ B) (hc : |c| ≤ 6 * B) (he : |e| ≤ 6 * B) :
    |(1 - t) * a + t * b - t * (1 - t) / 3 * ((2 - t) * c + (1 + t) * e)| ≤ 8 * T ^ 3 * B := by
  have hB : 0 ≤ B := (abs_nonneg _).trans ha
  have a1 : |t| ≤ T := abs_le.mpr ⟨by linarith, h1⟩
  have a2 : |1 - t| ≤ T := abs_le.mpr ⟨by linarith, by linarith⟩
  have e1 : |(1 - t) * a + t * b| ≤ 2 * T * B := by
    refine (abs_add_le _ _).trans ?_
    rw [abs_mul, abs_mul]
    have t1 := mul_le_mul a2 ha (abs_nonneg _) (by linarith)
    have t2 := mul_le_mul a1 hb (abs_nonneg _) (by linarith)
    linarith
  have e2 : |t * (1 - t) / 3| ≤ T ^ 2 / 3 := by
    rw [abs_div, abs_mul, abs_of_pos (by norm_num : (0 : ℝ) < 3)]
    have := mul_le_mul a1 a2 (abs_nonneg _) (by linarith)
    linarith
  have e3 : |(2 - t) * c + (1 + t) * e| ≤ 18 * T * B := by
    refine (abs_add_le _ _).trans ?_
    rw [abs_mul, abs_mul]
    have : |2 - t| + |1 + t| ≤ 3 * T := by
      rcases abs_cases (2 - t) with ⟨q, -⟩ | ⟨q, -⟩ <;> rcases abs_cases (1 + t) with ⟨q', -⟩ | ⟨q', -⟩ <;> rw [q, q'] <;> linarith
    have t1 := mul_le_mul_of_nonneg_left hc (abs_nonneg (2 - t))
    have t2 := mul_le_mul_of_nonneg_left he (abs_nonneg (1 + t))
    nlinarith
  refine (abs_sub _ _).trans ?_
  rw [abs_mul]
  have h := mul_le_mul e2 e3 (abs_nonneg _) (by positivity)
  have hTT : T ≤ T ^ 3 := by nlinarith [sq_nonneg (T - 1), mul_nonneg (by linarith : 0 ≤ T - 1) (by linarith : 0 ≤ T)]
  have := mul_le_mul_of_nonneg_right hTT hB
  nlinarith

theorem piece_slope {t T g c e d : ℝ} (hT : 1 ≤ T) (h0 : -(T - 1) ≤ t) (h1 : t ≤ T) (hg : |g| ≤ d) (hc : |c| ≤ 3 * d) (he : |e| ≤ 3 * d) :
    |g - ((3 * (1 - t) ^ 2 - 1) * c + (1 - 3 * t ^ 2) * e) / 3| ≤ (6 * T ^ 2 - 1) * d := by
  have hd : 0 ≤ d := (abs_nonneg _).trans hg
  have a1 : |1 - 3 * t ^ 2| ≤ 3 * T ^ 2 - 1 := by
    have : t ^ 2 ≤ T ^ 2 := sq_le_sq' (by linarith) h1
    rw [abs_le]; constructor <;> nlinarith
  have a2 : |3 * (1 - t) ^ 2 - 1| ≤ 3 * T ^ 2 - 1 := by
    have : (1 - t) ^ 2 ≤ T ^ 2 := sq_le_sq' (by linarith) (by linarith)
    rw [abs_le]; constructor <;> nlinarith [sq_nonneg (1 - t)]
  have hT2 : 0 ≤ 3 * T ^ 2 - 1 := by nlinarith
  have m1 := mul_le_mul a2 hc (abs_nonneg _) hT2
  have m2 := mul_le_mul a1 he (abs_nonneg _) hT2
  rw [← abs_mul] at m1 m2
  refine (abs_sub _ _).trans ?_
  rw [abs_div, abs_of_pos (by norm_num : (0 : ℝ) < 3)]
  have := abs_add_le ((3 * (1 - t) ^ 2 - 1) * c) ((1 - 3 * t ^ 2) * e)
  linarith

/-! ### The spline -/

/-- Which piece is used, and where in it. -/
theorem piece_of (K : ℕ) (hK : 2 ≤ K) (T x : ℝ) (h0 : -(T - 1) ≤ x) (h1 : x ≤ K - 1 + (T - 1)) : ∃ k, k + 2 ≤ K ∧ (k = 0 ∨ (k : ℝ) ≤ x) ∧ (k = K - 2 ∨ x < ((k + 1 : ℕ) : ℝ)) ∧
    (1 ≤ T → -(T - 1) ≤ x - k ∧ x - k ≤ T) := by
  have hK' : ((K - 2 : ℕ) : ℝ) = K - 2 := by rw [Nat.cast_sub hK]; norm_num
  by_cases c0 : x < 1
  · refine ⟨0, by omega, Or.inl rfl, Or.inr (by push_cast; linarith), fun hT => ⟨by push_cast; linarith, by push_cast; linarith⟩⟩
  by_cases c1 : ((K - 2 : ℕ) : ℝ) ≤ x
  · refine ⟨K - 2, by omega, Or.inr c1, Or.inl rfl, fun hT => ⟨by linarith, by linarith⟩⟩
  · have hx : 0 ≤ x := by linarith
    have hf := Nat.floor_le hx
    have hl := Nat.lt_floor_add_one x
    have hk : ⌊x⌋₊ < K - 2 := (Nat.floor_lt hx).mpr (not_le.mp c1)
    refine ⟨⌊x⌋₊, by omega, Or.inr hf, Or.inr (by push_cast; exact hl), fun hT => ⟨by linarith, by linarith⟩⟩

theorem S_near (y : ℕ → ℝ) (K : ℕ) (hK : 2 ≤ K) (B : ℝ) (hB : ∀ i < K, |y i| ≤ B) (f : ℝ) (hf : f ≤ 1 / 10) (hf0 : 0 ≤ f) (x : ℝ) (h0 : -f ≤ x) (h1 : x ≤ K - 1 + f) :
    |S y K x| ≤ (5 / 2 + 2 * f) * B := by
  obtain ⟨k, hk, k0, k1, ht⟩ := piece_of K hK (1 + f) x (by linarith) (by linarith)
  obtain ⟨t0, t1⟩ := ht (by linarith)
  rw [S, pieces_eq _ _ _ (mono _) k (by omega) _ k0 k1, p0_form]
  exact piece_near hf0 hf (by linarith) (by linarith) (hB k (by omega)) (hB (k + 1) (by omega)) (cs_size y K B hB k (by omega)) (cs_size y K B hB (k + 1) (by omega))

theorem S_far (y : ℕ → ℝ) (K : ℕ) (hK : 2 ≤ K) (B : ℝ) (hB : ∀ i < K, |y i| ≤ B) (T : ℝ) (hT : 1 ≤ T) (x : ℝ) (h0 : -(T - 1) ≤ x) (h1 : x ≤ K - 1 + (T - 1)) :
    |S y K x| ≤ 8 * T ^ 3 * B := by
  obtain ⟨k, hk, k0, k1, ht⟩ := piece_of K hK T x h0 h1
  obtain ⟨t0, t1⟩ := ht hT
  rw [S, pieces_eq _ _ _ (mono _) k (by omega) _ k0 k1, p0_form]
  exact piece_far hT t0 t1 (hB k (by omega)) (hB (k + 1) (by omega)) (cs_size y K B hB k (by omega)) (cs_size y K B hB (k + 1) (by omega))

theorem S_deriv (y : ℕ → ℝ) (K : ℕ) (x : ℝ) : HasDerivAt (S y K) (pieces (fun k => (k : ℝ)) (p1 y K) (K - 2) x) x :=
  pieces_deriv _ _ _ _ (p0_deriv y K) (fun k _ => match0 y K k) (fun k hk => match1 y K k (by omega)) (mono _) x

theorem S_slope (y : ℕ → ℝ) (K : ℕ) (hK : 2 ≤ K) (d : ℝ) (hd : ∀ i, i + 1 < K → |y (i + 1) - y i| ≤ d) (T : ℝ) (hT : 1 ≤ T) (a b : ℝ) (ha0 : -(T - 1) ≤ a) (ha1 : a ≤ K - 1 + (T - 1))
    (hb0 : -(T - 1) ≤ b) (hb1 : b ≤ K - 1 + (T - 1)) : |S y K a - S y K b| ≤ (6 * T ^ 2 - 1) * d * |a - b| := by
  have hd0 : 0 ≤ d := (abs_nonneg _).trans (hd 0 (by omega))
  have := (convex_Icc (-(T - 1)) ((K : ℝ) - 1 + (T - 1))).norm_image_sub_le_of_norm_hasDerivWithin_le (f := S y K) (f' := pieces (fun k => (k : ℝ)) (p1 y K) (K - 2)) (C := (6 * T ^ 2 - 1) * d)
    (fun x _ => (S_deriv y K x).hasDerivWithinAt) (fun x hx => by
      obtain ⟨k, hk, k0, k1, ht⟩ := piece_of K hK T x hx.1 hx.2
      obtain ⟨t0, t1⟩ := ht hT
      rw [pieces_eq _ _ _ (mono _) k (by omega) _ k0 k1, p1_form, Real.norm_eq_abs]
      exact piece_slope hT t0 t1 (hd k (by omega)) (cs_steps y K d hd0 hd k (by omega)) (cs_steps y K d hd0 hd (k + 1) (by omega))) (x := b) (y := a) ⟨hb0, hb1⟩ ⟨ha0, ha1⟩
  simpa only [Real.norm_eq_abs] using this

/-! ### Linearity -/

theorem zs_sub (y z : ℕ → ℝ) (i : ℕ) : zs (fun i => y i - z i) i = zs y i - zs z i := by
  induction i with
  | zero => simp [zs]
  | succ i ih => simp only [zs, ih]; rw [← sub_div]; congr 1; ring

theorem cr_sub (y z : ℕ → ℝ) (K j : ℕ) : cr (fun i => y i - z i) K j = cr y K j - cr z K j := by
  induction j with
  | zero => simp [cr]
  | succ j ih => simp only [cr, ih, zs_sub]; ring

theorem S_sub (y z : ℕ → ℝ) (K : ℕ) (x : ℝ) : S (fun i => y i - z i) K x = S y K x - S z K x := by
  have hp : ∀ k x, p0 (fun i => y i - z i) K k x = p0 y K k x - p0 z K k x := fun k x => by
    simp only [p0, bs, ds, cs, cr_sub]; ring
  unfold S
  generalize K - 2 = m
  induction m with
  | zero => exact hp 0 x
  | succ m ih =>
    simp only [pieces]
    split_ifs
    · exact ih
    · exact hp _ x

/-! ### For the code -/

section
variable (K : ℕ) (hK : 2 ≤ K) (junk Y : List ℝ) (hj : junk.length = K - 1) (st : ℕ) (y : ℕ → ℝ) (hy : ∀ i, i < K → Y[i * st]? = some (y i)) (x0 dx : ℝ) (hdx : dx ≠ 0)
include hK hj hy hdx

/-- **C102** Between the knots a natural spline stays within five halves of the size of the data, and at a distance `T - 1` from them within `8 T³` times. -/
theorem C102_range (B : ℝ) (hB : ∀ i < K, |y i| ≤ B) : ∃ s, make K junk Y x0 dx st = .ok s ∧
    (∀ x, 0 ≤ (x - x0) / dx → (x - x0) / dx ≤ K - 1 → K ≤ 2147483648 → ∃ v, s.call K x = .ok v ∧ |v| ≤ 5 / 2 * B) ∧
    ∀ T x, 1 ≤ T → -(T - 1) ≤ (x - x0) / dx → (x - x0) / dx ≤ K - 1 + (T - 1) → |(x - x0) / dx| < 2147483648 → ∃ v, s.call K x = .ok v ∧ |v| ≤ 8 * T ^ 3 * B := by
  obtain ⟨s, e, h, -⟩ := code_ok K hK junk Y hj st y hy x0 dx hdx
  refine ⟨s, e, fun x h0 h1 hK3 => ⟨_, h x ?_, ?_⟩, fun T x hT h0 h1 hx => ⟨_, h x hx, S_far y K hK B hB T hT _ h0 h1⟩⟩
  · have : (K : ℝ) ≤ 2147483648 := by exact_mod_cast hK3
    rw [abs_of_nonneg h0]; linarith
  · have := S_near y K hK B hB 0 (by norm_num) le_rfl ((x - x0) / dx) (by linarith) (by linarith)
    linarith

/-- **C102** If no datum changes by more than `D` then the spline changes between the knots by at most five halves of it, and at a distance `T - 1` from them by `8 T³` times. -/
theorem C102_stable (Z : List ℝ) (z : ℕ → ℝ) (hz : ∀ i, i < K → Z[i * st]? = some (z i)) (D : ℝ) (hD : ∀ i < K, |y i - z i| ≤ D) : ∃ s r, make K junk Y x0 dx st = .ok s ∧ make K junk Z x0 dx st = .ok r ∧
    (∀ x, 0 ≤ (x - x0) / dx → (x - x0) / dx ≤ K - 1 → K ≤ 2147483648 → ∃ v w, s.call K x = .ok v ∧ r.call K x = .ok w ∧ |v - w| ≤ 5 / 2 * D) ∧
    ∀ T x, 1 ≤ T → -(T - 1) ≤ (x - x0) / dx → (x - x0) / dx ≤ K - 1 + (T - 1) → |(x - x0) / dx| < 2147483648 → ∃ v w, s.call K x = .ok v ∧ r.call K x = .ok w ∧ |v - w| ≤ 8 * T ^ 3 * D := by
  obtain ⟨s, e, h, -⟩ := code_ok K hK junk Y hj st y hy x0 dx hdx
  obtain ⟨r, e', h', -⟩ := code_ok K hK junk Z hj st z hz x0 dx hdx
  refine ⟨s, r, e, e', fun x h0 h1 hK3 => ?_, fun T x hT h0 h1 hx => ⟨_, _, h x hx, h' x hx, ?_⟩⟩
  · have hx : |(x - x0) / dx| < 2147483648 := by
      have : (K : ℝ) ≤ 2147483648 := by exact_mod_cast hK3
      rw [abs_of_nonneg h0]; linarith
    refine ⟨_, _, h x hx, h' x hx, ?_⟩
    have := S_near _ K hK D hD 0 (by norm_num) le_rfl ((x - x0) / dx) (by linarith) (by linarith)
    rw [S_sub] at this
    linarith
  · have := S_far _ K hK D hD T hT _ h0 h1
    rwa [S_sub] at this

/-- **C102** If neighbouring data differ by at most `d` then between the knots the slope of the spline, per distance of the knots, is at most `5 d`, and at a distance `T - 1` from them `(6 T² - 1) d`. -/
theorem C102_slope (d : ℝ) (hd : ∀ i, i + 1 < K → |y (i + 1) - y i| ≤ d) : ∃ s, make K junk Y x0 dx st = .ok s ∧
    ∀ T a b, 1 ≤ T → -(T - 1) ≤ (a - x0) / dx → (a - x0) / dx ≤ K - 1 + (T - 1) → -(T - 1) ≤ (b - x0) / dx → (b - x0) / dx ≤ K - 1 + (T - 1) →
      |(a - x0) / dx| < 2147483648 → |(b - x0) / dx| < 2147483648 → ∃ v w, s.call K a = .ok v ∧ s.call K b = .ok w ∧ |v - w| ≤ (6 * T ^ 2 - 1) * d * (|a - b| / |dx|) := by
  obtain ⟨s, e, h, -⟩ := code_ok K hK junk Y hj st y hy x0 dx hdx
  refine ⟨s, e, fun T a b hT a0 a1 b0 b1 ha hb => ⟨_, _, h a ha, h b hb, (S_slope y K hK d hd T hT _ _ a0 a1 b0 b1).trans (le_of_eq ?_)⟩⟩
  rw [← sub_div, sub_sub_sub_cancel_right, abs_div]

end

/-- **C102** A natural spline may leave the range of the data: through `0, 1, 1, 0` it is `23/20` in the middle. -/
theorem C102_overshoot : ∃ s, make 4 [0, 0, 0] [0, 1, 1, 0] 0 1 1 = .ok s ∧ s.call 4 (3 / 2) = .ok (23 / 20) := by
  obtain ⟨s, e, h, -⟩ := code_ok 4 (by norm_num) [0, 0, 0] [0, 1, 1, 0] rfl 1 (fun i => if i = 0 then 0 else if i = 3 then 0 else 1) (fun i hi => by interval_cases i <;> simp) 0 1 one_ne_zero
  refine ⟨s, e, ?_⟩
  rw [h _ (by norm_num [abs_lt])]
  congr 1
  rw [S, pieces_eq _ _ _ (mono _) 1 (by norm_num) _ (Or.inr (by norm_num)) (Or.inr (by norm_num)), p0_form]
  simp only [cs, cr, zs, us]
  norm_num

example : (∀ i < 3, |(fun i : ℕ => ((-1) ^ i * 2 : ℝ)) i| ≤ 2) ∧ ∀ i, i + 1 < 3 → |(fun i : ℕ => ((-1) ^ i * 2 : ℝ)) (i + 1) - (fun i : ℕ => ((-1) ^ i * 2 : ℝ)) i| ≤ 4 := by
  refine ⟨fun i _ => by simp [abs_mul], fun i hi => ?_⟩
  have : i = 0 ∨ i = 1 := by omega
  rcases this with rfl | rfl <;> norm_num [abs_le]

end NaturalSpline
end DSP
