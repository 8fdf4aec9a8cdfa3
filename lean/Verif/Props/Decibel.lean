import Verif.Props.Exp
import Verif.Lemmas.Digits
import Mathlib.Analysis.SpecialFunctions.Log.Base

/-!
# C39: decibel and idecibel
-/

namespace DSP.Decibel
open Finset

/-- The constant of decibel.hh:21. -/
noncomputable def scale : ℝ := 8894.350989378597430295120259412072085389250678859091274024013479236

/-- Ten square roots. -/
noncomputable def root (v : ℝ) : ℝ := (List.range 10).foldl (fun x _ => Real.sqrt x) v

theorem root_eq (v : ℝ) : root v = √√√√√√√√√√v := rfl

theorem root_nonneg (v : ℝ) : 0 ≤ root v := by rw [root_eq]; exact Real.sqrt_nonneg _

theorem root_pow (v : ℝ) (h : 0 ≤ v) : root v ^ 1024 = v := by
  have s : ∀ x n, 0 ≤ x → √x ^ (2 * n) = x ^ n := fun x n hx => by rw [pow_mul, Real.sq_sqrt hx]
  rw [root_eq]
  rw [s _ 512 (by positivity), s _ 256 (by positivity), s _ 128 (by positivity), s _ 64 (by positivity), s _ 32 (by positivity), s _ 16 (by positivity), s _ 8 (by positivity),
    s _ 4 (by positivity), s _ 2 (by positivity), s _ 1 h, pow_one]

theorem root_lt (v w : ℝ) (h : 0 ≤ v) (hw : v < w) : root v < root w := by
  by_contra c
  push Not at c
  have := pow_le_pow_left₀ (root_nonneg w) c 1024
  rw [root_pow v h, root_pow w (h.trans hw.le)] at this
  linarith

theorem root_inv (v : ℝ) : root (1 / v) = 1 / root v := by
  simp only [root_eq, one_div, Real.sqrt_inv]

/-- The odd polynomial. -/
noncomputable def S (x : ℝ) : ℝ := ∑ k ∈ range 7, x ^ (2 * k + 1) / (2 * k + 1)

theorem S_neg (x : ℝ) : S (-x) = -S x := by
  simp only [S, sum_range_succ, sum_range_zero]
  ring

theorem S_lt (x y : ℝ) (h : x < y) : S x < S y := by
  have : StrictMono S := by
    have e : S = fun x => ∑ k ∈ range 7, x ^ (2 * k + 1) / (2 * (k : ℝ) + 1) := rfl
    rw [e]
    intro x y hxy
    refine sum_lt_sum_of_nonempty (by simp) fun k _ => ?_
    have : Odd (2 * k + 1) := ⟨k, rfl⟩
    exact div_lt_div_of_pos_right (this.strictMono_pow hxy) (by positivity)
  exact this h

noncomputable def ratio (v : ℝ) : ℝ := (root v - 1) / (root v + 1)

theorem decibel_eq (v : ℝ) : decibel v = .ok (scale * S (ratio v)) := by
  have h := root_nonneg v
  unfold decibel
  simp only [bind, Except.bind]
  rw [← root, fdiv_ok (by linarith)]
  show Except.ok _ = _
  congr 1
  rw [← ratio, S, scale]
  simp only [sum_range_succ, sum_range_zero]
  push_cast
  ring

theorem scale_pos : 0 < scale := by norm_num [scale]

theorem ratio_lt (v w : ℝ) (h : 0 ≤ v) (hw : v < w) : ratio v < ratio w := by
  have h1 := root_nonneg v
  have h2 := root_nonneg w
  rw [ratio, ratio, div_lt_div_iff₀ (by linarith) (by linarith)]
  have := root_lt v w h hw
  linarith

theorem root_pos (v : ℝ) (h : 0 < v) : 0 < root v := by
  rw [root_eq]; positivity

theorem ratio_inv (v : ℝ) (h : 0 < v) : ratio (1 / v) = -ratio v := by
  have := root_pos v h
  rw [ratio, ratio, root_inv]
  field_simp
  ring

/-- The function value is monotone and odd: one is zero decibels, reciprocals are negatives, and more is more. -/
theorem C39_order : ∃ f : ℝ → ℝ, (∀ v, 0 ≤ v → decibel v = .ok (f v)) ∧ f 1 = 0 ∧ (∀ v, 0 < v → f (1 / v) = -f v) ∧ ∀ v w, 0 ≤ v → v < w → f v < f w := by
  refine ⟨fun v => scale * S (ratio v), fun v _ => decibel_eq v, ?_, fun v h => ?_, fun v w h hw => ?_⟩
  · have : ratio 1 = 0 := by simp [ratio, root_eq]
    simp [this, S]
  · show scale * S (ratio (1 / v)) = -(scale * S (ratio v))
    rw [ratio_inv v h, S_neg]
    ring
  · exact mul_lt_mul_of_pos_left (S_lt _ _ (ratio_lt v w h hw)) scale_pos

/-- Zero is not minus infinity but about -17390 dB; no result is further from zero. -/
theorem C39_finite : (∃ d, decibel 0 = .ok d ∧ -17390 < d ∧ d < -17389) ∧ ∀ v d, 0 ≤ v → decibel v = .ok d → |d| < 17390 := by
  have h1 : S 1 < 1.95514 ∧ 1.95513 < S 1 := by
    constructor <;> (simp only [S, sum_range_succ, sum_range_zero]; norm_num)
  have hs : 8894.35 < scale ∧ scale < 8894.351 := by constructor <;> norm_num [scale]
  constructor
  · refine ⟨_, decibel_eq 0, ?_⟩
    have : ratio 0 = -1 := by simp [ratio, root_eq]
    rw [this, S_neg]
    constructor <;> nlinarith
  · intro v d hv hd
    rw [decibel_eq] at hd
    cases hd
    have hr := root_nonneg v
    have a1 : -1 ≤ ratio v := by rw [ratio, le_div_iff₀ (by linarith)]; linarith
    have a2 : ratio v < 1 := by rw [ratio, div_lt_one (by linarith)]; linarith
    have b2 := S_lt _ _ a2
    have b1 : -S 1 ≤ S (ratio v) := by
      rw [← S_neg]
      rcases a1.eq_or_lt with h | h
      · rw [← h]
      · exact (S_lt _ _ h).le
    have := scale_pos
    rw [abs_lt]
    constructor <;> nlinarith

/-! ### Accuracy -/

theorem scale_accurate : |scale - 20480 / Real.log 10| ≤ 1 / 10 ^ 63 := by
  have h := abs_le.mp Digits.log_ten
  have hp : 0 < Real.log 10 := Real.log_pos (by norm_num)
  have e : scale - 20480 / Real.log 10 = (scale * Real.log 10 - 20480) / Real.log 10 := by field_simp
  rw [e, abs_div, abs_of_pos hp, div_le_iff₀ hp]
  rw [Digits.log10] at h
  push_cast at h
  norm_num at h
  rw [scale, abs_le]
  constructor <;> norm_num <;> linarith [h.1, h.2]

/-- The remainder of the series. -/
theorem S_accurate (x : ℝ) (hx : |x| < 1) : |1 / 2 * Real.log ((1 + x) / (1 - x)) - S x| ≤ |x| ^ 15 / (15 * (1 - x ^ 2)) := by
  have key : ∀ x : ℝ, 0 ≤ x → x < 1 → |1 / 2 * Real.log ((1 + x) / (1 - x)) - S x| ≤ x ^ 15 / (15 * (1 - x ^ 2)) := by
    intro x h0 h1
    have h := (Real.hasSum_log_sub_log_of_abs_lt_one (x := x) (by rw [abs_of_nonneg h0]; exact h1)).mul_left (1 / 2)
    have e : (fun k : ℕ => 1 / 2 * ((2 : ℝ) * (1 / (2 * k + 1)) * x ^ (2 * k + 1))) = fun k : ℕ => x ^ (2 * k + 1) / (2 * k + 1) := by
      funext k; ring
    rw [e, ← Real.log_div (by linarith) (by linarith)] at h
    have ht := (hasSum_nat_add_iff' 7).mpr h
    have hx2 : x ^ 2 < 1 := by nlinarith
    have hg := (hasSum_geometric_of_lt_one (r := x ^ 2) (by positivity) hx2).mul_left (x ^ 15 / 15)
    have hle : ∀ k : ℕ, x ^ (2 * (k + 7) + 1) / (2 * ((k + 7 : ℕ) : ℝ) + 1) ≤ x ^ 15 / 15 * (x ^ 2) ^ k := by
      intro k
      rw [← pow_mul, div_mul_eq_mul_div, ← pow_add, show 15 + 2 * k = 2 * (k + 7) + 1 by ring]
      push_cast
      gcongr
      have : (0 : ℝ) ≤ k := Nat.cast_nonneg k
      linarith
    have up := hasSum_le hle ht hg
    have lo := ht.nonneg fun k => by positivity
    rw [← S] at up lo
    rw [abs_of_nonneg lo]
    refine up.trans (le_of_eq ?_)
    have : 1 - x ^ 2 ≠ 0 := by linarith
    field_simp
  rcases le_total 0 x with c | c
  · rw [abs_of_nonneg c] at hx ⊢
    exact key x c hx
  · rw [abs_of_nonpos c] at hx ⊢
    have h := key (-x) (by linarith) hx
    have e : Real.log ((1 + x) / (1 - x)) = -Real.log ((1 + -x) / (1 - -x)) := by
      rw [← Real.log_inv, inv_div, sub_neg_eq_add, ← sub_eq_add_neg]
    rw [S_neg, neg_sq] at h
    rw [e, ← abs_neg]
    refine le_trans (le_of_eq ?_) h
    congr 1
    ring

theorem ratio_log (v : ℝ) (h : 0 < v) : 1 / 2 * Real.log ((1 + ratio v) / (1 - ratio v)) = Real.log v / 2048 := by
  have hr := root_pos v h
  have e : (1 + ratio v) / (1 - ratio v) = root v := by
    rw [ratio]
    field_simp
    ring_nf
  rw [e]
  nth_rw 2 [← root_pow v h.le]
  rw [Real.log_pow]
  push_cast
  ring

theorem abs_ratio_lt (v : ℝ) (h : 0 < v) : |ratio v| < 1 := by
  have hr := root_pos v h
  rw [abs_lt, ratio]
  constructor
  · rw [lt_div_iff₀ (by linarith)]; linarith
  · rw [div_lt_one (by linarith)]; linarith

theorem abs_ratio_le (v : ℝ) (h : 0 < v) : |ratio v| ≤ |Real.log v| / 2048 := by
  have key : ∀ v : ℝ, 0 < v → 0 ≤ ratio v → |ratio v| ≤ |Real.log v| / 2048 := by
    intro v h c
    have a := Real.sum_range_le_log_div c (abs_lt.mp (abs_ratio_lt v h)).2 1
    rw [ratio_log v h] at a
    simp only [sum_range_one] at a
    norm_num at a
    rw [abs_of_nonneg c]
    exact a.trans (by gcongr; exact le_abs_self _)
  rcases le_total 0 (ratio v) with c | c
  · exact key v h c
  · have := key (1 / v) (by positivity) (by rw [ratio_inv v h]; linarith)
    rwa [ratio_inv v h, abs_neg, one_div, Real.log_inv, abs_neg] at this

theorem accuracy (v X : ℝ) (hv : 0 < v) (hX : X < 1) (h : |Real.log v| ≤ 2048 * X) : ∃ d, decibel v = .ok d ∧ |d - 10 * Real.logb 10 v| ≤ 8895 * (X ^ 15 / (15 * (1 - X ^ 2))) + 1 / 10 ^ 60 := by
  refine ⟨_, decibel_eq v, ?_⟩
  have hX0 : 0 ≤ X := by linarith [abs_nonneg (Real.log v)]
  have hr : |ratio v| ≤ X := (abs_ratio_le v hv).trans (by linarith)
  have hS := S_accurate (ratio v) (abs_ratio_lt v hv)
  rw [ratio_log v hv] at hS
  have hp : 0 < Real.log 10 := Real.log_pos (by norm_num)
  have hX2 : X ^ 2 < 1 := by nlinarith
  have hb : |ratio v| ^ 15 / (15 * (1 - ratio v ^ 2)) ≤ X ^ 15 / (15 * (1 - X ^ 2)) := by
    have : ratio v ^ 2 ≤ X ^ 2 := by rw [← sq_abs]; gcongr
    have : 0 < 1 - X ^ 2 := by linarith
    gcongr
  have e : scale * S (ratio v) - 10 * Real.logb 10 v = (scale - 20480 / Real.log 10) * (Real.log v / 2048) - scale * (Real.log v / 2048 - S (ratio v)) := by
    rw [← Real.log_div_log]
    field_simp
    ring
  have hs : scale ≤ 8895 := by norm_num [scale]
  have hl : |Real.log v / 2048| ≤ 1 := by rw [abs_div, abs_of_pos (by norm_num : (0 : ℝ) < 2048), div_le_one (by norm_num)]; linarith
  rw [e]
  calc _ ≤ |(scale - 20480 / Real.log 10) * (Real.log v / 2048)| + |scale * (Real.log v / 2048 - S (ratio v))| := abs_sub _ _
    _ ≤ 1 / 10 ^ 63 * 1 + 8895 * (X ^ 15 / (15 * (1 - X ^ 2))) := by
      rw [abs_mul, abs_mul, abs_of_pos scale_pos]
      have := scale_accurate
      have := hS.trans hb
      gcongr
    _ ≤ _ := by
      have : (1 : ℝ) / 10 ^ 63 * 1 ≤ 1 / 10 ^ 60 := by norm_num
      linarith

theorem log_of_decibels (v D : ℝ) (h : |10 * Real.logb 10 v| ≤ D) : |Real.log v| ≤ D * 0.2302586 := by
  have hp : 0 < Real.log 10 := Real.log_pos (by norm_num)
  have e : Real.log v = 10 * Real.logb 10 v * (Real.log 10 / 10) := by rw [← Real.log_div_log]; field_simp
  have h10 := abs_le.mp Digits.log_ten
  rw [Digits.log10] at h10
  push_cast at h10
  have hb : Real.log 10 / 10 ≤ 0.2302586 := by norm_num at h10 ⊢; linarith [h10.1, h10.2]
  rw [e, abs_mul, abs_of_pos (by positivity : 0 < Real.log 10 / 10)]
  have := (abs_nonneg _).trans h
  gcongr

/-- How far the result is from the level, up to 400 dB, up to the range of `idecibel`, and over the whole range of double precision. -/
theorem C39_accuracy (v : ℝ) (hv : 0 < v) : ∃ d, decibel v = .ok d ∧
    (|10 * Real.logb 10 v| ≤ 400 → |d - 10 * Real.logb 10 v| ≤ 1 / 10 ^ 17) ∧
    (|10 * Real.logb 10 v| ≤ 770 → |d - 10 * Real.logb 10 v| ≤ 1 / 10 ^ 13) ∧
    (|10 * Real.logb 10 v| ≤ 3240 → |d - 10 * Real.logb 10 v| ≤ 1 / 5000) := by
  refine ⟨_, decibel_eq v, fun h => ?_, fun h => ?_, fun h => ?_⟩
  · obtain ⟨d, h1, h2⟩ := accuracy v 0.04498 hv (by norm_num) ((log_of_decibels v _ h).trans (by norm_num))
    rw [decibel_eq] at h1
    cases h1
    exact h2.trans (by norm_num)
  · obtain ⟨d, h1, h2⟩ := accuracy v 0.08658 hv (by norm_num) ((log_of_decibels v _ h).trans (by norm_num))
    rw [decibel_eq] at h1
    cases h1
    exact h2.trans (by norm_num)
  · obtain ⟨d, h1, h2⟩ := accuracy v 0.3643 hv (by norm_num) ((log_of_decibels v _ h).trans (by norm_num))
    rw [decibel_eq] at h1
    cases h1
    exact h2.trans (by norm_num)

/-- The way back, with a relative error of `2^-60`. -/
theorem C39_inverse (d : ℝ) (h : |d| ≤ 769) : ∃ v, idecibel d = .ok v ∧ |v - (10 : ℝ) ^ (d / 10)| ≤ (10 : ℝ) ^ (d / 10) / 2 ^ 60 := by
  unfold idecibel
  rw [fdiv_ok (by norm_num)]
  exact Exp.C38_exp10 (d / 10) (by rw [abs_div, abs_of_pos (by norm_num : (0 : ℝ) < 10), div_le_iff₀ (by norm_num)]; linarith)

/-- There and back again. -/
theorem C39_round_trip (d : ℝ) (h : |d| ≤ 769) : ∃ v w, idecibel d = .ok v ∧ decibel v = .ok w ∧ |w - d| ≤ 2 / 10 ^ 13 := by
  obtain ⟨v, h1, h2⟩ := C39_inverse d h
  have hp : (0 : ℝ) < (10 : ℝ) ^ (d / 10) := by positivity
  set p : ℝ := (10 : ℝ) ^ (d / 10) with hpd
  rw [abs_le] at h2
  have hv : 0 < v := by
    have : p / 2 ^ 60 ≤ p / 2 := by gcongr; norm_num
    linarith [h2.1]
  have hl : Real.logb 10 p = d / 10 := by rw [hpd]; exact Real.logb_rpow (by norm_num) (by norm_num)
  have hq : |10 * Real.logb 10 v - d| ≤ 1 / 10 ^ 16 := by
    have e : 10 * Real.logb 10 v - d = 10 * (Real.log (v / p) / Real.log 10) := by
      rw [Real.log_div hv.ne' hp.ne', sub_div, Real.log_div_log, Real.log_div_log, hl]
      ring
    have h10 : 1 ≤ Real.log 10 := by
      have h10 := abs_le.mp Digits.log_ten
      rw [Digits.log10] at h10
      push_cast at h10
      norm_num at h10 ⊢
      linarith [h10.1]
    have r1 : 1 - 1 / 2 ^ 60 ≤ v / p := by rw [le_div_iff₀ hp]; linarith [h2.1]
    have r2 : v / p ≤ 1 + 1 / 2 ^ 60 := by rw [div_le_iff₀ hp]; linarith [h2.2]
    have hr : 0 < v / p := by positivity
    have u := Real.log_le_sub_one_of_pos hr
    have l := Real.one_sub_inv_le_log_of_pos hr
    have i : (v / p)⁻¹ ≤ 1 + 1 / 2 ^ 59 := by
      rw [inv_le_comm₀ hr (by norm_num)]
      refine le_trans ?_ r1
      norm_num
    have hlog : |Real.log (v / p)| ≤ 1 / 2 ^ 59 := by
      rw [abs_le]
      constructor
      · linarith
      · have : (1 : ℝ) / 2 ^ 60 ≤ 1 / 2 ^ 59 := by norm_num
        linarith
    rw [e, abs_mul, abs_div, abs_of_pos (by norm_num : (0 : ℝ) < 10), abs_of_pos (by linarith : 0 < Real.log 10)]
    calc 10 * (|Real.log (v / p)| / Real.log 10) ≤ 10 * (|Real.log (v / p)| / 1) := by gcongr
      _ ≤ 10 * (1 / 2 ^ 59 / 1) := by gcongr
      _ ≤ _ := by norm_num
  obtain ⟨w, h3, -, h4, -⟩ := C39_accuracy v hv
  refine ⟨v, w, h1, h3, ?_⟩
  have hb : |10 * Real.logb 10 v| ≤ 770 := by
    rw [abs_le] at hq h ⊢
    norm_num at hq
    constructor <;> linarith [hq.1, hq.2, h.1, h.2]
  have h5 := h4 hb
  rw [abs_le] at hq h5 ⊢
  norm_num at hq h5 ⊢
  constructor <;> linarith [hq.1, hq.2, h5.1, h5.2]

/-- Twenty decibels. -/
example : ∃ d, decibel 100 = .ok d ∧ |d - 20| ≤ 1 / 10 ^ 17 := by
  obtain ⟨d, h1, h2, -⟩ := C39_accuracy 100 (by norm_num)
  have e : Real.logb 10 100 = 2 := by
    rw [show (100 : ℝ) = 10 ^ (2 : ℝ) by norm_num]
    exact Real.logb_rpow (by norm_num) (by norm_num)
  rw [e] at h2
  refine ⟨d, h1, ?_⟩
  have := h2 (by norm_num)
  norm_num at this ⊢
  exact this

end DSP.Decibel
