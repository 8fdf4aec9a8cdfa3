import Verif.Props.Pnm
import Mathlib.Tactic.Linarith
import Mathlib.Tactic.NormNum
import Mathlib.Tactic.Positivity
import Mathlib.Tactic.Ring
import Mathlib.Tactic.FieldSimp
import Mathlib.Tactic.IntervalCases

/-! Property C26: pixels of Netpbm files. -/

namespace DSP
open Pnm

namespace Pnm

theorem nearbyint_near (x : ℝ) : |x - nearbyint x| ≤ 1 / 2 := by
  have h1 := Int.floor_le x
  have h2 := Int.lt_floor_add_one x
  have hf : Int.fract x = x - ⌊x⌋ := rfl
  unfold nearbyint
  split_ifs with h h'
  · rw [abs_le]; constructor <;> linarith
  · rw [abs_le]; push_cast; constructor <;> linarith
  · have a := Int.floor_le (x + 1 / 2)
    have b := Int.lt_floor_add_one (x + 1 / 2)
    rw [abs_le]; constructor <;> linarith

theorem nearbyint_eq {x : ℝ} {n : ℤ} (h : |x - n| < 1 / 2) : nearbyint x = n := by
  have h1 := nearbyint_near x
  rw [abs_lt] at h
  rw [abs_le] at h1
  have a : ((nearbyint x : ℤ) : ℝ) < ((n + 1 : ℤ) : ℝ) := by push_cast; linarith [h.1, h.2, h1.1, h1.2]
  have b : ((n : ℤ) : ℝ) < ((nearbyint x + 1 : ℤ) : ℝ) := by push_cast; linarith [h.1, h.2, h1.1, h1.2]
  have a' := Int.cast_lt.mp a
  have b' := Int.cast_lt.mp b
  omega

theorem nearbyint_int (n : ℤ) : nearbyint (n : ℝ) = n := nearbyint_eq (by simp)

theorem nearbyint_mono {x y : ℝ} (h : x ≤ y) : nearbyint x ≤ nearbyint y := by
  have hx := nearbyint_near x
  have hy := nearbyint_near y
  rw [abs_le] at hx hy
  by_contra hc
  push Not at hc
  have hc' : nearbyint y + 1 ≤ nearbyint x := hc
  have hr : ((nearbyint y : ℤ) : ℝ) + 1 ≤ (nearbyint x : ℤ) := by exact_mod_cast hc'
  -- both lie at the same half
  have e : x = y := by linarith [hx.1, hx.2, hy.1, hy.2]
  subst e
  omega

/-- The exponent of `srgb`. -/
theorem root_pow {x : ℝ} (hx : 0 ≤ x) : (x ^ (1 / (2.4 : ℝ))) ^ (12 : ℕ) = x ^ (5 : ℕ) := by
  rw [← Real.rpow_natCast, ← Real.rpow_mul hx, ← Real.rpow_natCast]
  norm_num

theorem pow_root {x : ℝ} (hx : 0 ≤ x) : (x ^ (2.4 : ℝ)) ^ (1 / (2.4 : ℝ)) = x := by
  rw [← Real.rpow_mul hx]; norm_num

theorem pow_pow5 {x : ℝ} (hx : 0 ≤ x) : (x ^ (2.4 : ℝ)) ^ (5 : ℕ) = x ^ (12 : ℕ) := by
  rw [← Real.rpow_natCast, ← Real.rpow_mul hx, ← Real.rpow_natCast]
  norm_num

theorem le_root {x y : ℝ} (hx : 0 ≤ x) (h : y ^ 12 ≤ x ^ 5) : y ≤ x ^ (1 / (2.4 : ℝ)) := by
  have hr := Real.rpow_nonneg hx (1 / (2.4 : ℝ))
  by_contra hc
  push Not at hc
  have := pow_lt_pow_left₀ hc hr (n := 12) (by norm_num)
  rw [root_pow hx] at this
  linarith

theorem root_le {x y : ℝ} (hx : 0 ≤ x) (hy : 0 ≤ y) (h : x ^ 5 ≤ y ^ 12) : x ^ (1 / (2.4 : ℝ)) ≤ y := by
  have hr := Real.rpow_nonneg hx (1 / (2.4 : ℝ))
  by_contra hc
  push Not at hc
  have := pow_lt_pow_left₀ hc hy (n := 12) (by norm_num)
  rw [root_pow hx] at this
  linarith

/-- The curve of `srgb` above the joint. -/
noncomputable def curve (x : ℝ) : ℝ := (1 + 0.055) * x ^ (1 / (2.4 : ℝ)) - 0.055

/-- The argument of the joint. -/
noncomputable def joint : ℝ := 0.04045 / 12.92

theorem curve_joint : 0.04045 - 3e-8 ≤ curve joint := by
  have : (0.04045 - 3e-8 + 0.055) / 1.055 ≤ joint ^ (1 / (2.4 : ℝ)) := le_root (by unfold joint; norm_num) (by norm_num [joint])
  unfold curve
  have h := mul_le_mul_of_nonneg_left this (show (0 : ℝ) ≤ 1.055 by norm_num)
  norm_num at h ⊢
  linarith

theorem curve_mono {x y : ℝ} (hx : 0 ≤ x) (h : x ≤ y) : curve x ≤ curve y := by
  unfold curve
  have := Real.rpow_le_rpow hx h (show (0 : ℝ) ≤ 1 / (2.4 : ℝ) by norm_num)
  linarith

theorem curve_one : curve 1 = 1 := by unfold curve; rw [Real.one_rpow]; norm_num

/-- Just above the joint the curve stays close to the line. -/
theorem curve_lower {t : ℝ} (h0 : 0 ≤ t) (h1 : t ≤ 1) : 0.04045 * (1 + t / 2) - 3e-8 ≤ curve (joint * (1 + t)) := by
  have key : ((0.04045 * (1 + t / 2) - 3e-8 + 0.055) / 1.055) ≤ (joint * (1 + t)) ^ (1 / (2.4 : ℝ)) := by
    apply le_root (by unfold joint; positivity)
    have e1 : ((0.04045 * (1 + t / 2) - 3e-8 + 0.055) / 1.055) ≤ ((0.04045 - 3e-8 + 0.055) / 1.055) * (1 + 0.212 * t) := by
      rw [div_mul_eq_mul_div]
      apply div_le_div_of_nonneg_right _ (by norm_num)
      norm_num; linarith
    have e2 : (1 + 0.212 * t) ^ 12 ≤ (1 + t) ^ 5 := by
      have p5 : ∀ k, t ^ (5 + k) ≤ t ^ 5 := fun k => pow_le_pow_of_le_one h0 h1 (by omega)
      have q0 := h0
      have q1 : 0 ≤ t ^ 2 := by positivity
      have q2 : 0 ≤ t ^ 3 := by positivity
      have q3 : 0 ≤ t ^ 4 := by positivity
      have q4 : 0 ≤ t ^ 5 := by positivity
      have r1 := p5 1; have r2 := p5 2; have r3 := p5 3; have r4 := p5 4; have r5 := p5 5; have r6 := p5 6; have r7 := p5 7
      norm_num at r1 r2 r3 r4 r5 r6 r7
      ring_nf
      nlinarith
    have e3 : ((0.04045 - 3e-8 + 0.055) / 1.055 : ℝ) ^ 12 ≤ joint ^ 5 := by norm_num [joint]
    calc ((0.04045 * (1 + t / 2) - 3e-8 + 0.055) / 1.055) ^ 12
        ≤ (((0.04045 - 3e-8 + 0.055) / 1.055) * (1 + 0.212 * t)) ^ 12 :=
          pow_le_pow_left₀ (div_nonneg (by norm_num; linarith) (by norm_num)) e1 12
      _ = ((0.04045 - 3e-8 + 0.055) / 1.055) ^ 12 * (1 + 0.212 * t) ^ 12 := mul_pow _ _ _
      _ ≤ joint ^ 5 * (1 + t) ^ 5 := mul_le_mul e3 e2 (by positivity) (by unfold joint; positivity)
      _ = (joint * (1 + t)) ^ 5 := (mul_pow _ _ _).symm
  unfold curve
  have h := mul_le_mul_of_nonneg_left key (show (0 : ℝ) ≤ 1.055 by norm_num)
  norm_num at h ⊢
  linarith

theorem curve_upper {t : ℝ} (h0 : 0 ≤ t) : curve (joint * (1 + t)) ≤ 0.04045 * (1 + t) := by
  have key : (joint * (1 + t)) ^ (1 / (2.4 : ℝ)) ≤ ((0.04045 * (1 + t) + 0.055) / 1.055) := by
    apply root_le (by unfold joint; positivity) (by positivity)
    have e1 : ((0.04045 + 0.055) / 1.055) * (1 + 5 / 12 * t) ≤ ((0.04045 * (1 + t) + 0.055) / 1.055) := by
      rw [div_mul_eq_mul_div]
      apply div_le_div_of_nonneg_right _ (by norm_num)
      norm_num; linarith
    have e2 : (1 + t) ^ 5 ≤ (1 + 5 / 12 * t) ^ 12 := by
      rw [← sub_nonneg]
      ring_nf
      positivity
    have e3 : joint ^ 5 ≤ ((0.04045 + 0.055) / 1.055 : ℝ) ^ 12 := by norm_num [joint]
    calc (joint * (1 + t)) ^ 5 = joint ^ 5 * (1 + t) ^ 5 := mul_pow _ _ _
      _ ≤ ((0.04045 + 0.055) / 1.055) ^ 12 * (1 + 5 / 12 * t) ^ 12 := mul_le_mul e3 e2 (by positivity) (by positivity)
      _ = (((0.04045 + 0.055) / 1.055) * (1 + 5 / 12 * t)) ^ 12 := (mul_pow _ _ _).symm
      _ ≤ _ := pow_le_pow_left₀ (by positivity) e1 12
  unfold curve
  have h := mul_le_mul_of_nonneg_left key (show (0 : ℝ) ≤ 1.055 by norm_num)
  norm_num at h ⊢
  linarith

theorem srgb_eq (m : Int) (v : ℝ) : srgb m v = nearbyint (m * (if min (max v 0) 1 ≤ joint then min (max v 0) 1 * 12.92 else curve (min (max v 0) 1))) := rfl

theorem srgb_clamped (m : Int) {v : ℝ} (h0 : 0 ≤ v) (h1 : v ≤ 1) : srgb m v = nearbyint (m * (if v ≤ joint then v * 12.92 else curve v)) := by
  rw [srgb_eq, max_eq_left h0, min_eq_left h1]

end Pnm

/-- **C26** Decoding a code and encoding it again gives the code, for every maximal value of up to 16 bits (the file format of the
code under test uses one byte per sample, so up to 255 there). -/
theorem C26_codes (m q : Int) (hm : 1 ≤ m) (hm' : m ≤ 65535) (h0 : 0 ≤ q) (h1 : q ≤ m) : srgb m (linear m q) = q := by
  have mpos : (0 : ℝ) < m := by exact_mod_cast hm
  have hmr : (m : ℝ) ≤ 65535 := by exact_mod_cast hm'
  have q0 : (0 : ℝ) ≤ q := by exact_mod_cast h0
  have q1 : (q : ℝ) ≤ m := by exact_mod_cast h1
  obtain ⟨z, hz⟩ : ∃ z : ℝ, z = q / m := ⟨_, rfl⟩
  have z0 : 0 ≤ z := by rw [hz]; positivity
  have z1 : z ≤ 1 := by rw [hz]; exact (div_le_one mpos).mpr q1
  have hq : (q : ℝ) = m * z := by rw [hz]; field_simp
  have hK := nearbyint_near (0.04045 * m)
  rw [abs_le] at hK
  unfold linear
  simp only
  split_ifs with hc
  · have e : (q : ℝ) / (12.92 * m) = z / 12.92 := by rw [hz]; field_simp
    rw [e, srgb_clamped m (by positivity) ((div_le_one (by norm_num)).mpr (by linarith))]
    split_ifs with hj
    · have : (m : ℝ) * (z / 12.92 * 12.92) = (q : ℤ) := by rw [hq]; field_simp
      rw [this, nearbyint_int]
    · have zj : 0.04045 < z := by
        by_contra h; apply hj; push Not at h
        exact div_le_div_of_nonneg_right h (by norm_num)
      have hcr : (q : ℝ) ≤ nearbyint (0.04045 * m) := by exact_mod_cast hc
      have hqm : (q : ℝ) ≤ 0.04045 * m + 1 / 2 := by linarith [hK.1]
      have qone : (1 : ℝ) ≤ q := by
        have : 0 < q := by
          rcases h0.lt_or_eq with h | h
          · exact h
          · exfalso; subst h; simp at hz; rw [hz] at zj; norm_num at zj
        exact_mod_cast this
      obtain ⟨t, ht⟩ : ∃ t : ℝ, t = z / 0.04045 - 1 := ⟨_, rfl⟩
      have hzt : z = 0.04045 * (1 + t) := by rw [ht]; ring
      have t0 : 0 ≤ t := by rw [hzt] at zj; linarith
      have hmt : m * (0.04045 * t) ≤ 1 / 2 := by
        have : (m : ℝ) * z ≤ 0.04045 * m + 1 / 2 := by rw [← hq]; exact hqm
        rw [hzt] at this; linarith
      have hmj : 1 / 2 ≤ 0.04045 * (m : ℝ) := by linarith
      have t1 : t ≤ 1 := by
        by_contra h; push Not at h
        have : 0.04045 * (m : ℝ) * 1 < 0.04045 * m * t := by apply mul_lt_mul_of_pos_left h; positivity
        linarith
      have ez : z / 12.92 = joint * (1 + t) := by rw [hzt]; unfold joint; ring
      have lo := curve_lower t0 t1
      have up := curve_upper t0
      rw [← ez] at lo up
      apply nearbyint_eq
      rw [hq, ← mul_sub, abs_mul, abs_of_pos mpos]
      have : |curve (z / 12.92) - z| ≤ 0.04045 * (t / 2) + 3e-8 := by
        rw [abs_le]; constructor
        · linarith
        · rw [← hzt] at up; have : 0 ≤ 0.04045 * (t / 2) + 3e-8 := by positivity
          linarith
      calc (m : ℝ) * |curve (z / 12.92) - z| ≤ m * (0.04045 * (t / 2) + 3e-8) := mul_le_mul_of_nonneg_left this mpos.le
        _ = m * (0.04045 * t) / 2 + m * 3e-8 := by ring
        _ ≤ 1 / 2 / 2 + 65535 * 3e-8 := by
            have : (m : ℝ) * 3e-8 ≤ 65535 * 3e-8 := mul_le_mul_of_nonneg_right hmr (by norm_num)
            linarith
        _ < 1 / 2 := by norm_num
  · push Not at hc
    have hcr : ((nearbyint (0.04045 * m) : ℤ) : ℝ) + 1 ≤ q := by exact_mod_cast hc
    have hqm : 0.04045 * m + 1 / 2 ≤ (q : ℝ) := by linarith [hK.2]
    have zj : 0.04045 < z := by
      rw [hz, lt_div_iff₀ mpos]; linarith
    have e : ((q : ℝ) + 0.055 * m) / (m + 0.055 * m) = (z + 0.055) / 1.055 := by
      rw [hq]; field_simp; ring
    rw [e]
    have w0 : 0 ≤ (z + 0.055) / 1.055 := by positivity
    have w1 : (z + 0.055) / 1.055 ≤ 1 := by rw [div_le_one (by norm_num)]; linarith
    rw [srgb_clamped m (Real.rpow_nonneg w0 _) (Real.rpow_le_one w0 w1 (by norm_num))]
    rw [if_neg]
    · unfold curve
      rw [pow_root w0]
      have : (m : ℝ) * ((1 + 0.055) * ((z + 0.055) / 1.055) - 0.055) = (q : ℤ) := by rw [hq]; ring
      rw [this, nearbyint_int]
    · intro h
      have h5 := pow_le_pow_left₀ (Real.rpow_nonneg w0 _) h 5
      rw [pow_pow5 w0] at h5
      have : ((0.04045 + 0.055) / 1.055 : ℝ) ^ 12 ≤ ((z + 0.055) / 1.055) ^ 12 :=
        pow_le_pow_left₀ (by norm_num) (div_le_div_of_nonneg_right (by linarith) (by norm_num)) 12
      have : joint ^ 5 < ((0.04045 + 0.055) / 1.055 : ℝ) ^ 12 := by norm_num [joint]
      linarith

/-- **C26** The encoded value lies between 0 and the maximal value for every real number, however large. -/
theorem C26_range (m : Int) (hm : 0 ≤ m) (v : ℝ) : 0 ≤ srgb m v ∧ srgb m v ≤ m := by
  rw [srgb_eq]
  obtain ⟨u, hu⟩ : ∃ u : ℝ, u = min (max v 0) 1 := ⟨_, rfl⟩
  rw [← hu]
  have u0 : 0 ≤ u := by rw [hu]; exact le_min (le_max_right _ _) zero_le_one
  have u1 : u ≤ 1 := by rw [hu]; exact min_le_right _ _
  have mpos : (0 : ℝ) ≤ m := by exact_mod_cast hm
  have key : 0 ≤ (if u ≤ joint then u * 12.92 else curve u) ∧ (if u ≤ joint then u * 12.92 else curve u) ≤ 1 := by
    split_ifs with h
    · refine ⟨by positivity, ?_⟩
      have : u * 12.92 ≤ joint * 12.92 := mul_le_mul_of_nonneg_right h (by norm_num)
      refine this.trans ?_
      norm_num [joint]
    · push Not at h
      have a := curve_mono (by unfold joint; norm_num) h.le
      have b := curve_mono u0 u1
      rw [curve_one] at b
      exact ⟨by linarith [curve_joint], b⟩
  constructor
  · have := nearbyint_mono (show ((0 : ℤ) : ℝ) ≤ m * (if u ≤ joint then u * 12.92 else curve u) by
      push_cast; exact mul_nonneg mpos key.1)
    rwa [nearbyint_int] at this
  · have := nearbyint_mono (show m * (if u ≤ joint then u * 12.92 else curve u) ≤ ((m : ℤ) : ℝ) by
      exact mul_le_of_le_one_right mpos key.2)
    rwa [nearbyint_int] at this

/-- **C26** The encoding is monotone. -/
theorem C26_monotone (m : Int) (hm : 0 ≤ m) (hm' : m ≤ 255) {v w : ℝ} (h : v ≤ w) : srgb m v ≤ srgb m w := by
  rw [srgb_eq, srgb_eq]
  have huv : min (max v 0) 1 ≤ min (max w 0) 1 := min_le_min_right _ (max_le_max_right _ h)
  have u0 : 0 ≤ min (max v 0) 1 := le_min (le_max_right _ _) zero_le_one
  generalize min (max v 0) 1 = u at *
  generalize min (max w 0) 1 = x at *
  have mpos : (0 : ℝ) ≤ m := by exact_mod_cast hm
  have hmr : (m : ℝ) ≤ 255 := by exact_mod_cast hm'
  by_cases c1 : u ≤ joint
  · by_cases c2 : x ≤ joint
    · rw [if_pos c1, if_pos c2]
      exact nearbyint_mono (mul_le_mul_of_nonneg_left (by linarith) mpos)
    · rw [if_pos c1, if_neg c2]
      push Not at c2
      have a := curve_mono (by unfold joint; norm_num) c2.le
      have b := curve_joint
      -- the dip at the joint is too small to matter
      obtain ⟨n, n1, n2⟩ : ∃ n : ℤ, 20000 * n - 10000 + 24 ≤ 809 * m ∧ 809 * m ≤ 20000 * n + 10000 - 24 := by
        refine ⟨(809 * m + 10000) / 20000, ?_⟩
        have hc : ∀ k : Fin 256, 20000 * ((809 * (k.val : Int) + 10000) / 20000) - 10000 + 24 ≤ 809 * (k.val : Int) ∧
            809 * (k.val : Int) ≤ 20000 * ((809 * (k.val : Int) + 10000) / 20000) + 10000 - 24 := by decide +kernel
        have := hc ⟨m.toNat, by omega⟩
        simp only [Int.toNat_of_nonneg hm] at this
        exact this
      have n1r : (20000 : ℝ) * n - 10000 + 24 ≤ 809 * m := by exact_mod_cast n1
      have n2r : (809 : ℝ) * m ≤ 20000 * n + 10000 - 24 := by exact_mod_cast n2
      have r1 : nearbyint (m * (u * 12.92)) ≤ n := by
        have : nearbyint ((m : ℝ) * 0.04045) = n := by
          apply nearbyint_eq; rw [abs_lt]; constructor <;> linarith
        rw [← this]
        apply nearbyint_mono
        apply mul_le_mul_of_nonneg_left _ mpos
        have : u * 12.92 ≤ joint * 12.92 := mul_le_mul_of_nonneg_right c1 (by norm_num)
        refine this.trans (le_of_eq ?_)
        norm_num [joint]
      have r2 : n ≤ nearbyint (m * curve x) := by
        have : nearbyint ((m : ℝ) * (0.04045 - 3e-8)) = n := by
          apply nearbyint_eq; rw [abs_lt]; constructor <;> norm_num <;> linarith
        rw [← this]
        exact nearbyint_mono (mul_le_mul_of_nonneg_left (by linarith) mpos)
      exact r1.trans r2
  · push Not at c1
    rw [if_neg (by push Not; exact c1), if_neg (by push Not; linarith)]
    exact nearbyint_mono (mul_le_mul_of_nonneg_left (curve_mono u0 huv) mpos)

example : ∃ v w : ℝ, v < w ∧ srgb 255 v < srgb 255 w := by
  refine ⟨0, 1, by norm_num, ?_⟩
  rw [srgb_clamped _ (le_refl _) zero_le_one, srgb_clamped _ zero_le_one (le_refl _), if_pos (by norm_num [joint]), if_neg (by norm_num [joint]),
    curve_one]
  have a : nearbyint (((255 : ℤ) : ℝ) * 1) = 255 := by rw [mul_one]; exact nearbyint_int 255
  have b : nearbyint (((255 : ℤ) : ℝ) * (0 * 12.92)) = 0 := by rw [zero_mul, mul_zero]; exact_mod_cast nearbyint_int 0
  rw [a, b]; norm_num

namespace Pnm

theorem get_eq {data : List Byte} {pos : Nat} {b : Byte} (h : data[pos]? = some b) :
    get ⟨data, pos, true⟩ = ((b.toNat : Int), ⟨data, pos + 1, true⟩) := by
  simp only [get, IStream.get, h, if_true, Prod.mk.injEq, and_true]
  rw [BitVec.toInt_eq_toNat_of_lt]
  · simp [BitVec.toNat_setWidth]; omega
  · simp [BitVec.toNat_setWidth]; omega

/-- Samples per pixel. -/
def chans (mono : Bool) : Nat := if mono then 1 else 3

theorem reader_loop {α : Type} (lin : Int → α) (mono : Bool) (st : Nat) (hst : chans mono ≤ st) (data : List Byte) :
    ∀ (k i pos : Nat) (buf : List α), pos + k * chans mono ≤ data.length → (0 < k → st * (i + k - 1) + chans mono ≤ buf.length) →
      ∃ buf', Reader.loop lin mono st k i ⟨data, pos, true⟩ buf = .ok (⟨data, pos + k * chans mono, true⟩, buf') ∧ buf'.length = buf.length ∧
        (∀ a c, a < k → c < chans mono → buf'[st * (i + a) + c]? = (data[pos + a * chans mono + c]?).map (fun b => lin b.toNat)) ∧
        (∀ j, (∀ a c, a < k → c < chans mono → j ≠ st * (i + a) + c) → buf'[j]? = buf[j]?) := by
  intro k
  induction k with
  | zero => intro i pos buf _ _; exact ⟨buf, by simp [Reader.loop], rfl, by omega, fun _ _ => rfl⟩
  | succ k ih =>
    intro i pos buf hd hb
    have hb0 := hb (by omega)
    have hsi : st * i ≤ st * (i + (k + 1) - 1) := Nat.mul_le_mul_left _ (by omega)
    have hmul : (k + 1) * chans mono = k * chans mono + chans mono := by ring
    cases mono with
    | true =>
      simp only [show chans true = 1 from rfl] at *
      obtain ⟨b, hbb⟩ : ∃ b, data[pos]? = some b := ⟨data[pos], by rw [List.getElem?_eq_getElem]⟩
      obtain ⟨buf', e, hl, h1, h2⟩ := ih (i + 1) (pos + 1) (buf.set (st * i) (lin b.toNat)) (by omega)
        (by intro hk; rw [List.length_set]; rw [show i + 1 + k - 1 = i + (k + 1) - 1 by omega]; exact hb0)
      refine ⟨buf', ?_, by rw [hl, List.length_set], ?_, ?_⟩
      · unfold Reader.loop
        have hw : wr buf ((st : Int) * (i : Int)) (lin b.toNat) = .ok (buf.set (st * i) (lin b.toNat)) := by
          rw [← Nat.cast_mul]; exact wr_nat (by omega)
        simp only [if_true, get_eq hbb, hw, bind, Except.bind]
        rw [show ((i : Int) + 1) = ((i + 1 : Nat) : Int) by push_cast; rfl, e]
        congr 3; omega
      · intro a c ha hc
        obtain rfl : c = 0 := by omega
        cases a with
        | zero =>
          rw [h2]
          · simp only [Nat.add_zero, Nat.zero_mul]
            rw [List.getElem?_set_self (by omega), hbb]; rfl
          · intro a c _ _
            rw [Nat.add_zero i]
            have : st * i < st * (i + 1 + a) := Nat.mul_lt_mul_of_pos_left (by omega) (by omega)
            omega
        | succ a =>
          have := h1 a 0 (by omega) (by omega)
          rw [show i + (a + 1) = i + 1 + a by omega, this]
          congr 2; omega
      · intro j hj
        rw [h2 j (by intro a c ha hc; have := hj (a + 1) c (by omega) hc; rwa [show i + (a + 1) = i + 1 + a by omega] at this)]
        have := hj 0 0 (by omega) (by omega)
        simp only [Nat.add_zero] at this
        rw [List.getElem?_set_ne (by omega)]
    | false =>
      simp only [show chans false = 3 from rfl] at *
      obtain ⟨b0, hb0'⟩ : ∃ b, data[pos]? = some b := ⟨data[pos], by rw [List.getElem?_eq_getElem]⟩
      obtain ⟨b1, hb1'⟩ : ∃ b, data[pos + 1]? = some b := ⟨data[pos + 1], by rw [List.getElem?_eq_getElem]⟩
      obtain ⟨b2, hb2'⟩ : ∃ b, data[pos + 1 + 1]? = some b := ⟨data[pos + 1 + 1], by rw [List.getElem?_eq_getElem]⟩
      obtain ⟨buf', e, hl, h1, h2⟩ := ih (i + 1) (pos + 3)
        (((buf.set (st * i) (lin b0.toNat)).set (st * i + 1) (lin b1.toNat)).set (st * i + 2) (lin b2.toNat)) (by omega)
        (by intro hk; simp only [List.length_set]; rw [show i + 1 + k - 1 = i + (k + 1) - 1 by omega]; exact hb0)
      refine ⟨buf', ?_, by rw [hl]; simp, ?_, ?_⟩
      · unfold Reader.loop
        have w0 : wr buf ((st : Int) * (i : Int) + 0) (lin b0.toNat) = .ok (buf.set (st * i) (lin b0.toNat)) := by
          rw [add_zero, ← Nat.cast_mul]; exact wr_nat (by omega)
        have w1 : wr (buf.set (st * i) (lin b0.toNat)) ((st : Int) * (i : Int) + 1) (lin b1.toNat) =
            .ok ((buf.set (st * i) (lin b0.toNat)).set (st * i + 1) (lin b1.toNat)) := by
          rw [show ((st : Int) * (i : Int) + 1) = ((st * i + 1 : Nat) : Int) by push_cast; rfl]; exact wr_nat (by simp only [List.length_set]; omega)
        have w2 : wr ((buf.set (st * i) (lin b0.toNat)).set (st * i + 1) (lin b1.toNat)) ((st : Int) * (i : Int) + 2) (lin b2.toNat) =
            .ok (((buf.set (st * i) (lin b0.toNat)).set (st * i + 1) (lin b1.toNat)).set (st * i + 2) (lin b2.toNat)) := by
          rw [show ((st : Int) * (i : Int) + 2) = ((st * i + 2 : Nat) : Int) by push_cast; rfl]; exact wr_nat (by simp only [List.length_set]; omega)
        simp only [Bool.false_eq_true, if_false, get_eq hb0', get_eq hb1', get_eq hb2', w0, w1, w2, bind, Except.bind]
        rw [show ((i : Int) + 1) = ((i + 1 : Nat) : Int) by push_cast; rfl, show pos + 1 + 1 + 1 = pos + 3 by omega, e]
        congr 3; omega
      · intro a c ha hc
        cases a with
        | zero =>
          rw [h2]
          · simp only [Nat.add_zero, Nat.zero_mul]
            have hb0n : st * i + 3 ≤ buf.length := by omega
            rcases (by omega : c = 0 ∨ c = 1 ∨ c = 2) with rfl | rfl | rfl
            · rw [List.getElem?_set_ne (by omega), List.getElem?_set_ne (by omega), Nat.add_zero, List.getElem?_set_self (by omega), Nat.add_zero, hb0']
              rfl
            · rw [List.getElem?_set_ne (by omega), List.getElem?_set_self (by simp only [List.length_set]; omega), hb1']; rfl
            · rw [List.getElem?_set_self (by simp only [List.length_set]; omega), hb2']; rfl
          · intro a c' _ _
            rw [Nat.add_zero i]
            have : st * (i + 1) ≤ st * (i + 1 + a) := Nat.mul_le_mul_left _ (by omega)
            have : st * (i + 1) = st * i + st := by ring
            omega
        | succ a =>
          have := h1 a c (by omega) (by omega)
          rw [show i + (a + 1) = i + 1 + a by omega, this]
          congr 2; omega
      · intro j hj
        rw [h2 j (by intro a c ha hc; have := hj (a + 1) c (by omega) hc; rwa [show i + (a + 1) = i + 1 + a by omega] at this)]
        have j0 := hj 0 0 (by omega) (by omega)
        have j1 := hj 0 1 (by omega) (by omega)
        have j2 := hj 0 2 (by omega) (by omega)
        simp only [Nat.add_zero] at j0 j1 j2
        rw [List.getElem?_set_ne (by omega), List.getElem?_set_ne (by omega), List.getElem?_set_ne (by omega)]

theorem writer_loop {α : Type} (enc : α → Int) (mono : Bool) (st : Nat) (hst : chans mono ≤ st) (buf : List α) :
    ∀ (k i : Nat), (0 < k → st * (i + k - 1) + chans mono ≤ buf.length) →
      ∃ out, Writer.loop enc mono buf st k i = .ok out ∧ out.length = k * chans mono ∧
        (∀ a c, a < k → c < chans mono → out[a * chans mono + c]? = (buf[st * (i + a) + c]?).map (fun x => put (enc x))) := by
  intro k
  induction k with
  | zero => intro i _; exact ⟨[], rfl, by simp, by omega⟩
  | succ k ih =>
    intro i hb
    have hb0 := hb (by omega)
    have hsi : st * i ≤ st * (i + (k + 1) - 1) := Nat.mul_le_mul_left _ (by omega)
    obtain ⟨out, e, hl, h1⟩ := ih (i + 1) (by intro hk; rw [show i + 1 + k - 1 = i + (k + 1) - 1 by omega]; exact hb0)
    have e' : Writer.loop enc mono buf st k ((i : Int) + 1) = .ok out := by
      rw [show ((i : Int) + 1) = ((i + 1 : Nat) : Int) by push_cast; rfl]; exact e
    cases mono with
    | true =>
      simp only [show chans true = 1 from rfl] at *
      have r0 : rd buf ((st : Int) * (i : Int)) = .ok (buf[st * i]'(by omega)) := by rw [← Nat.cast_mul]; exact rd_nat (by omega)
      refine ⟨put (enc (buf[st * i]'(by omega))) :: out, ?_, by simp [hl], ?_⟩
      · unfold Writer.loop
        simp only [if_true, r0, e', bind, Except.bind, pure, Except.pure]
      · intro a c ha hc
        obtain rfl : c = 0 := by omega
        cases a with
        | zero => simp; rw [List.getElem?_eq_getElem (by omega)]; simp
        | succ a =>
          have := h1 a 0 (by omega) (by omega)
          rw [show i + (a + 1) = i + 1 + a by omega, ← this]
          simp
    | false =>
      simp only [show chans false = 3 from rfl] at *
      have r0 : rd buf ((st : Int) * (i : Int) + 0) = .ok (buf[st * i]'(by omega)) := by rw [add_zero, ← Nat.cast_mul]; exact rd_nat (by omega)
      have r1 : rd buf ((st : Int) * (i : Int) + 1) = .ok (buf[st * i + 1]'(by omega)) := by
        rw [show ((st : Int) * (i : Int) + 1) = ((st * i + 1 : Nat) : Int) by push_cast; rfl]; exact rd_nat (by omega)
      have r2 : rd buf ((st : Int) * (i : Int) + 2) = .ok (buf[st * i + 2]'(by omega)) := by
        rw [show ((st : Int) * (i : Int) + 2) = ((st * i + 2 : Nat) : Int) by push_cast; rfl]; exact rd_nat (by omega)
      refine ⟨put (enc (buf[st * i]'(by omega))) :: put (enc (buf[st * i + 1]'(by omega))) :: put (enc (buf[st * i + 2]'(by omega))) :: out, ?_,
        by simp [hl]; ring, ?_⟩
      · unfold Writer.loop
        simp only [Bool.false_eq_true, if_false, r0, r1, r2, e', bind, Except.bind, pure, Except.pure]
      · intro a c ha hc
        cases a with
        | zero =>
          rcases (by omega : c = 0 ∨ c = 1 ∨ c = 2) with rfl | rfl | rfl <;> simp <;> rw [List.getElem?_eq_getElem (by omega)] <;> simp
        | succ a =>
          have := h1 a c (by omega) (by omega)
          rw [show i + (a + 1) = i + 1 + a by omega, ← this, show (a + 1) * 3 + c = a * 3 + c + 1 + 1 + 1 by ring]
          simp

end Pnm

/-- **C26** `read`: pixel `a`, component `c` comes from byte `a * chans + c` and goes to `stride * a + c`; everything else in the buffer
is left alone and the stream advances by `chans` bytes per pixel. A negative stride means densely packed. -/
theorem C26_read {α : Type} (lin : Int → Int → α) {mono : Bool} {w h : Option Int} {maxval : Int} {data : List Byte} {pos num : Nat} {stride : Int}
    (hs : stride < 0 ∨ (chans mono : Int) ≤ stride) (hd : pos + num * chans mono ≤ data.length) (buf : List α)
    (hb : 0 < num → (if stride < 0 then chans mono else stride.toNat) * (num - 1) + chans mono ≤ buf.length) :
    ∃ buf', (Reader.mk ⟨data, pos, true⟩ (some mono) w h (some maxval)).read lin buf num stride =
        .ok (⟨⟨data, pos + num * chans mono, true⟩, some mono, w, h, some maxval⟩, buf') ∧ buf'.length = buf.length ∧
      (∀ a c, a < num → c < chans mono →
        buf'[(if stride < 0 then chans mono else stride.toNat) * a + c]? = (data[pos + a * chans mono + c]?).map (fun b => lin maxval b.toNat)) ∧
      (∀ j, (∀ a c, a < num → c < chans mono → j ≠ (if stride < 0 then chans mono else stride.toNat) * a + c) → buf'[j]? = buf[j]?) := by
  obtain ⟨st, hst⟩ : ∃ st : Nat, st = if stride < 0 then chans mono else stride.toNat := ⟨_, rfl⟩
  rw [← hst] at hb ⊢
  have hsi : (if stride < 0 then (if mono then 1 else 3) else stride) = (st : Int) := by
    rw [hst]; split_ifs with h1 h2
    · simp [chans, h2]
    · simp [chans, h2]
    · omega
  have hle : chans mono ≤ st := by rw [hst]; split_ifs <;> omega
  rcases Nat.eq_zero_or_pos num with rfl | hn
  · refine ⟨buf, ?_, rfl, by omega, fun _ _ => rfl⟩
    simp [Reader.read, get!, M.ite, bind, Except.bind, Reader.loop, pure, Except.pure]
  obtain ⟨buf', e, hl, h1, h2⟩ := reader_loop (lin maxval) mono st hle data num 0 pos buf hd (by simpa using hb)
  refine ⟨buf', ?_, hl, by simpa using h1, by simpa using h2⟩
  have hm : ¬ (num : Int) ≤ 0 := by omega
  simp only [Reader.read, get!, M.ite, hm, decide_false, Bool.false_eq_true, if_false, bind, Except.bind, hsi, Int.toNat_natCast, pure, Except.pure]
  rw [show ((0 : Int)) = ((0 : Nat) : Int) from rfl, e]

/-- **C26** `write`: byte `a * chans + c` of the output is the code of the sample at `stride * a + c`. -/
theorem C26_write {α : Type} (enc : Int → α → Int) (w : Writer) {num : Nat} {stride : Int}
    (hs : stride < 0 ∨ (chans w.mono : Int) ≤ stride) (buf : List α)
    (hb : 0 < num → (if stride < 0 then chans w.mono else stride.toNat) * (num - 1) + chans w.mono ≤ buf.length) :
    ∃ out, w.write enc buf num stride = .ok out ∧ out.length = num * chans w.mono ∧
      (∀ a c, a < num → c < chans w.mono →
        out[a * chans w.mono + c]? = (buf[(if stride < 0 then chans w.mono else stride.toNat) * a + c]?).map (fun x => put (enc w.maxval x))) := by
  obtain ⟨st, hst⟩ : ∃ st : Nat, st = if stride < 0 then chans w.mono else stride.toNat := ⟨_, rfl⟩
  rw [← hst] at hb ⊢
  have hsi : (if stride < 0 then (if w.mono then 1 else 3) else stride) = (st : Int) := by
    rw [hst]; split_ifs with h1 h2
    · simp [chans, h2]
    · simp [chans, h2]
    · omega
  have hle : chans w.mono ≤ st := by rw [hst]; split_ifs <;> omega
  obtain ⟨out, e, hl, h1⟩ := writer_loop (enc w.maxval) w.mono st hle buf num 0 (by simpa using hb)
  refine ⟨out, ?_, hl, by simpa using h1⟩
  simp only [Writer.write, hsi, Int.toNat_natCast]
  rw [show ((0 : Int)) = ((0 : Nat) : Int) from rfl, e]

/-- **C26** Copying an image: whatever file with codes up to `maxval` `ReadPNM` reads with any stride, `WritePNM` with the same
maximal value writes the same bytes. -/
theorem C26_copy {mono : Bool} {w h : Option Int} {maxval : Nat} (hm : 1 ≤ maxval) (hm' : maxval ≤ 255) {data : List Byte} {pos num : Nat}
    {stride : Int} (hs : stride < 0 ∨ (chans mono : Int) ≤ stride) (hd : pos + num * chans mono ≤ data.length)
    (hcodes : ∀ b ∈ (data.drop pos).take (num * chans mono), b.toNat ≤ maxval) (buf : List ℝ)
    (hb : 0 < num → (if stride < 0 then chans mono else stride.toNat) * (num - 1) + chans mono ≤ buf.length) (w' h' : Int) :
    ∃ r buf', (Reader.mk ⟨data, pos, true⟩ (some mono) w h (some maxval)).read linear buf num stride = .ok (r, buf') ∧
      (Writer.mk w' h' maxval mono).write srgb buf' num stride = .ok ((data.drop pos).take (num * chans mono)) := by
  obtain ⟨buf', e, hl, h1, _⟩ := C26_read linear (w := w) (h := h) (maxval := maxval) hs hd buf hb
  obtain ⟨out, e2, hl2, h2⟩ := C26_write srgb (Writer.mk w' h' maxval mono) hs buf' (by rw [hl]; exact hb)
  refine ⟨_, buf', e, ?_⟩
  rw [e2]
  congr 1
  apply List.ext_getElem?
  intro j
  by_cases hj : j < num * chans mono
  · have hch : 0 < chans mono := by cases mono <;> simp [chans]
    have ha : j / chans mono < num := Nat.div_lt_of_lt_mul (by rw [mul_comm]; exact hj)
    have hc : j % chans mono < chans mono := Nat.mod_lt _ hch
    have hjd : j / chans mono * chans mono + j % chans mono = j := Nat.div_add_mod' j _
    have := h2 (j / chans mono) (j % chans mono) ha hc
    simp only [hjd] at this
    rw [this, h1 _ _ ha hc]
    rw [show pos + j / chans mono * chans mono + j % chans mono = pos + j by omega]
    rw [List.getElem?_take_of_lt hj, List.getElem?_drop]
    have hlt : pos + j < data.length := by omega
    rw [List.getElem?_eq_getElem hlt]
    simp only [Option.map_some]
    congr 1
    have hmem : data[pos + j] ∈ (data.drop pos).take (num * chans mono) := by
      apply List.mem_of_getElem? (i := j)
      rw [List.getElem?_take_of_lt hj, List.getElem?_drop, List.getElem?_eq_getElem hlt]
    have hq := hcodes _ hmem
    rw [C26_codes _ _ (by exact_mod_cast hm) (by omega) (by omega) (by exact_mod_cast hq)]
    unfold put
    apply BitVec.eq_of_toNat_eq
    rw [BitVec.toNat_ofInt]
    have := data[pos + j].isLt
    omega
  · rw [List.getElem?_eq_none (by rw [hl2]; push Not at hj; exact hj), List.getElem?_eq_none (by simp; omega)]

/-- A two pixel colour image with maximal value 7, read with stride 4. -/
example : ∃ r buf', (Reader.mk ⟨[80, 1, 2, 3, 4, 5, 7], 1, true⟩ (some false) none none (some ((7 : Nat) : Int))).read linear (List.replicate 7 0) (2 : Nat) 4 = .ok (r, buf') ∧
    (Writer.mk 2 1 (7 : Nat) false).write srgb buf' (2 : Nat) 4 = .ok [1, 2, 3, 4, 5, 7] :=
  C26_copy (mono := false) (by decide) (by decide) (.inr (by decide)) (by decide) (by decide) _ (by simp [chans]) 2 1

/-- Finding: with a maximal value above 255 `write` stores the low byte of a code only: white becomes byte 1 for `maxval = 257`. -/
theorem C26_wide_truncated : ∃ v : ℝ, srgb 257 v = 257 ∧ put (srgb 257 v) = 1 := by
  have : srgb 257 1 = 257 := by
    rw [srgb_clamped _ zero_le_one (le_refl _), if_neg (by norm_num [joint]), curve_one, mul_one]
    exact_mod_cast nearbyint_int 257
  exact ⟨1, this, by rw [this]; decide⟩

end DSP
