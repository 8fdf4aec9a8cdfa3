import Verif.Props.RegressionError

/-!
# Where the regression line crosses zero, in floating point (C125)
-/

namespace DSP
namespace Regression

open Spec Finset

variable {p : ℕ} [NeZero p]

/-- The crossing `m - g·V/C`, when each of the four numbers has an error and every operation rounds. -/
theorem crossing_real (u A Y em eg ev ec m m' g g' v V c C w r d : ℝ) (hu0 : 0 ≤ u) (hu : u ≤ 1 / 1000) (hY : 0 ≤ Y) (hV : 0 < V) (hC : C ≠ 0) (heg0 : 0 ≤ eg) (heg : eg ≤ 0.07) (hev0 : 0 ≤ ev) (hev : ev ≤ 0.07) (hec0 : 0 ≤ ec) (hec : ec ≤ 0.07)
    (hm : |m| ≤ A) (hm' : |m' - m| ≤ em) (hg : |g| ≤ Y) (hg' : |g' - g| ≤ eg * Y) (hv : |v - V| ≤ ev * V) (hc : |c - C| ≤ ec * |C|) (hw : |w - g' * v| ≤ u * |g' * v|) (hr : c ≠ 0 → |r - w / c| ≤ u * |w / c|) (hd : |d - (m' - r)| ≤ u * |m' - r|) :
    c ≠ 0 ∧ |d - (m - g * V / C)| ≤ em * (1 + u) + u * A + Y * (V / |C|) * (1.16 * eg + 1.08 * ev + 1.08 * ec + 3.8 * u) := by
  have hC0 : 0 < |C| := abs_pos.mpr hC
  have c1 : 0.93 * |C| ≤ |c| := by
    have := abs_sub_abs_le_abs_sub C c
    rw [abs_sub_comm] at this
    nlinarith
  have c0 : 0 < |c| := by linarith
  have hc0 : c ≠ 0 := abs_pos.mp c0
  refine ⟨hc0, ?_⟩
  have hr := hr hc0
  have hYV : 0 ≤ Y * V := by positivity
  -- the mean and the variance
  have v1 : |v| ≤ 1.07 * V := by
    have := abs_sub_abs_le_abs_sub v V
    rw [abs_of_pos hV] at this
    nlinarith
  have g1 : |g'| ≤ 1.07 * Y := by
    have := abs_sub_abs_le_abs_sub g' g
    nlinarith
  have p1 : |g' * v - g * V| ≤ (1.07 * eg + ev) * (Y * V) := by
    rw [show g' * v - g * V = (g' - g) * v + g * (v - V) by ring]
    refine (abs_add_le _ _).trans ?_
    rw [abs_mul, abs_mul]
    calc _ ≤ eg * Y * (1.07 * V) + Y * (ev * V) := add_le_add (mul_le_mul hg' v1 (abs_nonneg _) (by positivity)) (mul_le_mul hg hv (abs_nonneg _) hY)
      _ = _ := by ring
  have p2 : |g' * v| ≤ 1.1449 * (Y * V) := by
    rw [abs_mul]
    calc _ ≤ 1.07 * Y * (1.07 * V) := mul_le_mul g1 v1 (abs_nonneg _) (by positivity)
      _ = _ := by ring
  have p3 : u * |g' * v| ≤ 1.1449 * u * (Y * V) := (mul_le_mul_of_nonneg_left p2 hu0).trans (le_of_eq (by ring))
  have w1 : |w - g * V| ≤ (1.07 * eg + ev + 1.1449 * u) * (Y * V) := by
    refine (abs_sub_le w (g' * v) (g * V)).trans ?_
    linarith
  have w2 : |w| ≤ 1.15 * (Y * V) := by
    have := abs_sub_abs_le_abs_sub w (g' * v)
    have : 1.1449 * u * (Y * V) ≤ 0.002 * (Y * V) := mul_le_mul_of_nonneg_right (by linarith) hYV
    linarith
  set Q := Y * (V / |C|) with hQ
  have hQ0 : 0 ≤ Q := by positivity
  have eQ : Y * V = Q * |C| := by rw [hQ]; field_simp
  -- the quotient
  have q1 : |w / c| ≤ 1.25 * Q := by
    rw [abs_div, div_le_iff₀ c0]
    calc |w| ≤ 1.15 * (Q * |C|) := by rw [← eQ]; exact w2
      _ ≤ 1.25 * Q * (0.93 * |C|) := by nlinarith [mul_nonneg hQ0 hC0.le]
      _ ≤ _ := mul_le_mul_of_nonneg_left c1 (by positivity)
  have t1 : |g * V / C| ≤ Q := by
    rw [abs_div, div_le_iff₀ hC0, ← eQ, abs_mul, abs_of_pos hV]
    exact mul_le_mul_of_nonneg_right hg hV.le
  have q2 : |w / c - g * V / C| ≤ 1.08 * (1.07 * eg + ev + 1.1449 * u + ec) * Q := by
    have e : w / c - g * V / C = ((w - g * V) - g * V / C * (c - C)) / c := by field_simp; ring
    rw [e, abs_div, div_le_iff₀ c0]
    calc _ ≤ |w - g * V| + |g * V / C * (c - C)| := abs_sub _ _
      _ ≤ (1.07 * eg + ev + 1.1449 * u) * (Q * |C|) + Q * (ec * |C|) := by
        rw [abs_mul, ← eQ]
        exact add_le_add w1 (mul_le_mul t1 hc (abs_nonneg _) hQ0)
      _ = (1.07 * eg + ev + 1.1449 * u + ec) * (Q * |C|) := by ring
      _ ≤ (1.07 * eg + ev + 1.1449 * u + ec) * (1.0044 * (Q * |C|)) := by
        refine mul_le_mul_of_nonneg_left ?_ (by positivity)
        nlinarith [mul_nonneg hQ0 hC0.le]
      _ = 1.08 * (1.07 * eg + ev + 1.1449 * u + ec) * Q * (0.93 * |C|) := by ring
      _ ≤ _ := mul_le_mul_of_nonneg_left c1 (by positivity)
  have q3 : u * |w / c| ≤ 1.25 * u * Q := (mul_le_mul_of_nonneg_left q1 hu0).trans (le_of_eq (by ring))
  have r1 : |r - g * V / C| ≤ (1.08 * (1.07 * eg + ev + 1.1449 * u + ec) + 1.25 * u) * Q := by
    refine (abs_sub_le r (w / c) _).trans ?_
    linarith
  have r2 : |r| ≤ 1.26 * Q := by
    have := abs_sub_abs_le_abs_sub r (w / c)
    have : 1.25 * u * Q ≤ 0.002 * Q := mul_le_mul_of_nonneg_right (by linarith) hQ0
    linarith
  -- the difference
  have m1 : |m' - r| ≤ A + em + 1.26 * Q := by
    have h1 := abs_sub_abs_le_abs_sub m' m
    have h2 := abs_sub m' r
    linarith
  have m2 := mul_le_mul_of_nonneg_left m1 hu0
  calc |d - (m - g * V / C)| = |(d - (m' - r)) + (m' - m) - (r - g * V / C)| := by ring_nf
    _ ≤ |d - (m' - r)| + |m' - m| + |r - g * V / C| := (abs_sub _ _).trans (add_le_add (abs_add_le _ _) le_rfl)
    _ ≤ u * (A + em + 1.26 * Q) + em + (1.08 * (1.07 * eg + ev + 1.1449 * u + ec) + 1.25 * u) * Q := by linarith
    _ = em * (1 + u) + u * A + Q * (1.1556 * eg + 1.08 * ev + 1.08 * ec + 3.746492 * u) := by ring
    _ ≤ _ := by
      have : Q * (1.1556 * eg + 1.08 * ev + 1.08 * ec + 3.746492 * u) ≤ Q * (1.16 * eg + 1.08 * ev + 1.08 * ec + 3.8 * u) := mul_le_mul_of_nonneg_left (by linarith) hQ0
      linarith

theorem uniform_bound (u L A Y t S : ℝ) (hu0 : 0 ≤ u) (hu : u ≤ 1 / 1000) (hL : 2 ≤ L) (hA : 0 ≤ A) (hY : 0 ≤ Y) (hS : 0 < S) (hst : S ≤ 4.05 * t) :
    2.2 * u * A * (1 + u) + u * A + Y * (1 / S) * (1.16 * (1.1 * (L + 1) * u) + 1.08 * (1.1 * (L + 3) * u) + 1.08 * (35.6 * u * (t / S)) + 3.8 * u) ≤ u * (4 * A + Y / S * (3 * L + 75 * (t / S))) := by
  have hr : 1 ≤ 4.05 * (t / S) := by rw [← mul_div_assoc, le_div_iff₀ hS]; linarith
  have hYS : 0 ≤ Y * (1 / S) := by positivity
  have h1 : 2.2 * u * A * (1 + u) + u * A ≤ u * (4 * A) := by
    have : 0 ≤ u * A := by positivity
    nlinarith [mul_le_mul_of_nonneg_left hu this]
  have h2 : (1.16 * (1.1 * (L + 1) * u) + 1.08 * (1.1 * (L + 3) * u) + 1.08 * (35.6 * u * (t / S)) + 3.8 * u) ≤ u * (3 * L + 75 * (t / S)) := by
    have : 2.464 * L + 8.64 + 38.448 * (t / S) ≤ 3 * L + 75 * (t / S) := by linarith
    have := mul_le_mul_of_nonneg_left this hu0
    linarith
  have h3 := mul_le_mul_of_nonneg_left h2 hYS
  have : Y * (1 / S) * (u * (3 * L + 75 * (t / S))) = u * (Y / S * (3 * L + 75 * (t / S))) := by ring
  linarith

set_option maxHeartbeats 1000000 in
/-- **C125** Where the line crosses zero, on a uniform grid in floating point. Let `S` be the size of the slope of the exact line. If `Y` is at most `1/520` of `2^p·|dx|·S`, that is if the samples do not drown the slope, the
crossing is within `4(|x0| + |dx|(l-1)/2) + Y/S·(3l + 75·Y/(|dx|·S))` units of rounding of the exact one. -/
theorem C125_uniform (hp : 10 ≤ p) (y : ℕ → Binary p) (L : ℕ) (hL : 2 ≤ L) (hLp : 20 * (L + 2) ≤ 2 ^ p) (Y : ℝ) (hY : ∀ j < L, |((y j).val : ℝ)| ≤ Y) (x0 dx : Binary p) (hdx : dx.val ≠ 0) :
    ∃ f F, uniform ((List.range L).map y) L x0 dx = .ok f ∧ uniform ((List.range L).map fun j => ((y j).val : ℝ)) L (x0.val : ℝ) (dx.val : ℝ) = .ok F ∧
      (F.slope ≠ 0 → 520 * (Y / |(dx.val : ℝ)|) ≤ 2 ^ p * |F.slope| →
        |(f.xint.val : ℝ) - F.xint| ≤ 1 / 2 ^ p * (4 * (|(x0.val : ℝ)| + |(dx.val : ℝ)| * ((L - 1) / 2)) + Y / |F.slope| * (3 * L + 75 * (Y / |(dx.val : ℝ)| / |F.slope|)))) := by
  have hR := binary_roundedField p
  have hu := Win.unit_small p hp
  have hu0 : (0 : ℝ) ≤ 1 / 2 ^ p := by positivity
  have hL' : (2 : ℝ) ≤ L := by exact_mod_cast hL
  have hL0 : (0 : ℝ) < L := by linarith
  have hLu : 20 * ((L : ℝ) + 2) * (1 / 2 ^ p) ≤ 1 := by
    rw [mul_one_div, div_le_one (by positivity)]
    exact_mod_cast hLp
  have hLp' : L < 2 ^ p := by omega
  have hY0 : 0 ≤ Y := (abs_nonneg _).trans (hY 0 (by omega))
  have hdx' : (dx.val : ℝ) ≠ 0 := by exact_mod_cast hdx
  have hdx0 : 0 < |(dx.val : ℝ)| := abs_pos.mpr hdx'
  refine ⟨_, _, uniform_eq y L x0 dx, uniform_eq _ L _ _, ?_⟩
  simp only [finish]
  -- the rounded values
  set mid : Binary p := (((L : ℤ) - 1 : ℤ) : Binary p) / 2 with hmid
  set g' : Binary p := sumTo y L / ((L : ℤ) : Binary p) with hg'
  set g : ℝ := (∑ j ∈ range L, ((y j).val : ℝ)) / L with hg
  have eg : sumTo (fun j => ((y j).val : ℝ)) L / (((L : ℤ)) : ℝ) = g := by rw [sumTo_real, Int.cast_natCast]
  have emid : ((((L : ℤ) - 1 : ℤ) : ℝ) / 2) = ((L : ℝ) - 1) / 2 := by push_cast; ring
  rw [eg, emid]
  simp only [Int.cast_natCast]
  rw [sumTo_real, sumTo_real]
  have hgR : RelS (1 / 2 ^ p) (L + 1) (g'.val : ℝ) g Y := mean_relS y L (by omega) hLp' Y hY
  have hd : ∀ j < L, Rel (1 / 2 ^ p) 1 ((dx * (((j : ℤ) : Binary p) - mid) : Binary p).val : ℝ) (dx.val * off L j) := by
    intro j hj
    have := hR.mul dx (((j : ℤ) : Binary p) - mid)
    rw [off_exact L j hj hLp' (by omega)] at this
    unfold Rel
    rw [pow_one, add_sub_cancel_left]
    exact this
  have hv := sumTo_relS (fun j => (dx * (((j : ℤ) : Binary p) - mid)) * (dx * (((j : ℤ) : Binary p) - mid))) (fun j => dx.val * off L j * (dx.val * off L j)) (fun j => |(dx.val : ℝ) * off L j| * |(dx.val : ℝ) * off L j|) 3 L
    (fun j hj => RelS.mul hu0 ((hd j hj).sized hu0 le_rfl le_rfl) ((hd j hj).sized hu0 le_rfl le_rfl) (hR.mul _ _))
  have hyg : ∀ j < L, RelS (1 / 2 ^ p) (L + 1 + 1) ((y j - g' : Binary p).val : ℝ) ((y j).val - g) (Y + Y) := fun j hj =>
    RelS.sub hu0 ((Rel.refl _ _).sized hu0 (Nat.zero_le _) (hY j hj)) hgR (hR.sub _ _)
  have hc := sumTo_relS (fun j => (dx * (((j : ℤ) : Binary p) - mid)) * (y j - g')) (fun j => dx.val * off L j * ((y j).val - g)) (fun j => |(dx.val : ℝ) * off L j| * (Y + Y)) (1 + (L + 1 + 1) + 1) L
    (fun j hj => RelS.mul hu0 ((hd j hj).sized hu0 le_rfl le_rfl) (hyg j hj) (hR.mul _ _))
  set v : Binary p := sumTo (fun j => (dx * (((j : ℤ) : Binary p) - mid)) * (dx * (((j : ℤ) : Binary p) - mid))) L with hvd
  set c : Binary p := sumTo (fun j => (dx * (((j : ℤ) : Binary p) - mid)) * (y j - g')) L with hcd
  set S2 := ∑ j ∈ range L, off L j * off L j with hS2
  set S1 := ∑ j ∈ range L, |off L j| with hS1
  have hS20 : 0 < S2 := by rw [hS2, sum_off_sq]; nlinarith [mul_pos hL0 hL0]
  have ev : ∑ j ∈ range L, |(dx.val : ℝ) * off L j| * |(dx.val : ℝ) * off L j| = dx.val * dx.val * S2 := by
    rw [hS2, mul_sum]; refine sum_congr rfl fun j _ => ?_; rw [abs_mul_abs_self]; ring
  have ev' : ∑ j ∈ range L, (dx.val : ℝ) * off L j * (dx.val * off L j) = dx.val * dx.val * S2 := by
    rw [hS2, mul_sum]; refine sum_congr rfl fun j _ => ?_; ring
  have ec : ∑ j ∈ range L, |(dx.val : ℝ) * off L j| * (Y + Y) = 2 * Y * |(dx.val : ℝ)| * S1 := by
    rw [hS1, mul_sum]; refine sum_congr rfl fun j _ => ?_; rw [abs_mul]; ring
  rw [ev, ev'] at hv
  rw [ec] at hc
  have pv := pow_units (1 / 2 ^ p) hu0 (3 + L) (by push_cast; linarith)
  have pc := pow_units (1 / 2 ^ p) hu0 (1 + (L + 1 + 1) + 1 + L) (by push_cast; linarith)
  have pg := pow_units (1 / 2 ^ p) hu0 (L + 1) (by push_cast; linarith)
  push_cast at pv pc pg
  have hV0 : 0 ≤ (dx.val : ℝ) * dx.val * S2 := mul_nonneg (mul_self_nonneg _) hS20.le
  have hC0 : 0 ≤ 2 * Y * |(dx.val : ℝ)| * S1 := by
    have : 0 ≤ S1 := sum_nonneg fun _ _ => abs_nonneg _
    positivity
  set C := ∑ j ∈ range L, (dx.val : ℝ) * off L j * ((y j).val - g) with hC
  have eC : ∑ x ∈ range L, (dx.val : ℝ) * ((x : ℝ) - ((L : ℝ) - 1) / 2) * ((y x).val - g) = C := rfl
  have eV : ∑ x ∈ range L, (dx.val : ℝ) * ((x : ℝ) - ((L : ℝ) - 1) / 2) * (dx.val * ((x : ℝ) - ((L : ℝ) - 1) / 2)) = dx.val * dx.val * S2 := ev'
  simp only [eC, eV]
  have hmidv : (mid.val : ℝ) = ((L : ℝ) - 1) / 2 := by
    have := off_exact (p := p) L 0 (by omega) hLp' (by omega)
    have h0 : (((0 : ℕ) : ℤ) : Binary p) - mid = (((0 : ℤ)) : Binary p) - mid := rfl
    have h1 : ((((0 : ℕ) : ℤ) : Binary p) - mid : Binary p).val = -mid.val := by
      show Binary.round p ((((0 : ℕ) : ℤ) : Binary p).val - mid.val) = _
      rw [show (((0 : ℕ) : ℤ) : Binary p).val = 0 from Binary.cast_exact p 0 (by simp)]
      rw [zero_sub]
      exact Binary.round_self (-mid)
    rw [h1, off] at this
    push_cast at this
    linarith
  have hm : RelS (1 / 2 ^ p) 2 ((x0 + dx * mid : Binary p).val : ℝ) (x0.val + dx.val * (((L : ℝ) - 1) / 2)) (|(x0.val : ℝ)| + |(dx.val : ℝ)| * (((L : ℝ) - 1) / 2)) := by
    have h1 : RelS (1 / 2 ^ p) 1 ((dx * mid : Binary p).val : ℝ) (dx.val * (((L : ℝ) - 1) / 2)) (|(dx.val : ℝ)| * (((L : ℝ) - 1) / 2)) :=
      RelS.mul hu0 ((Rel.refl _ _).sized hu0 le_rfl le_rfl) ((Rel.refl _ (((L : ℝ) - 1) / 2)).sized hu0 le_rfl (le_of_eq (abs_of_nonneg (by linarith)))) (by rw [← hmidv]; exact hR.mul dx mid)
    exact RelS.add hu0 ((Rel.refl _ _).sized hu0 (by norm_num) le_rfl) h1 (hR.add _ _)
  have hV1 : 0 < (dx.val : ℝ) * dx.val * S2 := mul_pos (mul_self_pos.mpr hdx') hS20
  set V := (dx.val : ℝ) * dx.val * S2 with hVd
  set A := |(x0.val : ℝ)| + |(dx.val : ℝ)| * (((L : ℝ) - 1) / 2) with hA
  intro hS hcond
  have hS0 : 0 < |C / V| := abs_pos.mpr hS
  have hCn : C ≠ 0 := fun h => hS (by rw [h, zero_div])
  have hA0 : 0 ≤ A := (abs_nonneg _).trans hm.2
  obtain ⟨-, k1, -⟩ := uniform_slope (1 / 2 ^ p) L Y dx.val S1 S2 c.val C v.val (c / v).val hu0 hL' hLu hY0 hdx' hS20 (sum_off_abs L hL)
    (hv.1.trans (mul_le_mul_of_nonneg_right (by linarith) hV0)) (hc.1.trans (mul_le_mul_of_nonneg_right (by linarith) hC0)) hc.2 (fun h => hR.div c v h)
  rw [← hVd] at k1
  have hYh : 0 ≤ Y / |(dx.val : ℝ)| := by positivity
  set t := Y / |(dx.val : ℝ)| with ht
  set S := |C / V| with hSd
  have eC' : |C| = S * V := by rw [hSd, abs_div, abs_of_pos hV1]; field_simp
  have hcond' : 520 * t * (1 / 2 ^ p) ≤ S := by
    rw [mul_one_div, div_le_iff₀ (by positivity)]; linarith
  -- the covariance
  have hcC : |(c.val : ℝ) - C| ≤ 35.6 * (1 / 2 ^ p) * (t / S) * |C| := by
    have h1 : |(c.val : ℝ) - C| ≤ 1.1 * (2 * L + 4) * (1 / 2 ^ p) * (2 * Y * |(dx.val : ℝ)| * S1) := hc.1.trans (mul_le_mul_of_nonneg_right (by linarith) hC0)
    have h2 : 2 * Y * |(dx.val : ℝ)| * S1 ≤ 8.08 / L * t * V := by
      calc 2 * Y * |(dx.val : ℝ)| * S1 ≤ 2 * Y * |(dx.val : ℝ)| * (4.04 / L * S2) := mul_le_mul_of_nonneg_left (sum_off_abs L hL) (by positivity)
        _ = _ := by rw [hVd, ht, ← abs_mul_abs_self (dx.val : ℝ)]; field_simp; ring
    have h3 : 1.1 * (2 * (L : ℝ) + 4) * (8.08 / L) ≤ 35.6 := by
      rw [← mul_div_assoc, div_le_iff₀ hL0]; linarith
    calc _ ≤ 1.1 * (2 * L + 4) * (1 / 2 ^ p) * (8.08 / L * t * V) := h1.trans (mul_le_mul_of_nonneg_left h2 (by positivity))
      _ = (1.1 * (2 * (L : ℝ) + 4) * (8.08 / L)) * ((1 / 2 ^ p) * t * V) := by ring
      _ ≤ 35.6 * ((1 / 2 ^ p) * t * V) := mul_le_mul_of_nonneg_right h3 (by positivity)
      _ = _ := by rw [eC']; field_simp
  have hm2 : |((x0 + dx * mid : Binary p).val : ℝ) - (x0.val + dx.val * (((L : ℝ) - 1) / 2))| ≤ 2.2 * (1 / 2 ^ p) * A := by
    have pm := pow_units (1 / 2 ^ p) hu0 2 (by push_cast; linarith)
    push_cast at pm
    exact hm.1.trans (mul_le_mul_of_nonneg_right (by linarith) hA0)
  have hts : t / S * (520 * (1 / 2 ^ p)) ≤ 1 := by rw [div_mul_eq_mul_div, div_le_one hS0]; linarith
  have hts0 : 0 ≤ t / S := by positivity
  have hlu : (L + 2) * (1 / 2 ^ p : ℝ) ≤ 1 / 20 := by linarith
  obtain ⟨-, h⟩ := crossing_real (1 / 2 ^ p) A Y (2.2 * (1 / 2 ^ p) * A) (1.1 * (L + 1) * (1 / 2 ^ p)) (1.1 * (L + 3) * (1 / 2 ^ p)) (35.6 * (1 / 2 ^ p) * (t / S)) (x0.val + dx.val * (((L : ℝ) - 1) / 2)) (x0 + dx * mid : Binary p).val g g'.val v.val V c.val C
    (g' * v).val (g' * v / c).val (x0 + dx * mid - g' * v / c).val hu0 hu hY0 hV1 hCn (by positivity) (by linarith) (by positivity) (by linarith) (by positivity) (by linarith) hm.2 hm2 hgR.2
    (hgR.1.trans (mul_le_mul_of_nonneg_right (by linarith) hY0)) (hv.1.trans (mul_le_mul_of_nonneg_right (by linarith) hV0)) hcC (hR.mul _ _) (fun h0 => hR.div _ _ h0) (hR.sub _ _)
  have hVC : V / |C| = 1 / S := by rw [eC']; field_simp
  rw [hVC] at h
  refine h.trans ?_
  have := uniform_bound (1 / 2 ^ p) L A Y t S hu0 hu hL' hA0 hY0 hS0 k1
  exact this

/-- The samples 0, 1, 2, 3 from 1 on, 1/8 apart, in single precision: the line crosses zero at 1, and so does the computed one within 94 units of rounding. -/
example : ∃ f, uniform ((List.range 4).map fun j => ((j : ℤ) : Binary 24)) 4 1 (1 / 8) = .ok f ∧ |(f.xint.val : ℝ) - 1| ≤ 94 / 2 ^ 24 := by
  have h8 : (1 / 8 : Binary 24).val = 1 / 8 := by decide +kernel
  have hy : ∀ j < 4, (((((j : ℕ) : ℤ) : Binary 24).val : ℚ) : ℝ) = j := by
    intro j hj
    rw [Binary.cast_exact 24 (j : ℤ) (by rw [abs_of_nonneg (by omega)]; norm_num; omega)]
    push_cast; rfl
  obtain ⟨f, F, h1, h2, h3⟩ := C125_uniform (p := 24) (by norm_num) (fun j => ((j : ℤ) : Binary 24)) 4 (by norm_num) (by norm_num) 3
    (fun j hj => by
      rw [hy j hj, abs_of_nonneg (by positivity)]
      exact_mod_cast (by omega : j ≤ 3)) 1 (1 / 8) (by rw [h8]; norm_num)
  rw [uniform_eq] at h2
  have hF : F.slope = 8 ∧ F.xint = 1 := by
    have e := (Except.ok.inj h2).symm
    rw [e]
    simp only [finish, sumTo_real, Binary.val_one, h8]
    simp only [sum_range_succ, sum_range_zero, hy 0 (by norm_num), hy 1 (by norm_num), hy 2 (by norm_num), hy 3 (by norm_num)]
    norm_num
  rw [hF.1, hF.2, h8, Binary.val_one] at h3
  refine ⟨f, h1, (h3 (by norm_num) (by norm_num)).trans (by norm_num)⟩

theorem general_bound (u L X Y κ ρ S : ℝ) (hu0 : 0 ≤ u) (hu : u ≤ 1 / 1000) (hL : 1 ≤ L) (hX : 0 ≤ X) (hY : 0 ≤ Y) (hS : 0 < S) (hκ : 1 / 4 ≤ κ) (hρ : 0 ≤ ρ) :
    1.1 * (L + 1) * u * X * (1 + u) + u * X + Y * (1 / S) * (1.16 * (1.1 * (L + 1) * u) + 1.08 * (4.4 * (3 * L + 5) * κ * u) + 1.08 * (4.4 * (3 * L + 5) * κ * u * ρ) + 3.8 * u) ≤ (L + 2) * u * (1.2 * X + 23 * (κ * (1 + ρ)) * (Y / S)) := by
  have hYS : 0 ≤ Y * (1 / S) := by positivity
  have hLX : 0 ≤ u * X * (L + 1) := by positivity
  have h1 : 1.1 * (L + 1) * u * X * (1 + u) + u * X ≤ (L + 2) * u * (1.2 * X) := by
    have a := mul_le_mul_of_nonneg_left hu hLX
    have b : 0 ≤ u * X := by positivity
    nlinarith [mul_le_mul_of_nonneg_left hL b]
  have h2 : (1.16 * (1.1 * (L + 1) * u) + 1.08 * (4.4 * (3 * L + 5) * κ * u) + 1.08 * (4.4 * (3 * L + 5) * κ * u * ρ) + 3.8 * u) ≤ (L + 2) * u * (23 * (κ * (1 + ρ))) := by
    have hk : 0 ≤ κ := by linarith
    have a : 1.276 * L + 5.076 ≤ κ * (1 + ρ) * (4 * (1.276 * L + 5.076)) := by
      have : (1 : ℝ) / 4 ≤ κ * (1 + ρ) := by nlinarith
      have := mul_le_mul_of_nonneg_right this (by positivity : 0 ≤ 4 * (1.276 * L + 5.076))
      linarith
    have b : κ * (1 + ρ) * (4 * (1.276 * L + 5.076)) + 4.752 * (3 * L + 5) * (κ * (1 + ρ)) ≤ (L + 2) * (23 * (κ * (1 + ρ))) := by
      have : 0 ≤ κ * (1 + ρ) := by positivity
      nlinarith [mul_le_mul_of_nonneg_left hL this]
    have c := mul_le_mul_of_nonneg_left (add_le_add a b) hu0
    linarith
  have h3 := mul_le_mul_of_nonneg_left h2 hYS
  have : Y * (1 / S) * ((L + 2) * u * (23 * (κ * (1 + ρ)))) = (L + 2) * u * (23 * (κ * (1 + ρ)) * (Y / S)) := by ring
  linarith

set_option maxHeartbeats 1000000 in
/-- **C125** Where the line crosses zero, at any places. With `κ` as in C94, `S` the size of the exact slope and `ρ = Y/(X·S)`: when `70(3l + 5)κ` and `70(3l + 5)κρ` units of rounding are at most one, the crossing is within
`(l + 2)(1.2·X + 23κ(1 + ρ)·Y/S)` units of the exact one. -/
theorem C125_general (hp : 10 ≤ p) (x y : ℕ → Binary p) (L : ℕ) (hL : 1 ≤ L) (X Y : ℝ) (hX : ∀ j < L, |((x j).val : ℝ)| ≤ X) (hY : ∀ j < L, |((y j).val : ℝ)| ≤ Y)
    (V : ℝ) (hVdef : V = ∑ j ∈ range L, (((x j).val : ℝ) - (∑ i ∈ range L, ((x i).val : ℝ)) / L) ^ 2) (hV : 0 < V) (hκ : 70 * (3 * L + 5) * (L * X ^ 2 / V) ≤ 2 ^ p) :
    ∃ f F, general ((List.range L).map x) ((List.range L).map y) L = .ok f ∧ general ((List.range L).map fun j => ((x j).val : ℝ)) ((List.range L).map fun j => ((y j).val : ℝ)) L = .ok F ∧
      (F.slope ≠ 0 → 70 * (3 * L + 5) * (L * X ^ 2 / V) * (Y / X / |F.slope|) ≤ 2 ^ p →
        |(f.xint.val : ℝ) - F.xint| ≤ (L + 2) * (1 / 2 ^ p) * (1.2 * X + 23 * (L * X ^ 2 / V * (1 + Y / X / |F.slope|)) * (Y / |F.slope|))) := by
  have hR := binary_roundedField p
  have hu := Win.unit_small p hp
  have hu0 : (0 : ℝ) ≤ 1 / 2 ^ p := by positivity
  have hL' : (1 : ℝ) ≤ L := by exact_mod_cast hL
  have hL0 : (0 : ℝ) < L := by linarith
  have hX0 : 0 ≤ X := (abs_nonneg _).trans (hX 0 (by omega))
  have hY0 : 0 ≤ Y := (abs_nonneg _).trans (hY 0 (by omega))
  set m : ℝ := (∑ j ∈ range L, ((x j).val : ℝ)) / L with hm
  set g : ℝ := (∑ j ∈ range L, ((y j).val : ℝ)) / L with hg
  have mean_le : ∀ (f : ℕ → ℝ) (B : ℝ), (∀ j < L, |f j| ≤ B) → |(∑ j ∈ range L, f j) / L| ≤ B := by
    intro f B h
    rw [abs_div, abs_of_pos hL0, div_le_iff₀ hL0]
    calc |∑ j ∈ range L, f j| ≤ ∑ j ∈ range L, |f j| := abs_sum_le_sum_abs _ _
      _ ≤ ∑ _j ∈ range L, B := sum_le_sum fun j hj => h j (mem_range.mp hj)
      _ = B * L := by rw [sum_const, card_range, nsmul_eq_mul]; ring
  have hdx : ∀ j < L, |((x j).val : ℝ) - m| ≤ X + X := fun j hj => (abs_sub _ _).trans (add_le_add (hX j hj) (mean_le _ X hX))
  have hVX : V ≤ 4 * L * X ^ 2 := by
    rw [hVdef]
    calc _ ≤ ∑ _j ∈ range L, (X + X) ^ 2 := sum_le_sum fun j hj => by
          rw [← sq_abs]; exact pow_le_pow_left₀ (abs_nonneg _) (hdx j (mem_range.mp hj)) 2
      _ = _ := by rw [sum_const, card_range, nsmul_eq_mul]; ring
  have hX1 : 0 < X := by
    rcases hX0.lt_or_eq with h | h
    · exact h
    · rw [← h] at hVX; norm_num at hVX; linarith
  have hκ' : 70 * (3 * (L : ℝ) + 5) * (L * X ^ 2 / V) * (1 / 2 ^ p) ≤ 1 := by
    rw [mul_one_div, div_le_one (by positivity)]; exact hκ
  have hκ0 : 1 / 4 ≤ L * X ^ 2 / V := by rw [le_div_iff₀ hV]; linarith
  have hsm : 10 * ((3 * (L : ℝ) + 5) * (1 / 2 ^ p)) ≤ 1 := by
    have h0 : 0 ≤ (3 * (L : ℝ) + 5) * (1 / 2 ^ p) := by positivity
    nlinarith [mul_le_mul_of_nonneg_left hκ0 h0]
  have hLp : L < 2 ^ p := by
    have h1 : 10 * (3 * (L : ℝ) + 5) ≤ 2 ^ p := by
      rw [mul_one_div, ← mul_div_assoc, div_le_one (by positivity)] at hsm; exact hsm
    have : (L : ℝ) < 2 ^ p := by linarith
    exact_mod_cast this
  refine ⟨_, _, general_eq' x y L, general_eq' _ _ L, ?_⟩
  simp only [finish]
  set m' : Binary p := sumTo x L / ((L : ℤ) : Binary p) with hm'
  set g' : Binary p := sumTo y L / ((L : ℤ) : Binary p) with hg'
  have eg : sumTo (fun j => ((y j).val : ℝ)) L / (((L : ℤ)) : ℝ) = g := by rw [sumTo_real, Int.cast_natCast]
  have em : sumTo (fun j => ((x j).val : ℝ)) L / (((L : ℤ)) : ℝ) = m := by rw [sumTo_real, Int.cast_natCast]
  rw [eg, em, sumTo_real, sumTo_real]
  have hmR : RelS (1 / 2 ^ p) (L + 1) (m'.val : ℝ) m X := mean_relS x L hL hLp X hX
  have hgR : RelS (1 / 2 ^ p) (L + 1) (g'.val : ℝ) g Y := mean_relS y L hL hLp Y hY
  have hx : ∀ j < L, RelS (1 / 2 ^ p) (L + 1 + 1) ((x j - m' : Binary p).val : ℝ) ((x j).val - m) (X + X) := fun j hj =>
    RelS.sub hu0 ((Rel.refl _ _).sized hu0 (Nat.zero_le _) (hX j hj)) hmR (hR.sub _ _)
  have hy : ∀ j < L, RelS (1 / 2 ^ p) (L + 1 + 1) ((y j - g' : Binary p).val : ℝ) ((y j).val - g) (Y + Y) := fun j hj =>
    RelS.sub hu0 ((Rel.refl _ _).sized hu0 (Nat.zero_le _) (hY j hj)) hgR (hR.sub _ _)
  have hv := sumTo_relS (fun j => (x j - m') * (x j - m')) (fun j => ((x j).val - m) * ((x j).val - m)) (fun _ => (X + X) * (X + X)) _ L (fun j hj => RelS.mul hu0 (hx j hj) (hx j hj) (hR.mul _ _))
  have hc := sumTo_relS (fun j => (x j - m') * (y j - g')) (fun j => ((x j).val - m) * ((y j).val - g)) (fun _ => (X + X) * (Y + Y)) _ L (fun j hj => RelS.mul hu0 (hx j hj) (hy j hj) (hR.mul _ _))
  rw [sum_const, card_range, nsmul_eq_mul] at hv hc
  have eV : ∑ j ∈ range L, (((x j).val : ℝ) - m) * (((x j).val : ℝ) - m) = V := by rw [hVdef]; exact sum_congr rfl fun j _ => (sq _).symm
  rw [eV] at hv ⊢
  have pw := pow_units (1 / 2 ^ p) hu0 (L + 1 + 1 + (L + 1 + 1) + 1 + L) (by push_cast; linarith)
  push_cast at pw
  intro hS hcond
  set C := ∑ j ∈ range L, (((x j).val : ℝ) - m) * ((y j).val - g) with hCd
  have hS0 : 0 < |C / V| := abs_pos.mpr hS
  have hCn : C ≠ 0 := fun h => hS (by rw [h, zero_div])
  set S := |C / V| with hSd
  have eC' : |C| = S * V := by rw [hSd, abs_div, abs_of_pos hV]; field_simp
  set κ := L * X ^ 2 / V with hκd
  have e1 : L * X ^ 2 = κ * V := by rw [hκd]; field_simp
  have hρ0 : 0 ≤ Y / X / S := by positivity
  have hcond' : 70 * (3 * (L : ℝ) + 5) * κ * (Y / X / S) * (1 / 2 ^ p) ≤ 1 := by
    rw [mul_one_div, div_le_one (by positivity)]; exact hcond
  set ρ := Y / X / S with hρd
  have hκ1 : 0 ≤ κ := by linarith
  have hv' : |((sumTo (fun j => (x j - m') * (x j - m')) L).val : ℝ) - V| ≤ 4.4 * (3 * L + 5) * κ * (1 / 2 ^ p) * V := by
    refine hv.1.trans ?_
    calc _ ≤ (1.1 * (3 * (L : ℝ) + 5) * (1 / 2 ^ p)) * (L * ((X + X) * (X + X))) := mul_le_mul_of_nonneg_right (by linarith) (by positivity)
      _ = 4.4 * (3 * (L : ℝ) + 5) * (1 / 2 ^ p) * (L * X ^ 2) := by ring
      _ = _ := by rw [e1]; ring
  have hc' : |((sumTo (fun j => (x j - m') * (y j - g')) L).val : ℝ) - C| ≤ 4.4 * (3 * L + 5) * κ * (1 / 2 ^ p) * ρ * |C| := by
    refine hc.1.trans ?_
    calc _ ≤ (1.1 * (3 * (L : ℝ) + 5) * (1 / 2 ^ p)) * (L * ((X + X) * (Y + Y))) := mul_le_mul_of_nonneg_right (by linarith) (by positivity)
      _ = 4.4 * (3 * (L : ℝ) + 5) * (1 / 2 ^ p) * (L * X ^ 2) * (Y / X) := by field_simp; ring
      _ = _ := by rw [e1, eC', hρd]; field_simp
  have pg := pow_units (1 / 2 ^ p) hu0 (L + 1) (by push_cast; linarith)
  push_cast at pg
  obtain ⟨-, h⟩ := crossing_real (1 / 2 ^ p) X Y (1.1 * (L + 1) * (1 / 2 ^ p) * X) (1.1 * (L + 1) * (1 / 2 ^ p)) (4.4 * (3 * L + 5) * κ * (1 / 2 ^ p)) (4.4 * (3 * L + 5) * κ * (1 / 2 ^ p) * ρ) m m'.val g g'.val
    (sumTo (fun j => (x j - m') * (x j - m')) L).val V (sumTo (fun j => (x j - m') * (y j - g')) L).val C
    (g' * sumTo (fun j => (x j - m') * (x j - m')) L).val (g' * sumTo (fun j => (x j - m') * (x j - m')) L / sumTo (fun j => (x j - m') * (y j - g')) L).val
    (m' - g' * sumTo (fun j => (x j - m') * (x j - m')) L / sumTo (fun j => (x j - m') * (y j - g')) L).val hu0 hu hY0 hV hCn (by positivity) (by linarith) (by positivity) (by linarith) (by positivity) (by linarith) hmR.2
    (hmR.1.trans (mul_le_mul_of_nonneg_right (by linarith) hX0)) hgR.2 (hgR.1.trans (mul_le_mul_of_nonneg_right (by linarith) hY0)) hv' hc' (hR.mul _ _) (fun h0 => hR.div _ _ h0) (hR.sub _ _)
  have hVC : V / |C| = 1 / S := by rw [eC']; field_simp
  rw [hVC] at h
  exact h.trans (general_bound (1 / 2 ^ p) L X Y κ ρ S hu0 hu hL' hX0 hY0 hS0 hκ0 hρ0)

/-- The places 1, 2, 4 in single precision, with the values 0, 1, 2: the line crosses zero at 7/9. -/
example : ∃ f, general ((List.range 3).map fun j => (((2 ^ j : ℕ) : ℤ) : Binary 24)) ((List.range 3).map fun j => ((j : ℤ) : Binary 24)) 3 = .ok f ∧ |(f.xint.val : ℝ) - 7 / 9| ≤ 6600 / 2 ^ 24 := by
  have hx : ∀ j < 3, ((((((2 ^ j : ℕ) : ℤ) : Binary 24).val : ℚ)) : ℝ) = 2 ^ j := by
    intro j hj
    rw [Binary.cast_exact 24 ((2 ^ j : ℕ) : ℤ) (by interval_cases j <;> norm_num)]
    push_cast; rfl
  have hy : ∀ j < 3, (((((j : ℕ) : ℤ) : Binary 24).val : ℚ) : ℝ) = j := by
    intro j hj
    rw [Binary.cast_exact 24 (j : ℤ) (by rw [abs_of_nonneg (by omega)]; norm_num; omega)]
    push_cast; rfl
  have hV : ∑ j ∈ range 3, ((((((2 ^ j : ℕ) : ℤ) : Binary 24).val : ℚ) : ℝ) - (∑ i ∈ range 3, (((((2 ^ i : ℕ) : ℤ) : Binary 24).val : ℚ) : ℝ)) / (3 : ℕ)) ^ 2 = 14 / 3 := by
    rw [sum_congr rfl fun i hi => hx i (mem_range.mp hi), sum_congr rfl fun i hi => by rw [hx i (mem_range.mp hi)]]
    norm_num [sum_range_succ]
  obtain ⟨f, F, h1, h2, h3⟩ := C125_general (p := 24) (by norm_num) (fun j => (((2 ^ j : ℕ) : ℤ) : Binary 24)) (fun j => ((j : ℤ) : Binary 24)) 3 (by norm_num) 4 2
    (fun j hj => by rw [hx j hj]; interval_cases j <;> norm_num)
    (fun j hj => by
      rw [hy j hj, abs_of_nonneg (by positivity)]
      exact_mod_cast (by omega : j ≤ 2)) _ hV.symm (by norm_num) (by norm_num)
  rw [general_eq'] at h2
  have hF : F.slope = 9 / 14 ∧ F.xint = 7 / 9 := by
    have e := (Except.ok.inj h2).symm
    rw [e]
    simp only [finish, sumTo_real]
    simp only [sum_range_succ, sum_range_zero, hx 0 (by norm_num), hx 1 (by norm_num), hx 2 (by norm_num), hy 0 (by norm_num), hy 1 (by norm_num), hy 2 (by norm_num)]
    norm_num
  rw [hF.1, hF.2] at h3
  refine ⟨f, h1, (h3 (by norm_num) (by norm_num [abs_of_pos])).trans (by norm_num [abs_of_pos])⟩

end Regression
end DSP
