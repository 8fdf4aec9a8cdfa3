import Verif.Props.Hilbert
import Verif.Props.CDC
import Verif.Props.ResamplerKernel
import Verif.Lemmas.SquareWave

/-!
# C107: what the Hilbert transformer makes of a sinusoid
-/

namespace DSP.Hilbert

open Spec Resampling

theorem sine_multiple (n : ℕ) (ω : ℝ) : |Real.sin (n * ω)| ≤ n * |Real.sin ω| := by
  induction n with
  | zero => simp
  | succ n ih =>
    have e : ((n + 1 : ℕ) : ℝ) * ω = n * ω + ω := by push_cast; ring
    rw [e, Real.sin_add]
    refine (abs_add_le _ _).trans ?_
    rw [abs_mul, abs_mul]
    have h1 := mul_le_mul_of_nonneg_left (Real.abs_cos_le_one ω) (abs_nonneg (Real.sin (n * ω)))
    have h2 := mul_le_mul_of_nonneg_right (Real.abs_cos_le_one (n * ω)) (abs_nonneg (Real.sin ω))
    push_cast
    linarith

/-- No partial sum of the series of the square wave is above twice its height. -/
theorem squareWave_le (n : ℕ) (ω : ℝ) (h0 : 0 < ω) (h1 : ω < Real.pi) : squareWave n ω ≤ Real.pi / 2 := by
  have hs := Real.sin_pos_of_pos_of_lt_pi h0 h1
  by_cases c : n * Real.sin ω ≤ Real.pi / 2
  · refine le_trans ?_ c
    rw [squareWave, ← nsmul_eq_mul]
    conv_rhs => rw [← Finset.card_range n]
    refine Finset.sum_le_card_nsmul _ _ _ fun i _ => ?_
    rw [div_le_iff₀ (by positivity)]
    have := (le_abs_self _).trans (sine_multiple (2 * i + 1) ω)
    rw [abs_of_pos hs] at this
    push_cast at this
    linarith
  · have hn : 1 ≤ n := by
      rcases Nat.eq_zero_or_pos n with rfl | h
      · exact absurd (by simp; positivity) c
      · exact h
    have := (abs_le.mp (squareWave_near n hn ω h0 h1)).2
    have hp := Real.pi_gt_three
    have : 1 / (n * Real.sin ω) ≤ 1 / (Real.pi / 2) := by gcongr; linarith
    have : 1 / (Real.pi / 2) ≤ Real.pi / 4 := by
      rw [div_le_iff₀ (by positivity)]
      nlinarith
    linarith

section
variable (m : ℕ) (hm : 1 ≤ m) (c : ℝ) (hc : 0 ≤ c)

/-- The weights of the pairs of taps. -/
noncomputable def pair (i : ℕ) : ℝ := if i < m then w0 c ((2 * i + 1) / (2 * m)) else 0

include hc in
theorem G_step (s1 s2 : ℝ) (h0 : 0 ≤ s1) (h12 : s1 ≤ s2) (h1 : s2 ≤ 1) : 0 ≤ G c s2 - G c s1 ∧ G c s2 - G c s1 ≤ c * (s2 - s1) * G c 1 := by
  rcases h12.eq_or_lt with rfl | h
  · simp
  obtain ⟨x, hx, e⟩ := exists_hasDerivAt_eq_slope (G c) (G1 c) h (fun x _ => (G_deriv c x).continuousAt.continuousWithinAt) (fun x _ => G_deriv c x)
  obtain ⟨a, b⟩ := G1_le c x hc (by linarith [hx.1]) (by linarith [hx.2])
  rw [e] at a b
  have d : 0 < s2 - s1 := by linarith
  rw [div_le_iff₀ d] at b
  have := (le_div_iff₀ d).mp a
  constructor <;> linarith

include hm in
theorem place (i : ℕ) (hi : i < m) : 0 ≤ (2 * (i : ℝ) + 1) / (2 * m) ∧ ((2 * (i : ℝ) + 1) / (2 * m)) ^ 2 ≤ 1 := by
  have hm' : (0 : ℝ) < m := by exact_mod_cast hm
  have hi' : (i : ℝ) + 1 ≤ m := by exact_mod_cast hi
  have a : 0 ≤ (2 * (i : ℝ) + 1) / (2 * m) := by positivity
  refine ⟨a, pow_le_one₀ a ?_⟩
  rw [div_le_one (by positivity)]
  linarith

include hm hc in
theorem pair_nonneg (i : ℕ) : 0 ≤ pair m c i := by
  rw [pair]
  split_ifs with h
  · obtain ⟨-, b⟩ := place m hm i h
    rw [w0]
    exact div_nonneg (G_mono c _ hc (by linarith) (by linarith [sq_nonneg ((2 * (i : ℝ) + 1) / (2 * m))])).1 (by linarith [G_pos c hc])
  · exact le_rfl

include hm hc in
theorem pair_step (k : ℕ) (hk : k + 1 < m) : 0 ≤ pair m c k - pair m c (k + 1) ∧ pair m c k - pair m c (k + 1) ≤ 2 * c * (k + 1) / m ^ 2 := by
  have hm' : (0 : ℝ) < m := by exact_mod_cast hm
  obtain ⟨-, b⟩ := place m hm k (by omega)
  obtain ⟨-, b'⟩ := place m hm (k + 1) hk
  push_cast at b'
  have hG := G_pos c hc
  have e : ((2 * ((k : ℝ) + 1) + 1) / (2 * m)) ^ 2 - ((2 * (k : ℝ) + 1) / (2 * m)) ^ 2 = 2 * (k + 1) / m ^ 2 := by field_simp; ring
  obtain ⟨s0, s1⟩ := G_step c hc (1 - ((2 * ((k : ℝ) + 1) + 1) / (2 * m)) ^ 2) (1 - ((2 * (k : ℝ) + 1) / (2 * m)) ^ 2) (by linarith) (by rw [← sub_nonneg, sub_sub_sub_cancel_left, e]; positivity) (by linarith [sq_nonneg ((2 * (k : ℝ) + 1) / (2 * m))])
  rw [sub_sub_sub_cancel_left, e] at s1
  rw [pair, pair, if_pos (by omega), if_pos hk, w0, w0, ← sub_div]
  push_cast
  refine ⟨div_nonneg s0 (by linarith), ?_⟩
  rw [div_le_iff₀ (by linarith)]
  exact s1.trans (le_of_eq (by ring))

include hm hc in
theorem pair_anti (k : ℕ) : pair m c (k + 1) ≤ pair m c k := by
  by_cases h : k + 1 < m
  · linarith [(pair_step m hm c hc k h).1]
  · have : pair m c (k + 1) = 0 := if_neg h
    rw [this]
    exact pair_nonneg m hm c hc k

include hm hc in
theorem pair_first : pair m c 0 ≤ 1 ∧ 1 - pair m c 0 ≤ c / (4 * m ^ 2) := by
  have hm' : (0 : ℝ) < m := by exact_mod_cast hm
  obtain ⟨-, b⟩ := place m hm 0 (by omega)
  have hG := G_pos c hc
  obtain ⟨s0, s1⟩ := G_step c hc (1 - ((2 * ((0 : ℕ) : ℝ) + 1) / (2 * m)) ^ 2) 1 (by linarith) (by linarith [sq_nonneg ((2 * ((0 : ℕ) : ℝ) + 1) / (2 * m))]) le_rfl
  rw [pair, if_pos (by omega), w0]
  constructor
  · rw [div_le_one (by linarith)]; linarith
  · have e : 1 - G c (1 - ((2 * ((0 : ℕ) : ℝ) + 1) / (2 * m)) ^ 2) / G c 1 = (G c 1 - G c (1 - ((2 * ((0 : ℕ) : ℝ) + 1) / (2 * m)) ^ 2)) / G c 1 := by
      rw [sub_div, div_self (by linarith)]
    rw [e, div_le_iff₀ (by linarith)]
    refine s1.trans (le_of_eq ?_)
    rw [sub_sub_cancel]
    push_cast
    field_simp
    ring

theorem pair_last : pair m c m = 0 := if_neg (lt_irrefl m)

/-- The gain of the imaginary part. -/
noncomputable def gain (ω : ℝ) : ℝ := 4 / Real.pi * ∑ i ∈ Finset.range m, pair m c i * (Real.sin ((2 * i + 1) * ω) / (2 * i + 1))

include hm hc in
theorem gain_pos (ω : ℝ) (h0 : 0 < ω) (h1 : ω < Real.pi) : 0 < gain m c ω := by
  have hs := Real.sin_pos_of_pos_of_lt_pi h0 h1
  have hp := Real.pi_pos
  refine mul_pos (by positivity) ?_
  have e : ∑ i ∈ Finset.range m, pair m c i * (Real.sin ((2 * i + 1) * ω) / (2 * i + 1)) = ∑ i ∈ Finset.range m, pair m c i / (2 * i + 1) * Real.sin ((2 * i + 1) * ω) :=
    Finset.sum_congr rfl fun i _ => by ring
  have hb : ∀ k : ℕ, pair m c (k + 1) / (2 * ((k + 1 : ℕ) : ℝ) + 1) ≤ pair m c k / (2 * (k : ℝ) + 1) := fun k => by
    exact div_le_div₀ (pair_nonneg m hm c hc k) (pair_anti m hm c hc k) (by positivity) (by push_cast; linarith)
  have hS : ∀ k : ℕ, 0 ≤ ∑ i ∈ Finset.range k, Real.sin ((2 * i + 1) * ω) := fun k => by
    have := odd_sine k ω
    have h : 0 ≤ Real.sin ω * ∑ i ∈ Finset.range k, Real.sin ((2 * i + 1) * ω) := by rw [this]; positivity
    exact nonneg_of_mul_nonneg_right h hs
  rw [e, sum_parts, pair_last, zero_div, zero_mul, add_zero]
  refine lt_of_lt_of_le ?_ (Finset.single_le_sum (fun k _ => mul_nonneg (by linarith [hb k]) (hS (k + 1))) (Finset.mem_range.mpr hm))
  refine mul_pos ?_ (by simpa using hs)
  have a := pair_anti m hm c hc 0
  have b := pair_nonneg m hm c hc 1
  have d : 0 < pair m c 0 := by
    obtain ⟨-, b⟩ := place m hm 0 (by omega)
    rw [pair, if_pos (by omega), w0]
    refine div_pos ?_ (by linarith [G_pos c hc])
    have g := (G_step c hc 0 (1 - ((2 * ((0 : ℕ) : ℝ) + 1) / (2 * m)) ^ 2) le_rfl (by linarith) (by linarith [sq_nonneg ((2 * ((0 : ℕ) : ℝ) + 1) / (2 * m))])).1
    have g0 : G c 0 = 1 := by
      rw [G, Finset.sum_eq_single 0 (fun i _ h => by rw [zero_pow h, mul_zero]) (by simp)]
      simp
    linarith
  push_cast
  rw [mul_zero, zero_add, div_one]
  rw [zero_add] at a
  linarith

/-- As a mean of partial sums of the series of the square wave. -/
theorem gain_mean (ω : ℝ) : gain m c ω = 4 / Real.pi * ∑ k ∈ Finset.range m, (pair m c k - pair m c (k + 1)) * squareWave (k + 1) ω := by
  rw [gain, sum_parts, pair_last, zero_mul, add_zero]
  rfl

theorem pair_sum (n : ℕ) : ∑ k ∈ Finset.range n, (pair m c k - pair m c (k + 1)) = pair m c 0 - pair m c n := Finset.sum_range_sub' _ _

include hm hc in
theorem gain_le (ω : ℝ) (h0 : 0 < ω) (h1 : ω < Real.pi) : gain m c ω ≤ 2 := by
  have hp := Real.pi_pos
  have : ∑ k ∈ Finset.range m, (pair m c k - pair m c (k + 1)) * squareWave (k + 1) ω ≤ ∑ k ∈ Finset.range m, (pair m c k - pair m c (k + 1)) * (Real.pi / 2) :=
    Finset.sum_le_sum fun k _ => mul_le_mul_of_nonneg_left (squareWave_le (k + 1) ω h0 h1) (by linarith [pair_anti m hm c hc k])
  rw [← Finset.sum_mul, pair_sum, pair_last, sub_zero] at this
  rw [gain_mean, div_mul_eq_mul_div, div_le_iff₀ hp]
  nlinarith [(pair_first m hm c hc).1]

include hm hc in
theorem gain_near (ω : ℝ) (h0 : 0 < ω) (h1 : ω < Real.pi) : |gain m c ω - 1| ≤ 4 / Real.pi * (1 + 3 * c) / (m * Real.sin ω) := by
  have hs := Real.sin_pos_of_pos_of_lt_pi h0 h1
  have hm' : (1 : ℝ) ≤ m := by exact_mod_cast hm
  have hp := Real.pi_pos
  obtain ⟨n, rfl⟩ : ∃ n, m = n + 1 := ⟨m - 1, by omega⟩
  have e : gain (n + 1) c ω - 1 = 4 / Real.pi * ∑ k ∈ Finset.range (n + 1), (pair (n + 1) c k - pair (n + 1) c (k + 1)) * (squareWave (k + 1) ω - Real.pi / 4) - (1 - pair (n + 1) c 0) := by
    have : ∑ k ∈ Finset.range (n + 1), (pair (n + 1) c k - pair (n + 1) c (k + 1)) * (squareWave (k + 1) ω - Real.pi / 4) =
        ∑ k ∈ Finset.range (n + 1), (pair (n + 1) c k - pair (n + 1) c (k + 1)) * squareWave (k + 1) ω - pair (n + 1) c 0 * (Real.pi / 4) := by
      simp only [mul_sub]
      rw [Finset.sum_sub_distrib, ← Finset.sum_mul, pair_sum, pair_last, sub_zero]
    rw [this, gain_mean]
    field_simp
    ring
  have t : ∀ k, |(pair (n + 1) c k - pair (n + 1) c (k + 1)) * (squareWave (k + 1) ω - Real.pi / 4)| ≤ (pair (n + 1) c k - pair (n + 1) c (k + 1)) * (1 / ((k + 1) * Real.sin ω)) := fun k => by
    have := squareWave_near (k + 1) (by omega) ω h0 h1
    have d : 0 ≤ pair (n + 1) c k - pair (n + 1) c (k + 1) := by linarith [pair_anti (n + 1) hm c hc k]
    rw [abs_mul, abs_of_nonneg d]
    push_cast at this
    gcongr
  have t1 : ∑ k ∈ Finset.range n, (pair (n + 1) c k - pair (n + 1) c (k + 1)) * (1 / ((k + 1) * Real.sin ω)) ≤ n * (2 * c / ((n + 1 : ℕ) ^ 2 * Real.sin ω)) := by
    rw [← nsmul_eq_mul]
    refine le_trans (Finset.sum_le_card_nsmul _ _ (2 * c / ((n + 1 : ℕ) ^ 2 * Real.sin ω)) fun k hk => ?_) (by rw [Finset.card_range])
    rw [Finset.mem_range] at hk
    refine (mul_le_mul_of_nonneg_right (pair_step (n + 1) hm c hc k (by omega)).2 (by positivity)).trans (le_of_eq ?_)
    field_simp
  have t2 : (pair (n + 1) c n - pair (n + 1) c (n + 1)) * (1 / ((n + 1) * Real.sin ω)) ≤ 1 / ((n + 1 : ℕ) * Real.sin ω) := by
    have a : pair (n + 1) c n ≤ pair (n + 1) c 0 := antitone_nat_of_succ_le (pair_anti (n + 1) hm c hc) (Nat.zero_le n)
    rw [pair_last, sub_zero]
    push_cast
    exact mul_le_of_le_one_left (by positivity) (a.trans (pair_first (n + 1) hm c hc).1)
  have sum := Finset.abs_sum_le_sum_abs (fun k => (pair (n + 1) c k - pair (n + 1) c (k + 1)) * (squareWave (k + 1) ω - Real.pi / 4)) (Finset.range (n + 1))
  have sum2 := Finset.sum_le_sum fun k (_ : k ∈ Finset.range (n + 1)) => t k
  rw [Finset.sum_range_succ (fun k : ℕ => (pair (n + 1) c k - pair (n + 1) c (k + 1)) * (1 / (((k : ℝ) + 1) * Real.sin ω)))] at sum2
  have t3 : n * (2 * c / (((n + 1 : ℕ) : ℝ) ^ 2 * Real.sin ω)) ≤ 2 * c / ((n + 1 : ℕ) * Real.sin ω) := by
    rw [mul_div_assoc', div_le_div_iff₀ (by positivity) (by positivity)]
    have : (n : ℝ) ≤ (n + 1 : ℕ) := by push_cast; linarith
    have : 0 ≤ 2 * c * ((n + 1 : ℕ) : ℝ) * Real.sin ω * (((n + 1 : ℕ) : ℝ) - n) := by
      have : 0 ≤ ((n + 1 : ℕ) : ℝ) - n := by linarith
      positivity
    nlinarith
  have f := (pair_first (n + 1) hm c hc).2
  have f0 := (pair_first (n + 1) hm c hc).1
  have f1 : c / (4 * ((n + 1 : ℕ) : ℝ) ^ 2) ≤ 4 / Real.pi * (c / ((n + 1 : ℕ) * Real.sin ω)) := by
    have g1 : (1 : ℝ) ≤ 4 / Real.pi := by rw [le_div_iff₀ hp]; linarith [Real.pi_le_four]
    have g2 : c / (4 * ((n + 1 : ℕ) : ℝ) ^ 2) ≤ c / ((n + 1 : ℕ) * Real.sin ω) := by
      refine div_le_div_of_nonneg_left hc (by positivity) ?_
      have := mul_le_mul_of_nonneg_left (Real.sin_le_one ω) (by positivity : (0 : ℝ) ≤ (n + 1 : ℕ))
      nlinarith
    have g3 : 0 ≤ c / ((n + 1 : ℕ) * Real.sin ω) := by positivity
    nlinarith
  rw [e]
  refine (abs_sub _ _).trans ?_
  rw [abs_mul, abs_of_pos (show (0 : ℝ) < 4 / Real.pi by positivity), abs_of_nonneg (show 0 ≤ 1 - pair (n + 1) c 0 by linarith)]
  have h4 : 4 / Real.pi * |∑ k ∈ Finset.range (n + 1), (pair (n + 1) c k - pair (n + 1) c (k + 1)) * (squareWave (k + 1) ω - Real.pi / 4)| ≤
      4 / Real.pi * (2 * c / ((n + 1 : ℕ) * Real.sin ω) + 1 / ((n + 1 : ℕ) * Real.sin ω)) := by
    gcongr
    linarith
  have e5 : 4 / Real.pi * (1 + 3 * c) / (((n + 1 : ℕ) : ℝ) * Real.sin ω) = 4 / Real.pi * (2 * c / ((n + 1 : ℕ) * Real.sin ω) + 1 / ((n + 1 : ℕ) * Real.sin ω)) + 4 / Real.pi * (c / ((n + 1 : ℕ) * Real.sin ω)) := by
    field_simp
    ring
  rw [e5]
  linarith

theorem gain_mirror (ω : ℝ) : gain m c (Real.pi - ω) = gain m c ω := by
  rw [gain_mean, gain_mean]
  simp only [squareWave_mirror]

end

theorem kaiser_pair (m : ℕ) (hm : 1 ≤ m) (hm2 : m ≤ 268435455) (a : ℝ) (i : ℕ) (hi : i < m) : Win.kaiser a ((2 * i + 1 + 2 * m : ℕ) : ℤ) (4 * m + 1 : ℕ) = .ok (pair m ((Real.pi * a / 2) ^ 2) i) := by
  rw [Win.kaiser_ok a _ _ (by omega) (by omega) (by omega) (by omega)]
  have o : Win.offset ((2 * i + 1 + 2 * m : ℕ) : ℤ) (4 * m + 1 : ℕ) = (2 * i + 1) / (2 * m) := by
    have hm' : (m : ℝ) ≠ 0 := by exact_mod_cast (by omega : m ≠ 0)
    rw [Win.offset]
    push_cast
    rw [add_sub_cancel_right]
    field_simp
    ring
  obtain ⟨-, b⟩ := place m hm i hi
  have e1 := partI0_G a 1 zero_le_one
  rw [Real.sqrt_one, mul_one] at e1
  rw [Win.kaiserArg, o, partI0_G a _ (by linarith), e1, pair, if_pos hi, w0]

/-- **C107** What the transformer makes of a sinusoid, once its window is filled with it: the same one in the real part, delayed by half the taps, and in the imaginary part the one that lags it by exactly a quarter of
a period, with a gain that depends on the frequency only. The gain is never of the wrong sign, never above two, the same at frequencies that are mirrored at a quarter of the rate, zero at the frequency zero,
and near to one if there are many taps. -/
theorem C107_hilbert (m : ℕ) (hm : 1 ≤ m) (hm2 : m ≤ 268435455) (a : ℝ) (real imco : List ℝ) (hr : real.length = 4 * m + 1) (hi : imco.length = m) :
    ∃ (h : Hilbert) (A : ℝ → ℝ), make (4 * m + 1) a real imco = .ok h ∧
      (∀ ω, 0 < ω → ω < Real.pi → 0 < A ω ∧ A ω ≤ 2 ∧ |A ω - 1| ≤ 4 / Real.pi * (1 + 3 * (Real.pi * a / 2) ^ 2) / (m * Real.sin ω)) ∧ (∀ ω, A (Real.pi - ω) = A ω) ∧ A 0 = 0 ∧
      ∀ (r ω φ : ℝ) (T : ℕ), ∃ h' ys, run (call (4 * m + 1)) h ((List.range T).map fun (t : ℕ) => r * Real.cos (ω * t + φ)) = .ok (h', ys) ∧
        ∀ t : ℕ, 4 * m < t → t < T → ys[t]? = some ⟨r * Real.cos (ω * (t - 1 - 2 * m) + φ), A ω * (r * Real.sin (ω * (t - 1 - 2 * m) + φ))⟩ := by
  have hc : 0 ≤ (Real.pi * a / 2) ^ 2 := sq_nonneg _
  obtain ⟨h, w, e, hw, hk, H⟩ := C55_fir hm hm2 a real imco hr hi
  refine ⟨h, gain m ((Real.pi * a / 2) ^ 2), e, fun ω h0 h1 => ⟨gain_pos m hm _ hc ω h0 h1, gain_le m hm _ hc ω h0 h1, gain_near m hm _ hc ω h0 h1⟩, gain_mirror m _, by simp [gain], fun r ω φ T => ?_⟩
  obtain ⟨h', e'⟩ := H (fun t => r * Real.cos (ω * t + φ)) T
  refine ⟨h', _, e', fun t ht hT => ?_⟩
  have hx : ∀ j : ℤ, 0 ≤ j → past (fun t : ℕ => r * Real.cos (ω * t + φ)) j = r * Real.cos (ω * j + φ) := fun j hj => by
    rw [past, if_pos hj]
    congr 4
    exact_mod_cast Int.toNat_of_nonneg hj
  rw [List.getElem?_map, List.getElem?_range hT, Option.map_some]
  congr 2
  · rw [hx _ (by omega)]
    push_cast
    rfl
  · rw [fir_pairs w hw.symmetric, gain, mul_assoc, mul_comm (∑ i ∈ _, _), ← mul_assoc, Finset.mul_sum]
    refine Finset.sum_congr rfl fun i hi => ?_
    rw [Finset.mem_range] at hi
    have ew : w ((2 * i + 1) + 2 * m : ℕ) = pair m ((Real.pi * a / 2) ^ 2) i := by
      have k := hk ((2 * i + 1) + 2 * m : ℕ) (by omega) (by omega)
      rw [kaiser_pair m hm hm2 a i hi] at k
      exact (Except.ok.inj k).symm
    rw [ew, hx _ (by omega), hx _ (by omega)]
    have t1 : ω * (((t : ℤ) - 1 - ((2 * i + 1 + 2 * m : ℕ) : ℤ) : ℤ) : ℝ) + φ = (ω * (t - 1 - 2 * m) + φ) - (2 * i + 1) * ω := by push_cast; ring
    have t2 : ω * (((t : ℤ) - 1 - ((2 * m - (2 * i + 1) : ℕ) : ℤ) : ℤ) : ℝ) + φ = (ω * (t - 1 - 2 * m) + φ) + (2 * i + 1) * ω := by
      rw [Nat.cast_sub (by omega)]; push_cast; ring
    rw [t1, t2]
    generalize ω * ((t : ℝ) - 1 - 2 * m) + φ = θ
    rw [Real.cos_sub, Real.cos_add]
    push_cast
    have hp := Real.pi_ne_zero
    have h1 : (2 * (i : ℝ) + 1) ≠ 0 := by positivity
    field_simp
    ring

/-- Five taps and the frequency at a quarter of the rate. -/
example : ∃ (h : Hilbert) (A : ℝ → ℝ), make 5 2 [1, 2, 3, 4, 5] [6] = .ok h ∧ 0 < A (Real.pi / 2) ∧
    ∃ h' ys, run (call 5) h ((List.range 9).map fun (t : ℕ) => 3 * Real.cos (Real.pi / 2 * t + 1)) = .ok (h', ys) ∧ ys[7]? = some ⟨3 * Real.cos (Real.pi / 2 * 4 + 1), A (Real.pi / 2) * (3 * Real.sin (Real.pi / 2 * 4 + 1))⟩ := by
  obtain ⟨h, A, e, hA, -, -, H⟩ := C107_hilbert 1 le_rfl (by norm_num) 2 [1, 2, 3, 4, 5] [6] rfl rfl
  obtain ⟨h', ys, e', R⟩ := H 3 (Real.pi / 2) 1 9
  refine ⟨h, A, e, (hA _ (by positivity) (by linarith [Real.pi_pos])).1, h', ys, e', ?_⟩
  rw [R 7 (by norm_num) (by norm_num)]
  norm_num

end DSP.Hilbert

namespace DSP.CDC

open Spec Resampling Hilbert

/-- **C107** The down-converter: from the sinusoid it makes one that turns by twice the distance of its frequency from a quarter of the rate, with half the amplitude and a gain of the imaginary part that has the
same properties as the one of the Hilbert transformer. The alternating sign is the shift by a quarter of the rate. -/
theorem C107_cdc (m : ℕ) (hm : 1 ≤ m) (hm2 : m ≤ 134217727) (a : ℝ) (real imag imco : List ℝ) (hr : real.length = m) (hg : imag.length = 2 * m) (hi : imco.length = m) :
    ∃ (c : CDC) (A : ℝ → ℝ), make Kernels.exact (4 * m + 1) a real imag imco = .ok c ∧
      (∀ ω, 0 < ω → ω < Real.pi → 0 < A ω ∧ A ω ≤ 2 ∧ |A ω - 1| ≤ 4 / Real.pi * (1 + 3 * (Real.pi * a / 2) ^ 2) / (m * Real.sin ω)) ∧ (∀ ω, A (Real.pi - ω) = A ω) ∧ A 0 = 0 ∧
      ∀ (r ω φ : ℝ) (T : ℕ), ∃ c' ys, run (call (4 * m + 1)) c ((List.range T).map fun (t : ℕ) => (r * Real.cos (ω * (2 * t : ℕ) + φ), r * Real.cos (ω * (2 * t + 1 : ℕ) + φ))) = .ok (c', ys) ∧
        ∀ t : ℕ, 2 * m ≤ t → t < T → ys[t]? = some ⟨(-1) ^ (t - m) * (r / 2 * Real.cos (ω * (2 * (t - m) + 1) + φ)), A ω * ((-1) ^ (t - m) * (r / 2 * Real.sin (ω * (2 * (t - m) + 1) + φ)))⟩ := by
  have hc : 0 ≤ (Real.pi * a / 2) ^ 2 := sq_nonneg _
  obtain ⟨c, w, e, hw, hk, H⟩ := C54_downconvert hm hm2 a real imag imco hr hg hi
  refine ⟨c, gain m ((Real.pi * a / 2) ^ 2), e, fun ω h0 h1 => ⟨gain_pos m hm _ hc ω h0 h1, gain_le m hm _ hc ω h0 h1, gain_near m hm _ hc ω h0 h1⟩, gain_mirror m _, by simp [gain], fun r ω φ T => ?_⟩
  obtain ⟨c', e'⟩ := H (fun j => r * Real.cos (ω * j + φ)) T
  refine ⟨c', _, e', fun t ht hT => ?_⟩
  have hx : ∀ (y : ℕ → ℝ) (j : ℤ) (n : ℕ), j = n → past (alt y) j = (-1) ^ n * y n := fun y j n hj => by
    rw [hj, past, if_pos (by omega), Int.toNat_natCast, alt]
  rw [List.getElem?_map, List.getElem?_range hT, Option.map_some, fir_pairs w hw.symmetric (hw.peak _ (by push_cast; ring))]
  congr 2
  · rw [hx _ _ (t - m) (by omega)]
    have e1 : ω * ((2 * (t - m) + 1 : ℕ) : ℝ) + φ = ω * (2 * ((t : ℝ) - m) + 1) + φ := by
      push_cast [Nat.cast_sub (by omega : m ≤ t)]; ring
    rw [e1]
    ring
  · rw [gain, mul_assoc, mul_comm (∑ i ∈ _, _), ← mul_assoc, Finset.mul_sum]
    refine Finset.sum_congr rfl fun i hi => ?_
    rw [Finset.mem_range] at hi
    have ew : w ((2 * i + 2 * m + 1 : ℕ) : ℤ) = pair m ((Real.pi * a / 2) ^ 2) i := by
      rw [show 2 * i + 2 * m + 1 = 2 * i + 1 + 2 * m by ring]
      have k := hk ((2 * i + 1) + 2 * m : ℕ) (by omega) (by omega)
      rw [kaiser_pair m hm (by omega) a i hi] at k
      exact (Except.ok.inj k).symm
    have hp := Real.pi_ne_zero
    have h1 : (2 * (i : ℝ) + 1) ≠ 0 := by positivity
    have et : taps m w (2 * i + 2 * m + 1) = pair m ((Real.pi * a / 2) ^ 2) i * ((-1) ^ i / (Real.pi * (2 * i + 1))) := by
      rw [taps, ew, show (((2 * i + 2 * m + 1 : ℕ) : ℝ) - (2 * m : ℕ)) = 2 * i + 1 by push_cast; ring, Fir.passBand_ne _ _ _ h1,
        show 2 * Real.pi * (2 * (i : ℝ) + 1) * (1 / 4) = Real.pi / 2 + i * Real.pi by ring, Real.sin_add_nat_mul_pi, Real.sin_pi_div_two]
      simp
    rw [et, hx _ _ (t - m - i) (by omega), hx _ _ (t - m + i + 1) (by omega)]
    have t1 : ω * ((2 * (t - m - i) : ℕ) : ℝ) + φ = (ω * (2 * (t - m) + 1) + φ) - (2 * i + 1) * ω := by
      push_cast [Nat.cast_sub (by omega : m ≤ t), Nat.cast_sub (by omega : i ≤ t - m)]; ring
    have t2 : ω * ((2 * (t - m + i + 1) : ℕ) : ℝ) + φ = (ω * (2 * (t - m) + 1) + φ) + (2 * i + 1) * ω := by
      push_cast [Nat.cast_sub (by omega : m ≤ t)]; ring
    have s1 : (-1 : ℝ) ^ (t - m) = (-1) ^ (t - m - i) * (-1) ^ i := by rw [← pow_add]; congr 1; omega
    have s2 : (-1 : ℝ) ^ (t - m + i + 1) = -(-1) ^ (t - m - i) := by
      rw [show t - m + i + 1 = (t - m - i) + 2 * i + 1 by omega, pow_succ, pow_add, pow_mul]; norm_num
    rw [t1, t2, s2, s1]
    generalize ω * (2 * ((t : ℝ) - m) + 1) + φ = θ
    rw [Real.cos_sub, Real.cos_add]
    generalize (-1 : ℝ) ^ (t - m - i) = u
    generalize (-1 : ℝ) ^ i = v at *
    field_simp
    ring

/-- Five taps. -/
example : ∃ (c : CDC) (A : ℝ → ℝ), make Kernels.exact 5 2 [1] [2, 3] [4] = .ok c ∧ 0 < A 1 ∧
    ∃ c' ys, run (call 5) c ((List.range 9).map fun (t : ℕ) => (3 * Real.cos (1 * (2 * t : ℕ) + 4), 3 * Real.cos (1 * (2 * t + 1 : ℕ) + 4))) = .ok (c', ys) ∧ ys[5]? = some ⟨3 / 2 * Real.cos 13, A 1 * (3 / 2 * Real.sin 13)⟩ := by
  obtain ⟨c, A, e, hA, -, -, H⟩ := C107_cdc 1 le_rfl (by norm_num) 2 [1] [2, 3] [4] rfl rfl rfl
  obtain ⟨c', ys, e', R⟩ := H 3 1 4 9
  refine ⟨c, A, e, (hA _ (by norm_num) (by linarith [Real.pi_gt_three])).1, c', ys, e', ?_⟩
  rw [R 5 (by norm_num) (by norm_num)]
  norm_num

end DSP.CDC
