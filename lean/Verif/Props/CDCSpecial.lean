import Verif.Props.CDCError
import Verif.Props.HilbertSpecial

/-!
# C137: the complex down-converter with the limits of the exponent
-/

namespace DSP.CDC

open Ieee Spec FFT Bridge FMDRounded

variable {m : ℕ} (hm : 1 ≤ m)

/-- The half band filter at odd places. -/
theorem halfBand_odd_size (i : ℕ) : |passBand 0 (1 / 4) ((2 * i + 1 : ℕ) : ℝ)| = 1 / (((2 * i + 1 : ℕ) : ℝ) * Real.pi) := by
  have hk : (0 : ℝ) < ((2 * i + 1 : ℕ) : ℝ) := by positivity
  have hs : |Real.sin (2 * Real.pi * ((2 * i + 1 : ℕ) : ℝ) * (1 / 4))| = 1 := by
    rw [show 2 * Real.pi * ((2 * i + 1 : ℕ) : ℝ) * (1 / 4) = Real.pi / 2 + i * Real.pi by push_cast; ring, Real.sin_add_nat_mul_pi, Real.sin_pi_div_two, mul_one, abs_pow, abs_neg, abs_one, one_pow]
  rw [Fir.passBand_ne _ _ _ hk.ne', mul_zero, Real.sin_zero, sub_zero, abs_div, hs, abs_of_pos (by positivity)]
  ring

theorem tap_size (a : ℝ) (ha : |a| ≤ 3) (m i : ℕ) (hi : i < m) (hm2 : m < 2 ^ 27) :
    1 / 2 ^ 70 ≤ |taps m (kaiserWindow a (4 * m + 1)) (2 * i + 2 * m + 1)| ∧ |taps m (kaiserWindow a (4 * m + 1)) (2 * i + 2 * m + 1)| ≤ 0.65 := by
  obtain ⟨h1, h2⟩ := kaiserWindow_range a ha (4 * m + 1) (2 * i + 2 * m + 1 : ℕ)
  have ex : ((2 * i + 2 * m + 1 : ℕ) : ℝ) - (2 * m : ℕ) = ((2 * i + 1 : ℕ) : ℝ) := by push_cast; ring
  rw [taps, ex, abs_mul, halfBand_odd_size]
  have hpi := Real.pi_gt_d2
  have hpi2 := Real.pi_lt_d2
  have hk : (1 : ℝ) ≤ ((2 * i + 1 : ℕ) : ℝ) := by exact_mod_cast Nat.le_add_left 1 (2 * i)
  have hk2 : ((2 * i + 1 : ℕ) : ℝ) ≤ 2 ^ 29 := by exact_mod_cast (show 2 * i + 1 ≤ 2 ^ 29 by omega)
  generalize ((2 * i + 1 : ℕ) : ℝ) = k at *
  generalize kaiserWindow a (4 * m + 1) (2 * i + 2 * m + 1 : ℕ) = w at *
  have h0 : 0 < w := lt_of_lt_of_le (by norm_num) h1
  have hkp : 0 < k * Real.pi := by positivity
  rw [abs_of_pos h0, mul_one_div]
  constructor
  · rw [div_le_div_iff₀ (by norm_num) hkp]
    have h3 : k * Real.pi ≤ 2 ^ 29 * 4 := mul_le_mul hk2 (by linarith) (by linarith) (by norm_num)
    norm_num at h1 ⊢
    linarith
  · rw [div_le_iff₀ hkp]
    nlinarith

namespace Rounded

variable {F : Format}

theorem alt_good (y : ℕ → Ieee F) (h : ∀ n, GoodIeee (y n)) (n : ℕ) : GoodIeee (alt y n) := by
  unfold alt
  split
  · exact h n
  · exact good_neg _ (h n)

theorem alt_le (y : ℕ → Ieee F) (B : ℚ) (h : ∀ n, |(y n).val| ≤ B) (n : ℕ) : |(alt y n).val| ≤ B := by
  unfold alt
  split
  · exact h n
  · rw [neg_val, abs_neg]
    exact h n

theorem alt_value (y : ℕ → Ieee F) (u : ℤ) : ((past (alt y) u).val : ℝ) = past (CDC.alt fun n => ((y n).val : ℝ)) u := by
  rw [SumIeee.past_val]
  congr 1
  funext n
  simp only [alt, CDC.alt]
  by_cases h : n % 2 = 0
  · rw [if_pos h, (Nat.even_iff.mpr h).neg_one_pow, one_mul]
  · rw [if_neg h, (Nat.odd_iff.mpr (by omega)).neg_one_pow, neg_one_mul, neg_val]
    exact Rat.cast_neg _

theorem converted_state [NeZero F.p] (c : ℕ → Binary F.p) (half : Binary F.p) (x : ℕ → Ieee F) :
    converted (state m c half (fun _ => 0) 0) = state m (fun i => ofBinary (c i)) (ofBinary half) x 0 := by
  simp only [converted, state, List.map_map]
  congr 1
  · refine List.map_congr_left fun j hj => ?_
    rw [List.mem_range] at hj
    simp only [Function.comp_apply, past]
    rw [if_neg (by omega), if_neg (by omega), SumIeee.ofBinary_zero]
  · refine List.map_congr_left fun j hj => ?_
    rw [List.mem_range] at hj
    simp only [Function.comp_apply, past]
    rw [if_neg (by omega), if_neg (by omega), SumIeee.ofBinary_zero]

end Rounded

/-- Half of a number, which may be too small for its last digit. -/
theorem half_round {F : Format} [NeZero F.p] (b : Binary F.p) : |roundTo F (b.val / 2) - b.val / 2| ≤ 2 ^ F.emin / 2 ∧ ((2 : ℚ) ^ (F.emin + F.p) ≤ |b.val| → roundTo F (b.val / 2) = b.val / 2) := by
  have hr : Binary.round F.p (b.val / 2) = b.val / 2 := by
    refine Binary.round_of_representable F.p _ ?_
    obtain ⟨k, j, hk, hb⟩ := b.representable
    refine ⟨k, j - 1, hk, ?_⟩
    rw [hb, zpow_sub_one₀ (by norm_num)]
    ring
  have e2 : |b.val / 2| = |b.val| / 2 := by rw [abs_div, abs_two]
  have e3 : (2 : ℚ) ^ (F.emin + F.p - 1) = 2 ^ (F.emin + F.p) / 2 := by rw [zpow_sub_one₀ (by norm_num)]; ring
  have hexact : (2 : ℚ) ^ (F.emin + F.p) ≤ |b.val| → roundTo F (b.val / 2) = b.val / 2 := by
    intro h
    rw [roundTo_normal _ (by rw [e2, e3]; linarith), hr]
  refine ⟨?_, hexact⟩
  rcases le_or_gt ((2 : ℚ) ^ (F.emin + F.p)) |b.val| with h | h
  · rw [hexact h, sub_self, abs_zero]
    positivity
  · refine (roundTo_error _).trans (max_le ?_ le_rfl)
    rw [div_le_iff₀ (by positivity), e2]
    rw [zpow_add₀ (by norm_num), zpow_natCast] at h
    linarith

include hm in
/-- **C137** The down-converter in IEEE arithmetic. What the constructor leaves behind are numbers of the format. As long as the samples are finite and the number of pairs times their
size is in range, all results are finite; the real part is half of the mixed signal, `m` calls ago, exactly unless that is less than a normal number and up to half of the smallest
number otherwise; and the imaginary part is as accurate as without limits of the exponent, up to twice the smallest number of the format for every pair. -/
theorem C137_downconvert {F : Format} [NeZero F.p] (D : UnitCircle.Deep F) (hm2 : m < 2 ^ 27) (l : ℕ) (hp' : F.p ≤ 53) (hl : F.p ≤ l) (a : Binary F.p) (ha : |(a.val : ℝ)| ≤ 3)
    (A : ℕ) (hA : 60 + 85 * (a.val : ℝ) ^ 2 ≤ A) (hsize : 10 * (A + m + 33) ≤ 2 ^ F.p) (real imag imco : List (Binary F.p)) (hr : real.length = m) (hg : imag.length = 2 * m) (hi : imco.length = m) :
    ∃ c, Rounded.makeBinary l F.p (4 * m + 1) a real imag imco = .ok c ∧ (∀ k ∈ c.imco, Same (ofBinary k : Ieee F) k) ∧ Same (ofBinary c.reco : Ieee F) c.reco ∧
      ∀ x : ℕ → Ieee F, (∀ t, GoodIeee (x t) ∧ 4 * m * |(x t).val| ≤ 2 ^ F.emax) → ∃ re im : ℕ → Ieee F,
        (∀ T : ℕ, ∃ c', run (Rounded.call (4 * m + 1)) (Rounded.converted c) ((List.range T).map fun t => (x (2 * t), x (2 * t + 1))) = .ok (c', (List.range T).map fun t => (re t, im t))) ∧
        ∀ t : ℕ, GoodIeee (re t) ∧ GoodIeee (im t) ∧
          |((re t).val : ℝ) - (past (quarterRate fun t => ((x t).val : ℝ)) (2 * (t : ℤ) + 1 - (2 * m : ℕ))).re / 2| ≤ 2 ^ F.emin / 2 ∧
          (2 ^ (F.emin + F.p) ≤ |(past (quarterRate fun t => ((x t).val : ℝ)) (2 * (t : ℤ) + 1 - (2 * m : ℕ))).re| →
            ((re t).val : ℝ) = (past (quarterRate fun t => ((x t).val : ℝ)) (2 * (t : ℤ) + 1 - (2 * m : ℕ))).re / 2) ∧
          |((im t).val : ℝ) - (fir (4 * m + 1) (fun k => ((kaiserWindow a.val (4 * m + 1) k * passBand 0 (1 / 4) ((k : ℝ) - (2 * m : ℕ)) : ℝ) : ℂ)) (past (quarterRate fun t => ((x t).val : ℝ))) (2 * (t : ℤ) + 1)).im| ≤
            1.1 * (A + m + 33) / 2 ^ F.p * fir (4 * m + 1) (fun k => |kaiserWindow a.val (4 * m + 1) k * passBand 0 (1 / 4) ((k : ℝ) - (2 * m : ℕ))|) (fun j => ‖past (quarterRate fun t => ((x t).val : ℝ)) j‖) (2 * (t : ℤ) + 1) +
              2 * m * 2 ^ F.emin := by
  have hp : 16 ≤ F.p := by have := D.wide.p; omega
  have hp0 : 0 < F.p := by omega
  have hlow := D.low
  have hhigh := D.high
  have hR := binary_roundedField F.p
  have hu0 : (0 : ℝ) ≤ 1 / 2 ^ F.p := by positivity
  obtain ⟨one, e1, h1⟩ := Win.C83_kaiser_middle l F.p (by omega) hp' hl hp a ha (2 * m) (by omega) (by omega)
  obtain ⟨hb, ⟨eh, hbv⟩ | h⟩ := middle (m := m) l F.p hp
  swap
  · omega
  have hc : ∀ i, ∃ c, i < m → ((∃ w h, Win.Rounded.kaiserBinary l F.p a (2 * i + 2 * m + 1 : ℕ) (4 * m + 1 : ℕ) = .ok w ∧
    halfBand l F.p (2 * i + 2 * m + 1 : ℕ) (4 * m + 1 : ℕ) = .ok h ∧ w * h = c) ∧ Rel (1 / 2 ^ F.p) (A + 32) (c.val : ℝ) (taps m (kaiserWindow a.val (4 * m + 1)) (2 * i + 2 * m + 1))) := by
    intro i
    by_cases hi : i < m
    · obtain ⟨w, h, ew, eh, hc⟩ := imco_rel hm l F.p hp hp' hl a ha A hA hm2 i hi
      exact ⟨w * h, fun _ => ⟨⟨w, h, ew, eh, rfl⟩, hc⟩⟩
    · exact ⟨0, fun h => absurd h hi⟩
  choose c hc using hc
  have hcs : ∀ i < m, Same (ofBinary (c i) : Ieee F) (c i) ∧ |(c i).val| ≤ 1 := by
    intro i hi
    obtain ⟨s1, s2⟩ := tap_size a.val ha m i hi hm2
    exact SumIeee.coefficient D (A + 32) (by omega) (c i) _ (hc i hi).2 s1 s2
  have hhalf : Same (ofBinary hb : Ieee F) hb := by
    refine SumIeee.ofBinary_same hp0 hb (Or.inr ?_) ?_
    · rw [hbv, abs_of_pos (by norm_num)]
      calc (2 : ℚ) ^ (F.emin + F.p - 1) ≤ 2 ^ (-1 : ℤ) := zpow_le_zpow_right₀ (by norm_num) (by omega)
        _ = _ := by norm_num
    · rw [hbv, abs_of_pos (by norm_num)]
      exact lt_trans (by norm_num) (one_lt_zpow₀ (a := (2 : ℚ)) (by norm_num) (show 0 < F.emax by omega))
  have e1' : Win.Rounded.kaiserBinary l F.p a (2 * m : ℕ) (4 * m + 1 : ℕ) = .ok one := by
    rw [← e1]
    congr 1
    push_cast; ring
  have hmake := Rounded.make_ok (Win.Rounded.kaiserBinary l F.p a) (halfBand l F.p) c one hb e1' eh (fun i hi => (hc i hi).1) real imag imco hr hg hi fun _ => 0
  rw [Hilbert.binary_one_mul one h1] at hmake
  refine ⟨Rounded.state m c hb (fun _ => 0) 0, hmake, ?_, hhalf, ?_⟩
  · intro b hb
    simp only [Rounded.state, List.mem_map, List.mem_range] at hb
    obtain ⟨i, hi, rfl⟩ := hb
    exact (hcs i hi).1
  intro x hx
  obtain ⟨e, he, room, room', hroom⟩ := SumIeee.room D m hm (by omega)
  have g0 : GoodIeee (0 : Ieee F) := SumIeee.good_zero
  have gx : ∀ (s : ℕ → ℕ) (j : ℤ), GoodIeee (past (Rounded.alt fun n => x (s n)) j) := fun s => SumIeee.past_good _ (Rounded.alt_good _ fun n => (hx (s n)).1) g0
  have bx : ∀ (s : ℕ → ℕ) (j : ℤ), |(past (Rounded.alt fun n => x (s n)) j).val| ≤ 2 ^ e / 2 := fun s => SumIeee.past_le _ _ (by positivity) (Rounded.alt_le _ _ fun n => hroom _ (hx (s n)).2)
  refine ⟨fun t => ofBinary hb * past (Rounded.alt fun n => x (2 * n + 1)) ((t : ℤ) - m), fun t => leftSum (Rounded.terms m (fun i => ofBinary (c i)) x t) m,
    fun T => ⟨Rounded.state m (fun i => ofBinary (c i)) (ofBinary hb) x T, ?_⟩, fun t => ?_⟩
  · rw [Rounded.converted_state c hb x]
    exact run_known _ (fun t => (x (2 * t), x (2 * t + 1))) (Rounded.state m (fun i => ofBinary (c i)) (ofBinary hb) x) _ (fun t => Rounded.call_ok hm _ _ x t) T
  have hre : GoodIeee (ofBinary hb * past (Rounded.alt fun n => x (2 * n + 1)) ((t : ℤ) - m)) ∧
      (ofBinary hb * past (Rounded.alt fun n => x (2 * n + 1)) ((t : ℤ) - m)).val = roundTo F ((past (Rounded.alt fun n => x (2 * n + 1)) ((t : ℤ) - m)).val / 2) := by
    have gy := gx (fun n => 2 * n + 1) ((t : ℤ) - m)
    obtain ⟨g, -, -⟩ := SumIeee.term_close (ofBinary hb) (past (Rounded.alt fun n => x (2 * n + 1)) ((t : ℤ) - m)) hb hhalf (by rw [hbv]; norm_num) gy e he room' ((bx (fun n => 2 * n + 1) _).trans (half_le_self (by positivity)))
    refine ⟨g, ?_⟩
    rw [mul_val hp0 _ _ hhalf.1 gy.1 hhalf.2.1 gy.2 g.1, hhalf.2.2, hbv]
    congr 1
    ring
  have hd := fun i : ℕ => SumIeee.plus_step _ _ (gx (fun n => 2 * n) ((t + 1 : ℕ) - (2 * m : ℕ) + (m - 1 - i : ℕ))) (gx (fun n => 2 * n) ((t + 1 : ℕ) - (2 * m : ℕ) + (m + i : ℕ))) e he room'
    (bx (fun n => 2 * n) _) (bx (fun n => 2 * n) _)
  have hterm : ∀ i < m, Rel (1 / 2 ^ F.p) (A + 33 + 1)
      ((c i * free (past (Rounded.alt fun n => x (2 * n)) ((t + 1 : ℕ) - (2 * m : ℕ) + (m - 1 - i : ℕ)) + past (Rounded.alt fun n => x (2 * n)) ((t + 1 : ℕ) - (2 * m : ℕ) + (m + i : ℕ)))).val : ℝ)
      (taps m (kaiserWindow a.val (4 * m + 1)) (2 * i + 2 * m + 1) *
        (past (alt fun n => ((x (2 * n)).val : ℝ)) ((t + 1 : ℕ) - (2 * m : ℕ) + (m - 1 - i : ℕ)) + past (alt fun n => ((x (2 * n)).val : ℝ)) ((t + 1 : ℕ) - (2 * m : ℕ) + (m + i : ℕ)))) := by
    intro i hi
    rw [← Rounded.alt_value, ← Rounded.alt_value, (hd i).2.2, ← free_val (gx (fun n => 2 * n) ((t + 1 : ℕ) - (2 * m : ℕ) + (m - 1 - i : ℕ))).2, ← free_val (gx (fun n => 2 * n) ((t + 1 : ℕ) - (2 * m : ℕ) + (m + i : ℕ))).2]
    have rd := Rel.of_le (K := 1) hu0 (hR.add (free (past (Rounded.alt fun n => x (2 * n)) ((t + 1 : ℕ) - (2 * m : ℕ) + (m - 1 - i : ℕ)))) (free (past (Rounded.alt fun n => x (2 * n)) ((t + 1 : ℕ) - (2 * m : ℕ) + (m + i : ℕ))))) (by norm_num)
    exact (hc i hi).2.mul hu0 rd (hR.mul _ _)
  obtain ⟨gim, him⟩ := SumIeee.products m hm (A + 33) (by omega) c
    (fun i => past (Rounded.alt fun n => x (2 * n)) ((t + 1 : ℕ) - (2 * m : ℕ) + (m - 1 - i : ℕ)) + past (Rounded.alt fun n => x (2 * n)) ((t + 1 : ℕ) - (2 * m : ℕ) + (m + i : ℕ))) e he room room' _ hcs
    (fun i _ => ⟨(hd i).1, (hd i).2.1⟩) hterm
  have hmix : (past (quarterRate fun t => ((x t).val : ℝ)) (2 * (t : ℤ) + 1 - (2 * m : ℕ))).re = ((past (Rounded.alt fun n => x (2 * n + 1)) ((t : ℤ) - m)).val : ℝ) := by
    rw [show 2 * (t : ℤ) + 1 - (2 * m : ℕ) = 2 * ((t : ℤ) - m) + 1 by push_cast; ring, mixed_odd, Complex.ofReal_re, ← Rounded.alt_value]
  have hround := half_round (free (past (Rounded.alt fun n => x (2 * n + 1)) ((t : ℤ) - m)))
  rw [free_val (gx (fun n => 2 * n + 1) _).2, ← hre.2] at hround
  refine ⟨hre.1, gim, ?_, fun hbig => ?_, ?_⟩
  · rw [hmix]
    have := (Rat.cast_le (K := ℝ)).mpr hround.1
    push_cast at this
    exact this
  · rw [hmix] at hbig ⊢
    have hbig' : (2 : ℚ) ^ (F.emin + F.p) ≤ |(past (Rounded.alt fun n => x (2 * n + 1)) ((t : ℤ) - m)).val| := by
      rw [← Rat.cast_le (K := ℝ)]
      push_cast
      exact hbig
    have := congrArg (fun q : ℚ => (q : ℝ)) (hround.2 hbig')
    push_cast at this
    exact this
  · rw [fir_pairs _ (fun n _ _ => kaiserWindow_symmetric _ m hm n) (kaiserWindow_middle _ m hm)]
    have hle := pairs_le (m := m) (kaiserWindow a.val (4 * m + 1)) (fun n _ _ => kaiserWindow_symmetric _ m hm n) (fun t => ((x t).val : ℝ)) t
    refine him.trans (add_le_add_left ?_ _)
    refine mul_le_mul (le_of_eq ?_) hle (Finset.sum_nonneg fun i _ => abs_nonneg _) (by positivity)
    push_cast
    ring

/-- A down-converter with 33 taps and the parameter two, in single precision, and samples between minus one and one. -/
example (real imag imco : List (Binary 24)) (hr : real.length = 8) (hg : imag.length = 16) (hi : imco.length = 8) (x : ℕ → Ieee Format.single) (hx : ∀ t, GoodIeee (x t) ∧ |(x t).val| ≤ 1) :
    ∃ c, ∃ re im : ℕ → Ieee Format.single, Rounded.makeBinary 64 24 33 (Binary.literal 64 24 2) real imag imco = .ok c ∧
      ∀ T : ℕ, ∃ c', run (Rounded.call 33) (Rounded.converted (F := Format.single) c) ((List.range T).map fun t => (x (2 * t), x (2 * t + 1))) = .ok (c', (List.range T).map fun t => (re t, im t)) ∧
        ∀ t, GoodIeee (re t) ∧ GoodIeee (im t) := by
  have h2 : ((Binary.literal 64 24 2).val : ℝ) = 2 := by
    have : (Binary.literal 64 24 2).val = 2 := by decide +kernel
    rw [this]; norm_num
  have : NeZero Format.single.p := ⟨by decide⟩
  obtain ⟨c, e, -, -, H⟩ := C137_downconvert (m := 8) (F := Format.single) (by norm_num) UnitCircle.deep_single (by norm_num) 64 (by decide) (by decide) (Binary.literal 64 24 2) (by rw [h2]; norm_num) 400
    (by rw [h2]; norm_num) (by decide) real imag imco hr hg hi
  obtain ⟨re, im, h1, h3⟩ := H x fun t => ⟨(hx t).1, by
    have := (hx t).2
    have h128 : (2 : ℚ) ^ 10 ≤ 2 ^ Format.single.emax := by
      rw [show Format.single.emax = 128 from rfl]
      norm_num
    push_cast
    linarith⟩
  exact ⟨c, re, im, e, fun T => (h1 T).imp fun c' e' => ⟨e', fun t => ⟨(h3 t).1, (h3 t).2.1⟩⟩⟩

end DSP.CDC
