import Verif.Props.Hilbert

/-!
# C54: the complex down-converter
-/

namespace DSP.CDC
open Spec Fir

theorem halfBand_zero : passBand 0 (1 / 4) 0 = 1 / 2 := by rw [passBand_zero]; norm_num

theorem halfBand_even (i : ℤ) (hi : i ≠ 0) : passBand 0 (1 / 4) (2 * i) = 0 := by
  have h : (i : ℝ) ≠ 0 := by exact_mod_cast hi
  rw [passBand_ne _ _ _ (mul_ne_zero two_ne_zero h), show 2 * Real.pi * (2 * (i : ℝ)) * (1 / 4) = (i : ℝ) * Real.pi by ring, Real.sin_int_mul_pi]
  simp

/-- Every other sample, with alternating sign. -/
def alt (y : ℕ → ℝ) (n : ℕ) : ℝ := (-1) ^ n * y n

theorem mixed_odd (x : ℕ → ℝ) (u : ℤ) : past (quarterRate x) (2 * u + 1) = ((past (alt fun n => x (2 * n + 1)) u : ℝ) : ℂ) := by
  by_cases c : 0 ≤ u
  · obtain ⟨n, rfl⟩ := Int.eq_ofNat_of_zero_le c
    rw [past, past, if_pos (by omega), if_pos c, show (2 * (n : ℤ) + 1).toNat = 2 * n + 1 by omega, Int.toNat_natCast]
    rw [quarterRate, alt, pow_succ, pow_mul]
    push_cast
    rw [neg_sq, Complex.I_sq]
    linear_combination (-((-1) ^ n * (x (2 * n + 1) : ℂ))) * Complex.I_mul_I
  · rw [past, past, if_neg (by omega), if_neg c]; simp

theorem mixed_even (x : ℕ → ℝ) (u : ℤ) : past (quarterRate x) (2 * u) = Complex.I * ((past (alt fun n => x (2 * n)) u : ℝ) : ℂ) := by
  by_cases c : 0 ≤ u
  · obtain ⟨n, rfl⟩ := Int.eq_ofNat_of_zero_le c
    rw [past, past, if_pos (by omega), if_pos c, show (2 * (n : ℤ)).toNat = 2 * n by omega, Int.toNat_natCast]
    simp only [quarterRate, alt, pow_mul]
    push_cast
    rw [neg_sq, Complex.I_sq]
    ring
  · rw [past, past, if_neg (by omega), if_neg c]; simp

/-- The states for the input `x`. -/
noncomputable def state (m : ℕ) (h : ℕ → ℝ) (x : ℕ → ℝ) (t : ℕ) : CDC :=
  ⟨(List.range m).map fun (j : ℕ) => past (alt fun n => x (2 * n + 1)) ((t : ℤ) - m + j),
    (List.range (2 * m)).map fun (j : ℕ) => past (alt fun n => x (2 * n)) ((t : ℤ) - (2 * m : ℕ) + j),
    (List.range m).map fun (i : ℕ) => h (2 * i + 2 * m + 1), 1 / 2, decide (t % 2 = 1)⟩

variable {m : ℕ} (hm : 1 ≤ m)

theorem half (m : ℕ) : (4 * m + 1 - 1) / 2 = 2 * m := by omega
theorem quarter (m : ℕ) : (4 * m + 1 - 1) / 4 = m := by omega

theorem ok_bind {A B : Type} (a : A) (f : A → M B) : ((Except.ok a : M A) >>= f) = f a := rfl

/-- The taps. -/
noncomputable def taps (m : ℕ) (w : ℤ → ℝ) (k : ℕ) : ℝ := w k * passBand 0 (1 / 4) ((k : ℝ) - (2 * m : ℕ))

theorem lowPass2_ok (hm2 : m ≤ 134217727) (k : ℕ) (hk : k < 4 * m + 1) :
    lowPass2 Kernels.exact 1 4 (k : ℤ) (4 * m + 1 : ℕ) = .ok (passBand 0 (1 / 4) ((k : ℝ) - (2 * m : ℕ))) := by
  rw [(C64_rational _ _ (by omega) (by omega) 1 4 (by omega) (by omega) (by omega) (by omega) (by omega) (by omega) (by omega) (by omega) (by omega)).1,
    (C64_ideal _ _ (by omega) (by omega) _ 0 0).1]
  congr 2
  · norm_num
  · push_cast; ring

theorem make_ok (hm2 : m ≤ 134217727) (a : ℝ) (w : ℤ → ℝ) (hw : IsTaper (4 * m + 1 : ℕ) w)
    (h : ∀ n : ℤ, 0 ≤ n → n < (4 * m + 1 : ℕ) → Win.kaiser a n (4 * m + 1 : ℕ) = .ok (w n)) (real imag imco : List ℝ)
    (hr : real.length = m) (hg : imag.length = 2 * m) (hi : imco.length = m) (x : ℕ → ℝ) :
    make Kernels.exact (4 * m + 1) a real imag imco = .ok (state m (taps m w) x 0) := by
  have h1 : w ((2 * m : ℕ) : ℤ) = 1 := hw.peak _ (by push_cast; ring)
  simp only [make, half, quarter]
  rw [h _ (by omega) (by omega), h1, lowPass2_ok hm2 _ (by omega), sub_self, halfBand_zero]
  have one : (1 : ℝ) * (1 / 2) = 1 / 2 := one_mul _
  have hfill : (List.range m).foldlM (fun imco (i : ℕ) => do
      let w ← Win.kaiser a (2 * i + 2 * m + 1 : ℕ) (4 * m + 1 : ℕ)
      let h ← lowPass2 Kernels.exact 1 4 (2 * i + 2 * m + 1 : ℕ) (4 * m + 1 : ℕ)
      wr imco i (w * h)) imco = .ok ((List.range m).map fun i => taps m w (2 * i + 2 * m + 1)) := by
    refine update_loop _ _ _ _ hi (by simp) fun b i u v hi hb _ _ hv => ?_
    rw [List.getElem?_map, List.getElem?_range hi, Option.map_some, Option.some.injEq] at hv
    rw [h _ (by omega) (by omega), lowPass2_ok hm2 _ (by omega), ok_bind, ok_bind, ← hv]
    exact wr_nat (by omega)
  rw [ok_bind, ok_bind, hfill, ok_bind, clear_ok real m hr, clear_ok imag (2 * m) hg, ok_bind, ok_bind]
  simp only [pure, Except.pure, state, one]
  congr 2
  · refine List.map_congr_left fun j hj => ?_
    rw [List.mem_range] at hj
    rw [past, if_neg (by omega)]
  · refine List.map_congr_left fun j hj => ?_
    rw [List.mem_range] at hj
    rw [past, if_neg (by omega)]

/-- The filter as a sum over pairs of taps: those beside the centre see the even samples only. -/
theorem fir_pairs (w : ℤ → ℝ) (hw : ∀ n : ℤ, 0 ≤ n → n < (4 * m + 1 : ℕ) → w ((4 * m + 1 : ℕ) - 1 - n) = w n) (h1 : w ((2 * m : ℕ) : ℤ) = 1) (x : ℕ → ℝ) (t : ℕ) :
    fir (4 * m + 1) (fun k => ((w k * passBand 0 (1 / 4) ((k : ℝ) - (2 * m : ℕ)) : ℝ) : ℂ)) (past (quarterRate x)) (2 * (t : ℤ) + 1) =
      ⟨1 / 2 * past (alt fun n => x (2 * n + 1)) ((t : ℤ) - m), ∑ i ∈ Finset.range m, taps m w (2 * i + 2 * m + 1) *
        (past (alt fun n => x (2 * n)) ((t + 1 : ℕ) - (2 * m : ℕ) + (m - 1 - i : ℕ)) + past (alt fun n => x (2 * n)) ((t + 1 : ℕ) - (2 * m : ℕ) + (m + i : ℕ)))⟩ := by
  have hp : ∀ i < m, past (quarterRate x) (2 * (t : ℤ) + 1 - (2 * m + (2 * i + 1) : ℕ)) = Complex.I * ((past (alt fun n => x (2 * n)) ((t + 1 : ℕ) - (2 * m : ℕ) + (m - 1 - i : ℕ)) : ℝ) : ℂ) ∧
      past (quarterRate x) (2 * (t : ℤ) + 1 - (2 * m - (2 * i + 1) : ℕ)) = Complex.I * ((past (alt fun n => x (2 * n)) ((t + 1 : ℕ) - (2 * m : ℕ) + (m + i : ℕ)) : ℝ) : ℂ) := by
    intro i hi
    rw [← mixed_even, ← mixed_even]
    constructor <;> (congr 1; omega)
  have hw2 : ∀ i < m, w ((2 * m - (2 * i + 1) : ℕ) : ℤ) = w ((2 * m + (2 * i + 1) : ℕ) : ℤ) := by
    intro i hi
    rw [← hw _ (by omega) (by omega)]
    congr 1
    omega
  rw [fir, sum_odd _ m]
  · rw [sub_self, halfBand_zero, h1, show 2 * (t : ℤ) + 1 - (2 * m : ℕ) = 2 * ((t : ℤ) - m) + 1 by push_cast; ring, mixed_odd]
    have hsum : ∀ i ∈ Finset.range m, (((w (2 * m + (2 * i + 1) : ℕ) * passBand 0 (1 / 4) (((2 * m + (2 * i + 1) : ℕ) : ℝ) - (2 * m : ℕ)) : ℝ) : ℂ) *
        past (quarterRate x) (2 * (t : ℤ) + 1 - (2 * m + (2 * i + 1) : ℕ)) +
        ((w (2 * m - (2 * i + 1) : ℕ) * passBand 0 (1 / 4) (((2 * m - (2 * i + 1) : ℕ) : ℝ) - (2 * m : ℕ)) : ℝ) : ℂ) *
        past (quarterRate x) (2 * (t : ℤ) + 1 - (2 * m - (2 * i + 1) : ℕ))) =
        Complex.I * ((taps m w (2 * i + 2 * m + 1) * (past (alt fun n => x (2 * n)) ((t + 1 : ℕ) - (2 * m : ℕ) + (m - 1 - i : ℕ)) +
          past (alt fun n => x (2 * n)) ((t + 1 : ℕ) - (2 * m : ℕ) + (m + i : ℕ))) : ℝ) : ℂ) := by
      intro i hi
      rw [Finset.mem_range] at hi
      have e2 : (((2 * m - (2 * i + 1) : ℕ) : ℝ)) - (2 * m : ℕ) = -(((2 * m + (2 * i + 1) : ℕ) : ℝ) - (2 * m : ℕ)) := by
        rw [Nat.cast_sub (by omega)]; push_cast; ring
      rw [(hp i hi).1, (hp i hi).2, hw2 i hi, e2, passBand_neg, taps, show 2 * i + 2 * m + 1 = 2 * m + (2 * i + 1) by ring]
      push_cast
      ring
    rw [Finset.sum_congr rfl hsum, ← Finset.mul_sum]
    apply Complex.ext
    · simp
    · simp
  · intro i h1 h2
    have e2 : (((2 * m - 2 * i : ℕ) : ℝ)) - (2 * m : ℕ) = 2 * ((-i : ℤ) : ℝ) := by rw [Nat.cast_sub (by omega)]; push_cast; ring
    have e3 : (((2 * m + 2 * i : ℕ) : ℝ)) - (2 * m : ℕ) = 2 * ((i : ℤ) : ℝ) := by push_cast; ring
    rw [e2, e3, halfBand_even _ (by omega), halfBand_even _ (by omega)]
    simp

include hm in
theorem call_ok (w : ℤ → ℝ) (hw : IsTaper (4 * m + 1 : ℕ) w) (x : ℕ → ℝ) (t : ℕ) :
    call (4 * m + 1) (state m (taps m w) x t) (x (2 * t), x (2 * t + 1)) = .ok (state m (taps m w) x (t + 1),
      fir (4 * m + 1) (fun k => ((w k * passBand 0 (1 / 4) ((k : ℝ) - (2 * m : ℕ)) : ℝ) : ℂ)) (past (quarterRate x)) (2 * (t : ℤ) + 1)) := by
  have hsign : (!(decide (t % 2 = 1))) = decide ((t + 1) % 2 = 1) := by
    by_cases c : t % 2 = 1
    · simp [c, show ¬ (t + 1) % 2 = 1 by omega]
    · simp [c, show (t + 1) % 2 = 1 by omega]
  have hval : ∀ y : ℕ → ℝ, (if decide ((t + 1) % 2 = 1) = true then y t else -y t) = past (alt y) t := by
    intro y
    rw [show past (alt y) t = alt y t by simp [past], alt]
    by_cases c : (t + 1) % 2 = 1
    · rw [if_pos (decide_eq_true c), (Nat.even_iff.mpr (by omega) : Even t).neg_one_pow, one_mul]
    · rw [if_neg (by rw [decide_eq_true_eq]; exact c), (Nat.odd_iff.mpr (by omega) : Odd t).neg_one_pow]; ring
  have hs1 := shiftIn_ok (fun j : ℕ => past (alt fun n => x (2 * n + 1)) ((t : ℤ) - m + j)) m hm _ rfl
  have hs2 := shiftIn_ok (fun j : ℕ => past (alt fun n => x (2 * n)) ((t : ℤ) - (2 * m : ℕ) + j)) (2 * m) (by omega) _ rfl
  rw [show (t : ℤ) - m + m = t by ring, ← hval] at hs1
  rw [show (t : ℤ) - (2 * m : ℕ) + (2 * m : ℕ) = t by ring, ← hval] at hs2
  have e1 : ∀ j : ℕ, (t : ℤ) - m + (j + 1 : ℕ) = (t + 1 : ℕ) - m + j := fun j => by push_cast; ring
  have e2 : ∀ j : ℕ, (t : ℤ) - (2 * m : ℕ) + (j + 1 : ℕ) = (t + 1 : ℕ) - (2 * m : ℕ) + j := fun j => by push_cast; ring
  simp only [e1] at hs1
  simp only [e2] at hs2
  have hterm : ∀ i < m, (state m (taps m w) x (t + 1)).term (4 * m + 1) i = .ok (taps m w (2 * i + 2 * m + 1) *
      (past (alt fun n => x (2 * n)) ((t + 1 : ℕ) - (2 * m : ℕ) + (m - 1 - i : ℕ)) + past (alt fun n => x (2 * n)) ((t + 1 : ℕ) - (2 * m : ℕ) + (m + i : ℕ)))) := by
    intro i hi
    simp only [term, quarter, state]
    rw [rd_map_range _ _ i _ rfl hi, rd_map_range _ _ (m - 1 - i) _ (by omega) (by omega), rd_map_range _ _ (m + i) _ (by omega) (by omega)]
    rfl
  have hs := sum_rest (fun i => (state m (taps m w) x (t + 1)).term (4 * m + 1) i) _ m hm hterm
  simp only [call, half, quarter]
  rw [show rd (state m (taps m w) x t).real 0 = _ from rd_map_range _ _ 0 _ rfl hm]
  simp only [bind, Except.bind, show (state m (taps m w) x t).sign = decide (t % 2 = 1) from rfl, hsign]
  rw [show shiftIn (state m (taps m w) x t).real m _ = _ from hs1]
  simp only []
  rw [show shiftIn (state m (taps m w) x t).imag (2 * m) _ = _ from hs2]
  simp only []
  rw [show (CDC.mk ((List.range m).map fun (j : ℕ) => past (alt fun n => x (2 * n + 1)) ((t + 1 : ℕ) - m + j))
    ((List.range (2 * m)).map fun (j : ℕ) => past (alt fun n => x (2 * n)) ((t + 1 : ℕ) - (2 * m : ℕ) + j)) (state m (taps m w) x t).imco
    (state m (taps m w) x t).reco (decide ((t + 1) % 2 = 1))) = state m (taps m w) x (t + 1) from rfl]
  simp only [bind, Except.bind] at hs
  rw [hterm 0 hm]
  simp only []
  rw [hs]
  simp only [pure, Except.pure]
  congr 2
  rw [fir_pairs w hw.symmetric (hw.peak _ (by push_cast; ring)) x t]
  simp [state]

include hm in
/-- For every odd length of the form `4m+1` but one, every Kaiser parameter, whatever the arrays contained, and every input: the outputs are every other sample of the
signal that was mixed down by a quarter of the sampling rate and filtered by the ideal low-pass for the lower half of the frequencies, shortened to `4m + 1` taps by
the Kaiser window. The skipped coefficients are the zeros of that filter. -/
theorem C54_downconvert (hm2 : m ≤ 134217727) (a : ℝ) (real imag imco : List ℝ) (hr : real.length = m) (hg : imag.length = 2 * m) (hi : imco.length = m) :
    ∃ c w, make Kernels.exact (4 * m + 1) a real imag imco = .ok c ∧ IsTaper (4 * m + 1 : ℕ) w ∧
      (∀ n : ℤ, 0 ≤ n → n < (4 * m + 1 : ℕ) → Win.kaiser a n (4 * m + 1 : ℕ) = .ok (w n)) ∧
      ∀ (x : ℕ → ℝ) (T : ℕ), ∃ c', run (call (4 * m + 1)) c ((List.range T).map fun (t : ℕ) => (x (2 * t), x (2 * t + 1))) = .ok (c', (List.range T).map fun (t : ℕ) =>
        fir (4 * m + 1) (fun k => ((w k * passBand 0 (1 / 4) ((k : ℝ) - (2 * m : ℕ)) : ℝ) : ℂ)) (past (quarterRate x)) (2 * (t : ℤ) + 1)) := by
  obtain ⟨w, hw, hk⟩ := Win.C63_window a (4 * m + 1 : ℕ) (by omega) (by omega)
  have hk := fun n h0 h1 => (hk n h0 h1).1
  refine ⟨_, w, make_ok hm2 a w hw hk real imag imco hr hg hi (fun _ => 0), hw, hk, fun x T => ⟨state m (taps m w) x T, ?_⟩⟩
  have e := make_ok hm2 a w hw hk real imag imco hr hg hi (fun _ => 0)
  rw [make_ok hm2 a w hw hk real imag imco hr hg hi x] at e
  rw [← Except.ok.inj e]
  exact run_known _ _ (state m (taps m w) x) _ (call_ok hm w hw x) T

/-- Five taps. -/
example : ∃ c, make Kernels.exact 5 2 [1] [2, 3] [7] = .ok c ∧ ∃ c' ys, run (call 5) c [(1, 2), (3, 4)] = .ok (c', ys) ∧ ys.length = 2 := by
  obtain ⟨c, w, e, -, -, H⟩ := C54_downconvert (m := 1) (by norm_num) (by norm_num) 2 [1] [2, 3] [7] rfl rfl rfl
  obtain ⟨c', e'⟩ := H (fun t => t + 1) 2
  have e2 : (List.range 2).map (fun (t : ℕ) => ((((2 * t : ℕ) : ℝ) + 1, ((2 * t + 1 : ℕ) : ℝ) + 1) : ℝ × ℝ)) = [(1, 2), (3, 4)] := by
    norm_num [List.range_succ]
  simp only [e2] at e'
  exact ⟨c, e, c', _, e', by simp⟩

/-- The class accepts a single tap (`0 % 4 == 0`), but then reads past the end of its arrays in every call. -/
theorem C54_one_tap (c : CDC) (x : ℝ × ℝ) (hr : c.real.length = 0) : call 1 c x = .error .bounds := by
  simp only [call, bind, Except.bind]
  rw [rd_error (by omega)]

example : call 1 ⟨[], [], [], 1 / 2, false⟩ (1, 2) = .error .bounds := C54_one_tap _ _ rfl

end DSP.CDC
