import Verif.Lemmas.Shift
import Verif.Spec.Convolution
import Verif.Spec.Taper
import Verif.Props.Kaiser
import Verif.Props.Fir

/-!
# C55: the Hilbert transformer
-/

namespace DSP.Hilbert
open Spec Fir

theorem quarterTurn_even (i : ℤ) : quarterTurn (2 * i) = 0 := by
  by_cases h : (i : ℝ) = 0
  · rw [h, mul_zero, quarterTurn_zero]
  · rw [quarterTurn_ne _ (mul_ne_zero two_ne_zero h), show Real.pi * (2 * (i : ℝ)) = (i : ℝ) * (2 * Real.pi) by ring, Real.cos_int_mul_two_pi, sub_self, zero_div]

theorem quarterTurn_odd (i : ℕ) : quarterTurn (((2 * i + 1 : ℕ) : ℝ)) = 2 / (((2 * i + 1 : ℕ) : ℝ) * Real.pi) := by
  have h : (((2 * i + 1 : ℕ) : ℝ)) ≠ 0 := by positivity
  rw [quarterTurn_ne _ h]
  have : Real.cos (Real.pi * ((2 * i + 1 : ℕ) : ℝ)) = -1 := by
    push_cast
    rw [show Real.pi * (2 * (i : ℝ) + 1) = (i : ℝ) * (2 * Real.pi) + Real.pi by ring, Real.cos_add_pi, Real.cos_nat_mul_two_pi]
  rw [this]
  ring_nf

/-- The states for the input `x`. -/
noncomputable def state (m : ℕ) (w : ℤ → ℝ) (x : ℕ → ℝ) (t : ℕ) : Hilbert :=
  ⟨(List.range (4 * m + 1)).map fun (j : ℕ) => past x ((t : ℤ) - (4 * m + 1 : ℕ) + j),
    (List.range m).map fun (i : ℕ) => w ((2 * i + 1) + 2 * m : ℕ) * 2 / (((2 * i + 1 : ℕ) : ℝ) * Real.pi), 1⟩

variable {m : ℕ} (hm : 1 ≤ m)

theorem half (m : ℕ) : (4 * m + 1 - 1) / 2 = 2 * m := by omega
theorem quarter (m : ℕ) : (4 * m + 1 - 1) / 4 = m := by omega

theorem make_ok (a : ℝ) (w : ℤ → ℝ) (hw : IsTaper (4 * m + 1 : ℕ) w)
    (h : ∀ n : ℤ, 0 ≤ n → n < (4 * m + 1 : ℕ) → Win.kaiser a n (4 * m + 1 : ℕ) = .ok (w n)) (real imco : List ℝ) (hr : real.length = 4 * m + 1) (hi : imco.length = m)
    (x : ℕ → ℝ) : make (4 * m + 1) a real imco = .ok (state m w x 0) := by
  have h1 : w ((2 * m : ℕ) : ℤ) = 1 := hw.peak _ (by push_cast; ring)
  simp only [make, half, quarter]
  rw [h _ (by omega) (by omega), h1]
  have hfill := fill_ok imco m hi (fun i => do
    let w ← Win.kaiser a ((2 * i + 1) + 2 * m : ℕ) (4 * m + 1 : ℕ)
    fdiv (w * 2) (((2 * i + 1 : ℕ) : ℝ) * Real.pi)) (fun i => w ((2 * i + 1) + 2 * m : ℕ) * 2 / (((2 * i + 1 : ℕ) : ℝ) * Real.pi)) (fun i hi => by
      rw [h _ (by omega) (by omega)]
      simp only [bind, Except.bind]
      exact fdiv_ok (mul_ne_zero (by positivity) Real.pi_ne_zero))
  simp only [bind_assoc] at hfill
  simp only [bind, Except.bind] at hfill ⊢
  rw [hfill]
  simp only [clear_ok real (4 * m + 1) hr, pure, Except.pure, state]
  congr 2
  refine List.map_congr_left fun j hj => ?_
  rw [List.mem_range] at hj
  rw [past, if_neg (by omega)]

/-- The filter as a sum over pairs of taps. -/
theorem fir_pairs (w : ℤ → ℝ) (hw : ∀ n : ℤ, 0 ≤ n → n < (4 * m + 1 : ℕ) → w ((4 * m + 1 : ℕ) - 1 - n) = w n) (y : ℤ → ℝ) (j : ℤ) :
    fir (4 * m + 1) (fun k => w k * quarterTurn ((k : ℝ) - (2 * m : ℕ))) y j = ∑ i ∈ Finset.range m, w ((2 * i + 1) + 2 * m : ℕ) * 2 / (((2 * i + 1 : ℕ) : ℝ) * Real.pi) *
      (y (j - ((2 * i + 1 + 2 * m : ℕ) : ℤ)) - y (j - ((2 * m - (2 * i + 1) : ℕ) : ℤ))) := by
  rw [fir, sum_odd _ m]
  · rw [sub_self, quarterTurn_zero, mul_zero, zero_mul, zero_add]
    refine Finset.sum_congr rfl fun i hi => ?_
    rw [Finset.mem_range] at hi
    have e1 : w ((2 * m - (2 * i + 1) : ℕ) : ℤ) = w ((2 * i + 1) + 2 * m : ℕ) := by
      rw [← hw _ (by omega) (by omega)]
      congr 1
      omega
    have e2 : (((2 * m - (2 * i + 1) : ℕ) : ℝ)) - (2 * m : ℕ) = -((2 * i + 1 : ℕ) : ℝ) := by
      rw [Nat.cast_sub (by omega)]; push_cast; ring
    have e3 : (((2 * m + (2 * i + 1) : ℕ) : ℝ)) - (2 * m : ℕ) = ((2 * i + 1 : ℕ) : ℝ) := by push_cast; ring
    rw [e1, e2, e3, quarterTurn_neg, quarterTurn_odd, Nat.add_comm (2 * m) (2 * i + 1)]
    ring
  · intro i h1 h2
    have e2 : (((2 * m - 2 * i : ℕ) : ℝ)) - (2 * m : ℕ) = 2 * ((-i : ℤ) : ℝ) := by rw [Nat.cast_sub (by omega)]; push_cast; ring
    have e3 : (((2 * m + 2 * i : ℕ) : ℝ)) - (2 * m : ℕ) = 2 * ((i : ℤ) : ℝ) := by push_cast; ring
    rw [e2, e3, quarterTurn_even, quarterTurn_even]
    simp

include hm in
theorem call_ok (w : ℤ → ℝ) (hw : IsTaper (4 * m + 1 : ℕ) w) (x : ℕ → ℝ) (t : ℕ) :
    call (4 * m + 1) (state m w x t) (x t) = .ok (state m w x (t + 1),
      ⟨past x ((t : ℤ) - 1 - (2 * m : ℕ)), fir (4 * m + 1) (fun k => w k * quarterTurn ((k : ℝ) - (2 * m : ℕ))) (past x) ((t : ℤ) - 1)⟩) := by
  have hterm : ∀ i < m, (state m w x t).term (4 * m + 1) i = .ok (w ((2 * i + 1) + 2 * m : ℕ) * 2 / (((2 * i + 1 : ℕ) : ℝ) * Real.pi) *
      (past x ((t : ℤ) - (4 * m + 1 : ℕ) + (2 * m - (2 * i + 1) : ℕ)) - past x ((t : ℤ) - (4 * m + 1 : ℕ) + (2 * m + (2 * i + 1) : ℕ)))) := by
    intro i hi
    simp only [term, half, state]
    rw [rd_map_range _ _ i _ rfl hi, rd_map_range _ _ (2 * m - (2 * i + 1)) _ (by omega) (by omega), rd_map_range _ _ (2 * m + (2 * i + 1)) _ (by omega) (by omega)]
    rfl
  have hshift := shiftIn_ok (fun j : ℕ => past x ((t : ℤ) - (4 * m + 1 : ℕ) + j)) (4 * m + 1) (by omega) _ rfl
  have hlast : past x ((t : ℤ) - (4 * m + 1 : ℕ) + (4 * m + 1 : ℕ)) = x t := by rw [past, if_pos (by omega)]; congr 1; omega
  simp only [hlast] at hshift
  simp only [call, half, quarter]
  rw [show rd (state m w x t).real ((2 * m : ℕ) : ℤ) = _ from rd_map_range _ _ (2 * m) _ rfl (by omega)]
  simp only [bind, Except.bind, hterm 0 (by omega)]
  have hs := sum_rest (fun i => (state m w x t).term (4 * m + 1) i) _ m hm hterm
  simp only [bind, Except.bind] at hs
  rw [hs]
  simp only [show shiftIn (state m w x t).real (4 * m + 1) (x t) = _ from hshift, pure, Except.pure]
  congr 2
  · simp only [state]
    congr 1
    refine List.map_congr_left fun j _ => ?_
    congr 1
    push_cast; ring
  · congr 1
    · rw [show (state m w x t).reco = 1 from rfl, one_mul]
      congr 1
      push_cast; ring
    · rw [fir_pairs w hw.symmetric]
      refine Finset.sum_congr rfl fun i hi => ?_
      rw [Finset.mem_range] at hi
      rw [show (t : ℤ) - (4 * m + 1 : ℕ) + (2 * m - (2 * i + 1) : ℕ) = (t : ℤ) - 1 - ((2 * i + 1 + 2 * m : ℕ) : ℤ) by omega,
        show (t : ℤ) - (4 * m + 1 : ℕ) + (2 * m + (2 * i + 1) : ℕ) = (t : ℤ) - 1 - ((2 * m - (2 * i + 1) : ℕ) : ℤ) by omega]

include hm in
/-- For every odd length of the form `4m+1` but one, every Kaiser parameter, whatever the arrays contained, and every input: the real part of the output is the input,
`2m + 1` samples ago, and the imaginary part is the input filtered by the ideal Hilbert transformer, shortened to `4m + 1` taps by the Kaiser window, with the same delay of
its centre. -/
theorem C55_fir (hm2 : m ≤ 268435455) (a : ℝ) (real imco : List ℝ) (hr : real.length = 4 * m + 1) (hi : imco.length = m) :
    ∃ h w, make (4 * m + 1) a real imco = .ok h ∧ IsTaper (4 * m + 1 : ℕ) w ∧ (∀ n : ℤ, 0 ≤ n → n < (4 * m + 1 : ℕ) → Win.kaiser a n (4 * m + 1 : ℕ) = .ok (w n)) ∧
      ∀ (x : ℕ → ℝ) (T : ℕ), ∃ h', run (call (4 * m + 1)) h ((List.range T).map x) = .ok (h', (List.range T).map fun (t : ℕ) =>
        ⟨past x ((t : ℤ) - 1 - (2 * m : ℕ)), fir (4 * m + 1) (fun k => w k * quarterTurn ((k : ℝ) - (2 * m : ℕ))) (past x) ((t : ℤ) - 1)⟩) := by
  obtain ⟨w, hw, hk⟩ := Win.C63_window a (4 * m + 1 : ℕ) (by omega) (by omega)
  have hk := fun n h0 h1 => (hk n h0 h1).1
  refine ⟨state m w (fun _ => 0) 0, w, make_ok a w hw hk real imco hr hi _, hw, hk, fun x T => ⟨state m w x T, ?_⟩⟩
  have e := make_ok a w hw hk real imco hr hi (fun _ => 0)
  rw [make_ok a w hw hk real imco hr hi x] at e
  rw [← Except.ok.inj e]
  exact run_known _ x (state m w x) _ (call_ok hm w hw x) T

/-- Five taps, and the answer to an impulse: the real part comes in the fourth call. -/
example : ∃ h, make 5 2 [1, 2, 3, 4, 5] [7] = .ok h ∧ ∃ h' ys, run (call 5) h ((List.range 4).map fun t => if t = 0 then 1 else 0) = .ok (h', ys) ∧
    ys.map Complex.re = [0, 0, 0, 1] := by
  obtain ⟨h, w, e, -, -, H⟩ := C55_fir (m := 1) (by norm_num) (by norm_num) 2 [1, 2, 3, 4, 5] [7] rfl rfl
  obtain ⟨h', e'⟩ := H (fun t => if t = 0 then 1 else 0) 4
  refine ⟨h, e, h', _, e', ?_⟩
  simp [List.range_succ, past]

/-- The class accepts a single tap (`0 % 4 == 0`), but then reads past the end of its arrays in every call. -/
theorem C55_one_tap (h : Hilbert) (x : ℝ) (hr : h.real.length = 1) (hi : h.imco.length = 0) : call 1 h x = .error .bounds := by
  simp only [call, bind, Except.bind]
  rw [rd_ok (by omega) (by omega)]
  simp only [term, bind, Except.bind]
  rw [rd_error (by omega)]

example : call 1 ⟨[0], [], 1⟩ 5 = .error .bounds := C55_one_tap _ _ rfl rfl

end DSP.Hilbert
