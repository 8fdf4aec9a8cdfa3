import Verif.Props.CDC
import Verif.Props.HilbertError

/-!
# The complex down-converter in floating point (C87)
-/

namespace DSP.CDC
open Spec Fir

variable {m : ℕ} (hm : 1 ≤ m)

/-- The pairs are no more than the taps. -/
theorem pairs_le (w : ℤ → ℝ) (hw : ∀ n : ℤ, 0 ≤ n → n < (4 * m + 1 : ℕ) → w ((4 * m + 1 : ℕ) - 1 - n) = w n) (x : ℕ → ℝ) (t : ℕ) :
    ∑ i ∈ Finset.range m, |taps m w (2 * i + 2 * m + 1) *
        (past (alt fun n => x (2 * n)) ((t + 1 : ℕ) - (2 * m : ℕ) + (m - 1 - i : ℕ)) + past (alt fun n => x (2 * n)) ((t + 1 : ℕ) - (2 * m : ℕ) + (m + i : ℕ)))| ≤
      fir (4 * m + 1) (fun k => |w k * passBand 0 (1 / 4) ((k : ℝ) - (2 * m : ℕ))|) (fun j => ‖past (quarterRate x) j‖) (2 * (t : ℤ) + 1) := by
  have hp : ∀ i < m, ‖past (quarterRate x) (2 * (t : ℤ) + 1 - (2 * m + (2 * i + 1) : ℕ))‖ = |past (alt fun n => x (2 * n)) ((t + 1 : ℕ) - (2 * m : ℕ) + (m - 1 - i : ℕ))| ∧
      ‖past (quarterRate x) (2 * (t : ℤ) + 1 - (2 * m - (2 * i + 1) : ℕ))‖ = |past (alt fun n => x (2 * n)) ((t + 1 : ℕ) - (2 * m : ℕ) + (m + i : ℕ))| := by
    intro i hi
    rw [show (2 * (t : ℤ) + 1 - (2 * m + (2 * i + 1) : ℕ)) = 2 * ((t + 1 : ℕ) - (2 * m : ℕ) + (m - 1 - i : ℕ)) by omega,
      show (2 * (t : ℤ) + 1 - (2 * m - (2 * i + 1) : ℕ)) = 2 * ((t + 1 : ℕ) - (2 * m : ℕ) + (m + i : ℕ)) by omega, mixed_even, mixed_even]
    simp
  rw [fir, sum_odd _ m]
  · refine le_add_of_nonneg_of_le (mul_nonneg (abs_nonneg _) (norm_nonneg _)) (Finset.sum_le_sum fun i hi => ?_)
    rw [Finset.mem_range] at hi
    have hw2 : w ((2 * m - (2 * i + 1) : ℕ) : ℤ) = w ((2 * m + (2 * i + 1) : ℕ) : ℤ) := by
      rw [← hw _ (by omega) (by omega)]
      congr 1
      omega
    have e2 : (((2 * m - (2 * i + 1) : ℕ) : ℝ)) - (2 * m : ℕ) = -(((2 * m + (2 * i + 1) : ℕ) : ℝ) - (2 * m : ℕ)) := by
      rw [Nat.cast_sub (by omega)]; push_cast; ring
    rw [(hp i hi).1, (hp i hi).2, hw2, e2, passBand_neg, taps, show 2 * i + 2 * m + 1 = 2 * m + (2 * i + 1) by ring, abs_mul, ← mul_add]
    exact mul_le_mul_of_nonneg_left (abs_add_le _ _) (abs_nonneg _)
  · intro i h1 h2
    have e2 : (((2 * m - 2 * i : ℕ) : ℝ)) - (2 * m : ℕ) = 2 * ((-i : ℤ) : ℝ) := by rw [Nat.cast_sub (by omega)]; push_cast; ring
    have e3 : (((2 * m + 2 * i : ℕ) : ℝ)) - (2 * m : ℕ) = 2 * ((i : ℤ) : ℝ) := by push_cast; ring
    rw [e2, e3, halfBand_even _ (by omega), halfBand_even _ (by omega)]
    simp

section
variable (l p : ℕ) [NeZero p] (hp : 16 ≤ p) (hp' : p ≤ 53) (hl : p ≤ l) (a : Binary p) (ha : |(a.val : ℝ)| ≤ 3) (A : ℕ) (hA : 60 + 85 * (a.val : ℝ) ^ 2 ≤ A)

/-- The half band filter of the down-converter. -/
abbrev halfBand : ℤ → ℤ → M (Binary p) := Fir.Rounded.lowPass2 (Kernels.of (UnitCircle.Coeffs.binary l p)) (Fir.Rounded.halfPi l p) 1 4

include hm hp hp' hl ha hA in
theorem imco_rel (hm2 : m < 2 ^ 27) (i : ℕ) (hi : i < m) : ∃ w h, Win.Rounded.kaiserBinary l p a (2 * i + 2 * m + 1 : ℕ) (4 * m + 1 : ℕ) = .ok w ∧
    halfBand l p (2 * i + 2 * m + 1 : ℕ) (4 * m + 1 : ℕ) = .ok h ∧ Rel (1 / 2 ^ p) (A + 32) ((w * h).val : ℝ) (taps m (kaiserWindow a.val (4 * m + 1)) (2 * i + 2 * m + 1)) := by
  have hR := binary_roundedField p
  have hu0 : (0 : ℝ) ≤ 1 / 2 ^ p := by positivity
  obtain ⟨w, ew, hw⟩ := kaiser_rel l p hp hp' hl a ha A hA m hm (by omega) (2 * i + 2 * m + 1) (by omega)
  obtain ⟨h, eh, hh⟩ := Fir.C86_lowPass2 l p (by omega) hp' hl (2 * i + 2 * m + 1 : ℕ) (4 * m + 1 : ℕ) (by omega) (by omega) 1 4 (by omega) (by omega) (by omega) (by omega) (by omega) (by omega) (by omega) (by omega) (by omega)
  refine ⟨w, h, ew, eh, ?_⟩
  have ex : (((2 * i + 2 * m + 1 : ℕ) : ℤ) : ℝ) - ((((4 * m + 1 : ℕ) : ℤ) : ℝ) - 1) / 2 = ((2 * i + 2 * m + 1 : ℕ) : ℝ) - (2 * m : ℕ) := by push_cast; ring
  have eq : ((1 : ℤ) : ℝ) / ((4 : ℤ) : ℝ) = 1 / 4 := by norm_num
  rw [ex, eq] at hh
  have rh : Rel (1 / 2 ^ p) 31 (h.val : ℝ) _ := Rel.of_le hu0 hh (by push_cast; exact le_of_eq (by ring))
  exact hw.mul hu0 rh (hR.mul _ _)

include hp in
theorem middle : ∃ h, halfBand l p (2 * m : ℕ) (4 * m + 1 : ℕ) = .ok h ∧ h.val = 1 / 2 ∨ 2 ^ 27 ≤ m := by
  by_cases hm2 : 2 ^ 27 ≤ m
  · exact ⟨0, Or.inr hm2⟩
  have r : ∀ k : ℤ, 0 ≤ k → k < 2 ^ p → Binary.round p (k : ℚ) = k := fun k h0 h1 => Binary.round_of_representable p _ ⟨k, 0, by rw [abs_of_nonneg h0]; exact h1, by simp⟩
  have hp4 : (2 : ℤ) ^ 3 ≤ 2 ^ p := pow_le_pow_right₀ (by norm_num) (by omega)
  have h2 : (((2 * 1 : ℤ)) : Binary p).val = 2 := by
    show Binary.round p (((2 * 1 : ℤ)) : ℚ) = 2
    rw [r _ (by norm_num) (by linarith)]; norm_num
  have h4 : ((4 : ℤ) : Binary p).val = 4 := by
    show Binary.round p ((4 : ℤ) : ℚ) = 4
    rw [r _ (by norm_num) (by linarith)]; norm_num
  have h0 : (((4 : ℤ) : Binary p).val : ℝ) ≠ 0 := by rw [h4]; norm_num
  refine ⟨((2 * 1 : ℤ) : Binary p) / ((4 : ℤ) : Binary p), Or.inl ⟨?_, ?_⟩⟩
  · simp only [halfBand, Fir.Rounded.lowPass2, Fir.Rounded.factor, int32_fits (show -2147483648 ≤ 2 * (1 : ℤ) ∧ 2 * (1 : ℤ) ≤ 2147483647 by omega), bind, Except.bind, Fir.fdiv_ok' p _ _ h0,
      Fir.twoX_ok' (2 * m : ℕ) (4 * m + 1 : ℕ) (by omega) (by omega) (by omega) (by omega) (by omega)]
    rw [show (2 * ((2 * m : ℕ) : ℤ) - (((4 * m + 1 : ℕ) : ℤ) - 1) == 0) = true from beq_iff_eq.mpr (by omega)]
    rfl
  · show Binary.round p (_ / _) = 1 / 2
    rw [h2, h4]
    refine (Binary.round_of_representable p _ ⟨1, -1, ?_, by norm_num⟩).trans (by norm_num)
    rw [abs_one]
    linarith

end

namespace Rounded

/-- Every other sign. -/
def alt {V : Type} [Neg V] (y : ℕ → V) (n : ℕ) : V := if n % 2 = 0 then y n else -y n

theorem alt_val {p : ℕ} [NeZero p] (y : ℕ → Binary p) (u : ℤ) : ((past (alt y) u).val : ℝ) = past (CDC.alt fun n => ((y n).val : ℝ)) u := by
  rw [Hilbert.past_val]
  congr 1
  funext n
  simp only [alt, CDC.alt]
  by_cases h : n % 2 = 0
  · rw [if_pos h, (Nat.even_iff.mpr h).neg_one_pow, one_mul]
  · rw [if_neg h, (Nat.odd_iff.mpr (by omega)).neg_one_pow, neg_one_mul]
    exact Rat.cast_neg _

/-- The states for the input `x`. -/
def state {V : Type} [Zero V] [Neg V] (m : ℕ) (c : ℕ → V) (half : V) (x : ℕ → V) (t : ℕ) : State V :=
  ⟨(List.range m).map fun (j : ℕ) => past (alt fun n => x (2 * n + 1)) ((t : ℤ) - m + j),
    (List.range (2 * m)).map fun (j : ℕ) => past (alt fun n => x (2 * n)) ((t : ℤ) - (2 * m : ℕ) + j), (List.range m).map c, half, decide (t % 2 = 1)⟩

/-- The terms of the imaginary part. -/
def terms {V : Type} [Zero V] [Mul V] [Neg V] [Add V] (m : ℕ) (c : ℕ → V) (x : ℕ → V) (t : ℕ) (i : ℕ) : V :=
  c i * (past (alt fun n => x (2 * n)) ((t + 1 : ℕ) - (2 * m : ℕ) + (m - 1 - i : ℕ)) + past (alt fun n => x (2 * n)) ((t + 1 : ℕ) - (2 * m : ℕ) + (m + i : ℕ)))

include hm in
theorem call_ok {V : Type} [Zero V] [Add V] [Sub V] [Mul V] [Neg V] (c : ℕ → V) (half : V) (x : ℕ → V) (t : ℕ) :
    call (4 * m + 1) (state m c half x t) (x (2 * t), x (2 * t + 1)) = .ok (state m c half x (t + 1),
      (half * past (alt fun n => x (2 * n + 1)) ((t : ℤ) - m), leftSum (terms m c x t) m)) := by
  have hsign : (!(decide (t % 2 = 1))) = decide ((t + 1) % 2 = 1) := by
    by_cases c : t % 2 = 1
    · simp [c, show ¬ (t + 1) % 2 = 1 by omega]
    · simp [c, show (t + 1) % 2 = 1 by omega]
  have hval : ∀ y : ℕ → V, (if decide ((t + 1) % 2 = 1) = true then y t else -y t) = past (alt y) t := by
    intro y
    rw [show past (alt y) t = alt y t by simp [past], alt]
    by_cases c : (t + 1) % 2 = 1
    · rw [if_pos (decide_eq_true c), if_pos (by omega)]
    · rw [if_neg (by rw [decide_eq_true_eq]; exact c), if_neg (by omega)]
  have hs1 := shiftIn_ok (fun j : ℕ => past (alt fun n => x (2 * n + 1)) ((t : ℤ) - m + j)) m hm _ rfl
  have hs2 := shiftIn_ok (fun j : ℕ => past (alt fun n => x (2 * n)) ((t : ℤ) - (2 * m : ℕ) + j)) (2 * m) (by omega) _ rfl
  rw [show (t : ℤ) - m + m = t by ring, ← hval] at hs1
  rw [show (t : ℤ) - (2 * m : ℕ) + (2 * m : ℕ) = t by ring, ← hval] at hs2
  have e1 : ∀ j : ℕ, (t : ℤ) - m + (j + 1 : ℕ) = (t + 1 : ℕ) - m + j := fun j => by push_cast; ring
  have e2 : ∀ j : ℕ, (t : ℤ) - (2 * m : ℕ) + (j + 1 : ℕ) = (t + 1 : ℕ) - (2 * m : ℕ) + j := fun j => by push_cast; ring
  simp only [e1] at hs1
  simp only [e2] at hs2
  have hterm : ∀ i < m, term (state m c half x (t + 1)) (4 * m + 1) i = .ok (terms m c x t i) := by
    intro i hi
    simp only [term, quarter, state]
    rw [rd_map_range _ _ i _ rfl hi, rd_map_range _ _ (m - 1 - i) _ (by omega) (by omega), rd_map_range _ _ (m + i) _ (by omega) (by omega)]
    rfl
  have hs := leftSum_loop (fun i => term (state m c half x (t + 1)) (4 * m + 1) i) _ m hm hterm
  simp only [call, CDC.half, quarter]
  rw [show rd (state m c half x t).real 0 = _ from rd_map_range _ _ 0 _ rfl hm]
  simp only [bind, Except.bind, show (state m c half x t).sign = decide (t % 2 = 1) from rfl, hsign]
  rw [show shiftIn (state m c half x t).real m _ = _ from hs1]
  simp only []
  rw [show shiftIn (state m c half x t).imag (2 * m) _ = _ from hs2]
  simp only []
  rw [show (State.mk ((List.range m).map fun (j : ℕ) => past (alt fun n => x (2 * n + 1)) ((t + 1 : ℕ) - m + j))
    ((List.range (2 * m)).map fun (j : ℕ) => past (alt fun n => x (2 * n)) ((t + 1 : ℕ) - (2 * m : ℕ) + j)) (state m c half x t).imco
    (state m c half x t).reco (decide ((t + 1) % 2 = 1))) = state m c half x (t + 1) from rfl]
  simp only [bind, Except.bind] at hs
  rw [hterm 0 hm]
  simp only []
  rw [hs]
  simp only [pure, Except.pure]
  congr 3
  rw [show (state m c half x t).reco = half from rfl, Nat.cast_zero, add_zero]

theorem make_ok {p : ℕ} [NeZero p] (win hbf : ℤ → ℤ → M (Binary p)) (c : ℕ → Binary p) (one h : Binary p) (h1 : win (2 * m : ℕ) (4 * m + 1 : ℕ) = .ok one) (h2 : hbf (2 * m : ℕ) (4 * m + 1 : ℕ) = .ok h)
    (hc : ∀ i < m, ∃ w h, win (2 * i + 2 * m + 1 : ℕ) (4 * m + 1 : ℕ) = .ok w ∧ hbf (2 * i + 2 * m + 1 : ℕ) (4 * m + 1 : ℕ) = .ok h ∧ w * h = c i) (real imag imco : List (Binary p))
    (hr : real.length = m) (hg : imag.length = 2 * m) (hi : imco.length = m) (x : ℕ → Binary p) : make win hbf (4 * m + 1) real imag imco = .ok (state m c (one * h) x 0) := by
  simp only [make, CDC.half, quarter]
  rw [h1, h2]
  have hfill : (List.range m).foldlM (fun imco (i : ℕ) => do
      let w ← win (2 * i + 2 * m + 1 : ℕ) (4 * m + 1 : ℕ)
      let h ← hbf (2 * i + 2 * m + 1 : ℕ) (4 * m + 1 : ℕ)
      wr imco i (w * h)) imco = .ok ((List.range m).map c) := by
    refine update_loop _ _ _ _ hi (by simp) fun b i u v hi hb _ _ hv => ?_
    rw [List.getElem?_map, List.getElem?_range hi, Option.map_some, Option.some.injEq] at hv
    obtain ⟨w, h, ew, eh, e⟩ := hc i hi
    rw [ew, eh, ok_bind, ok_bind, ← hv, e]
    exact wr_nat (by omega)
  rw [ok_bind, ok_bind, hfill, ok_bind, clear_ok real m hr, clear_ok imag (2 * m) hg, ok_bind, ok_bind]
  simp only [pure, Except.pure, state]
  congr 2
  · refine List.map_congr_left fun j hj => ?_
    rw [List.mem_range] at hj
    rw [past, if_neg (by omega)]
  · refine List.map_congr_left fun j hj => ?_
    rw [List.mem_range] at hj
    rw [past, if_neg (by omega)]

end Rounded

theorem half_mul {p : ℕ} [NeZero p] (h b : Binary p) (e : h.val = 1 / 2) : (h * b).val = b.val / 2 := by
  show Binary.round p (h.val * b.val) = b.val / 2
  rw [e, show 1 / 2 * b.val = b.val / 2 by ring]
  refine Binary.round_of_representable p _ ?_
  obtain ⟨k, j, hk, hb⟩ := b.representable
  refine ⟨k, j - 1, hk, ?_⟩
  rw [hb, zpow_sub_one₀ (by norm_num)]
  ring

include hm in
/-- **C87** The down-converter in floating point. Its real part is exactly half of the mixed signal, `m` calls ago. Its imaginary part differs from the exact answer of the ideal half
band filter, shortened by the exact Kaiser window, by little compared to the sum of the absolute values of all products of taps and samples. -/
theorem C87_downconvert (hm2 : m < 2 ^ 27) (l p : ℕ) [NeZero p] (hp : 16 ≤ p) (hp' : p ≤ 53) (hl : p ≤ l) (a : Binary p) (ha : |(a.val : ℝ)| ≤ 3)
    (A : ℕ) (hA : 60 + 85 * (a.val : ℝ) ^ 2 ≤ A) (hsize : 10 * (A + m + 33) ≤ 2 ^ p) (real imag imco : List (Binary p)) (hr : real.length = m) (hg : imag.length = 2 * m) (hi : imco.length = m) :
    ∃ c, Rounded.makeBinary l p (4 * m + 1) a real imag imco = .ok c ∧ ∀ x : ℕ → Binary p, ∃ re im : ℕ → Binary p,
      (∀ T : ℕ, ∃ c', run (Rounded.call (4 * m + 1)) c ((List.range T).map fun t => (x (2 * t), x (2 * t + 1))) = .ok (c', (List.range T).map fun t => (re t, im t))) ∧
      ∀ t : ℕ, ((re t).val : ℝ) = (past (quarterRate fun t => ((x t).val : ℝ)) (2 * (t : ℤ) + 1 - (2 * m : ℕ))).re / 2 ∧
        |((im t).val : ℝ) - (fir (4 * m + 1) (fun k => ((kaiserWindow a.val (4 * m + 1) k * passBand 0 (1 / 4) ((k : ℝ) - (2 * m : ℕ)) : ℝ) : ℂ)) (past (quarterRate fun t => ((x t).val : ℝ))) (2 * (t : ℤ) + 1)).im| ≤
          1.1 * (A + m + 33) / 2 ^ p * fir (4 * m + 1) (fun k => |kaiserWindow a.val (4 * m + 1) k * passBand 0 (1 / 4) ((k : ℝ) - (2 * m : ℕ))|) (fun j => ‖past (quarterRate fun t => ((x t).val : ℝ)) j‖) (2 * (t : ℤ) + 1) := by
  have hR := binary_roundedField p
  obtain ⟨one, e1, h1⟩ := Win.C83_kaiser_middle l p (by omega) hp' hl hp a ha (2 * m) (by omega) (by omega)
  obtain ⟨hb, ⟨eh, hbv⟩ | h⟩ := middle (m := m) l p hp
  swap
  · omega
  have hc : ∀ i, ∃ c, i < m → ((∃ w h, Win.Rounded.kaiserBinary l p a (2 * i + 2 * m + 1 : ℕ) (4 * m + 1 : ℕ) = .ok w ∧
    halfBand l p (2 * i + 2 * m + 1 : ℕ) (4 * m + 1 : ℕ) = .ok h ∧ w * h = c) ∧ Rel (1 / 2 ^ p) (A + 32) (c.val : ℝ) (taps m (kaiserWindow a.val (4 * m + 1)) (2 * i + 2 * m + 1))) := by
    intro i
    by_cases hi : i < m
    · obtain ⟨w, h, ew, eh, hc⟩ := imco_rel hm l p hp hp' hl a ha A hA hm2 i hi
      exact ⟨w * h, fun _ => ⟨⟨w, h, ew, eh, rfl⟩, hc⟩⟩
    · exact ⟨0, fun h => absurd h hi⟩
  choose c hc using hc
  have e1' : Win.Rounded.kaiserBinary l p a (2 * m : ℕ) (4 * m + 1 : ℕ) = .ok one := by
    rw [← e1]
    congr 1
    push_cast; ring
  have hmake := fun x => Rounded.make_ok (Win.Rounded.kaiserBinary l p a) (halfBand l p) c one hb e1' eh (fun i hi => (hc i hi).1) real imag imco hr hg hi x
  rw [Hilbert.binary_one_mul one h1] at hmake
  refine ⟨Rounded.state m c hb (fun _ => 0) 0, hmake _, fun x => ⟨fun t => hb * past (Rounded.alt fun n => x (2 * n + 1)) ((t : ℤ) - m), fun t => leftSum (Rounded.terms m c x t) m,
    fun T => ⟨Rounded.state m c hb x T, ?_⟩, fun t => ⟨?_, ?_⟩⟩⟩
  · have e := hmake fun _ => 0
    rw [hmake x] at e
    rw [← Except.ok.inj e]
    exact run_known _ (fun t => (x (2 * t), x (2 * t + 1))) (Rounded.state m c hb x) _ (fun t => Rounded.call_ok hm c hb x t) T
  · rw [half_mul _ _ hbv, show 2 * (t : ℤ) + 1 - (2 * m : ℕ) = 2 * ((t : ℤ) - m) + 1 by push_cast; ring, mixed_odd, Complex.ofReal_re, ← Rounded.alt_val]
    push_cast
    rfl
  · have hu0 : (0 : ℝ) ≤ 1 / 2 ^ p := by positivity
    rw [fir_pairs _ (fun n _ _ => kaiserWindow_symmetric _ m hm n) (kaiserWindow_middle _ m hm)]
    have hle := pairs_le (m := m) (kaiserWindow a.val (4 * m + 1)) (fun n _ _ => kaiserWindow_symmetric _ m hm n) (fun t => ((x t).val : ℝ)) t
    have hterm : ∀ i < m, Rel (1 / 2 ^ p) (A + 34) ((Rounded.terms m c x t i).val : ℝ) (taps m (kaiserWindow a.val (4 * m + 1)) (2 * i + 2 * m + 1) *
        (past (alt fun n => ((x (2 * n)).val : ℝ)) ((t + 1 : ℕ) - (2 * m : ℕ) + (m - 1 - i : ℕ)) + past (alt fun n => ((x (2 * n)).val : ℝ)) ((t + 1 : ℕ) - (2 * m : ℕ) + (m + i : ℕ)))) := by
      intro i hi
      rw [← Rounded.alt_val, ← Rounded.alt_val]
      have rd : Rel (1 / 2 ^ p) 1 ((past (Rounded.alt fun n => x (2 * n)) ((t + 1 : ℕ) - (2 * m : ℕ) + (m - 1 - i : ℕ)) + past (Rounded.alt fun n => x (2 * n)) ((t + 1 : ℕ) - (2 * m : ℕ) + (m + i : ℕ))).val : ℝ) _ :=
        Rel.of_le hu0 (hR.add (past (Rounded.alt fun n => x (2 * n)) ((t + 1 : ℕ) - (2 * m : ℕ) + (m - 1 - i : ℕ))) (past (Rounded.alt fun n => x (2 * n)) ((t + 1 : ℕ) - (2 * m : ℕ) + (m + i : ℕ)))) (by norm_num)
      exact (hc i hi).2.mul hu0 rd (hR.mul _ _)
    refine (leftSum_error _ rfl _ _ _ m hm hterm).trans ?_
    have hK : A + 34 + (m - 1) = A + m + 33 := by omega
    have hb := pow_units (1 / 2 ^ p) hu0 (A + m + 33) (by
      rw [mul_one_div, ← mul_div_assoc, div_le_one (by positivity)]
      exact_mod_cast hsize)
    rw [hK]
    refine mul_le_mul (hb.trans (le_of_eq ?_)) hle (Finset.sum_nonneg fun i _ => abs_nonneg _) (by positivity)
    push_cast
    ring

/-- A down-converter with 33 taps and the parameter two, in single precision. -/
example (real imag imco : List (Binary 24)) (hr : real.length = 8) (hg : imag.length = 16) (hi : imco.length = 8) : ∃ c, Rounded.makeBinary 64 24 33 (Binary.literal 64 24 2) real imag imco = .ok c := by
  have h2 : ((Binary.literal 64 24 2).val : ℝ) = 2 := by
    have : (Binary.literal 64 24 2).val = 2 := by decide +kernel
    rw [this]; norm_num
  obtain ⟨c, e, -⟩ := C87_downconvert (m := 8) (by norm_num) (by norm_num) 64 24 (by norm_num) (by norm_num) (by norm_num) (Binary.literal 64 24 2) (by rw [h2]; norm_num) 400 (by rw [h2]; norm_num) (by norm_num) real imag imco hr hg hi
  exact ⟨c, e⟩

end DSP.CDC
