import Verif.Props.Hilbert
import Verif.Props.FirSineError
import Verif.Model.HilbertRounded
import Verif.Lemmas.RoundedSum
import Verif.Spec.KaiserWindow

/-!
# The Hilbert transformer in floating point (C87)
-/

namespace DSP

open Spec Fir

theorem kaiserWindow_symmetric (a : ℝ) (m : ℕ) (hm : 1 ≤ m) (n : ℤ) : kaiserWindow a (4 * m + 1) ((4 * m + 1 : ℕ) - 1 - n) = kaiserWindow a (4 * m + 1) n := by
  have h : (4 * (m : ℝ)) ≠ 0 := by positivity
  simp only [kaiserWindow]
  congr 4
  push_cast
  field_simp
  ring

theorem kaiserWindow_middle (a : ℝ) (m : ℕ) (hm : 1 ≤ m) : kaiserWindow a (4 * m + 1) (2 * m : ℕ) = 1 := by
  have h : (4 * (m : ℝ)) ≠ 0 := by positivity
  have e : 2 * (((2 * m : ℕ) : ℤ) : ℝ) / (((4 * m + 1 : ℕ) : ℝ) - 1) - 1 = 0 := by
    push_cast
    field_simp
    ring
  have := Win.one_le_bessel (Real.pi * a)
  rw [kaiserWindow, e, zero_pow two_ne_zero, sub_zero, Real.sqrt_one, mul_one, div_self (by linarith)]

theorem kaiser_rel (l p : ℕ) [NeZero p] (hp : 16 ≤ p) (hp' : p ≤ 53) (hl : p ≤ l) (a : Binary p) (ha : |(a.val : ℝ)| ≤ 3) (A : ℕ) (hA : 60 + 85 * (a.val : ℝ) ^ 2 ≤ A) (m : ℕ) (hm : 1 ≤ m)
    (hm2 : m < 2 ^ 28) (n : ℕ) (hn : n < 4 * m + 1) :
    ∃ w, Win.Rounded.kaiserBinary l p a n (4 * m + 1 : ℕ) = .ok w ∧ Rel (1 / 2 ^ p) A (w.val : ℝ) (kaiserWindow a.val (4 * m + 1) n) := by
  obtain ⟨w, s, e, -, -, -, h⟩ := Win.C83_kaiser l p hp hp' hl a ha n (4 * m + 1 : ℕ) (by omega) (by omega) (by omega) (by omega)
  refine ⟨w, e, ?_⟩
  rw [show (((4 * m + 1 : ℕ) : ℤ) : ℝ) = ((4 * m + 1 : ℕ) : ℝ) from Int.cast_natCast _] at h
  have hpos : 0 ≤ kaiserWindow a.val (4 * m + 1) n := by
    have h1 := Win.one_le_bessel (Real.pi * a.val * √(1 - (2 * ((n : ℤ) : ℝ) / (((4 * m + 1 : ℕ) : ℝ) - 1) - 1) ^ 2))
    have h2 := Win.one_le_bessel (Real.pi * a.val)
    exact div_nonneg (by linarith) (by linarith)
  refine Rel.of_le (e := (60 + 85 * (a.val : ℝ) ^ 2) / 2 ^ p) (by positivity) ?_ ?_
  · rw [abs_of_nonneg hpos]
    exact h
  · rw [mul_one_div]
    gcongr

namespace Hilbert

variable {m : ℕ} (hm : 1 ≤ m)

/-- The pairs are no more than the taps. -/
theorem pairs_le (w : ℤ → ℝ) (hw : ∀ n : ℤ, 0 ≤ n → n < (4 * m + 1 : ℕ) → w ((4 * m + 1 : ℕ) - 1 - n) = w n) (y : ℤ → ℝ) (j : ℤ) :
    ∑ i ∈ Finset.range m, |w ((2 * i + 1) + 2 * m : ℕ) * 2 / (((2 * i + 1 : ℕ) : ℝ) * Real.pi) * (y (j - ((2 * i + 1 + 2 * m : ℕ) : ℤ)) - y (j - ((2 * m - (2 * i + 1) : ℕ) : ℤ)))| ≤
      fir (4 * m + 1) (fun k => |w k * quarterTurn ((k : ℝ) - (2 * m : ℕ))|) (fun j => |y j|) j := by
  rw [fir, sum_odd _ m]
  · rw [sub_self, quarterTurn_zero, mul_zero, abs_zero, zero_mul, zero_add]
    refine Finset.sum_le_sum fun i hi => ?_
    rw [Finset.mem_range] at hi
    have e1 : w ((2 * m - (2 * i + 1) : ℕ) : ℤ) = w ((2 * i + 1) + 2 * m : ℕ) := by
      rw [← hw _ (by omega) (by omega)]
      congr 1
      omega
    have e2 : (((2 * m - (2 * i + 1) : ℕ) : ℝ)) - (2 * m : ℕ) = -((2 * i + 1 : ℕ) : ℝ) := by
      rw [Nat.cast_sub (by omega)]; push_cast; ring
    have e3 : (((2 * m + (2 * i + 1) : ℕ) : ℝ)) - (2 * m : ℕ) = ((2 * i + 1 : ℕ) : ℝ) := by push_cast; ring
    rw [e1, e2, e3, quarterTurn_neg, quarterTurn_odd, Nat.add_comm (2 * m) (2 * i + 1), mul_neg, abs_neg, mul_div_assoc, abs_mul, ← mul_add]
    exact mul_le_mul_of_nonneg_left (abs_sub _ _) (abs_nonneg _)
  · intro i h1 h2
    have e2 : (((2 * m - 2 * i : ℕ) : ℝ)) - (2 * m : ℕ) = 2 * ((-i : ℤ) : ℝ) := by rw [Nat.cast_sub (by omega)]; push_cast; ring
    have e3 : (((2 * m + 2 * i : ℕ) : ℝ)) - (2 * m : ℕ) = 2 * ((i : ℤ) : ℝ) := by push_cast; ring
    rw [e2, e3, quarterTurn_even, quarterTurn_even]
    simp

section
variable (l p : ℕ) [NeZero p] (hp : 16 ≤ p) (hp' : p ≤ 53) (hl : p ≤ l) (a : Binary p) (ha : |(a.val : ℝ)| ≤ 3) (A : ℕ) (hA : 60 + 85 * (a.val : ℝ) ^ 2 ≤ A)

include hm hp hp' hl ha hA in
theorem imco_rel (hm2 : m < 2 ^ 28) (i : ℕ) (hi : i < m) : ∃ c, (do
      let w ← Win.Rounded.kaiserBinary l p a ((2 * i + 1) + 2 * m : ℕ) (4 * m + 1 : ℕ)
      Fir.Rounded.fdiv (w * ((2 : ℤ) : Binary p)) (((2 * i + 1 : ℤ) : Binary p) * Win.Rounded.pi l p)) = .ok c ∧
    Rel (1 / 2 ^ p) (A + 9) (c.val : ℝ) (kaiserWindow a.val (4 * m + 1) ((2 * i + 1) + 2 * m : ℕ) * 2 / (((2 * i + 1 : ℕ) : ℝ) * Real.pi)) := by
  have hR := binary_roundedField p
  have hu0 : (0 : ℝ) ≤ 1 / 2 ^ p := by positivity
  have hu := Win.unit_small p (by omega)
  obtain ⟨w, ew, rw'⟩ := kaiser_rel l p hp hp' hl a ha A hA m hm hm2 (2 * i + 1 + 2 * m) (by omega)
  have rpi := Fir.pi_rel l p hp' hl
  have r2 : Rel (1 / 2 ^ p) 1 (((2 : ℤ) : Binary p).val : ℝ) ((2 : ℤ) : ℝ) := Rel.of_le hu0 (hR.cast _) (by norm_num)
  have ri : Rel (1 / 2 ^ p) 1 (((2 * i + 1 : ℤ) : Binary p).val : ℝ) ((2 * i + 1 : ℤ) : ℝ) := Rel.of_le hu0 (hR.cast _) (by norm_num)
  have rn := rw'.mul hu0 r2 (hR.mul _ _)
  have rd := ri.mul hu0 rpi (hR.mul _ _)
  have hd : ((2 * i + 1 : ℤ) : ℝ) * Real.pi ≠ 0 := mul_ne_zero (by push_cast; positivity) Real.pi_ne_zero
  obtain ⟨h0, r⟩ := rn.div hu0 (by linarith) rd hd (by norm_num at hu ⊢; linarith) (hR.div _ _)
  refine ⟨w * ((2 : ℤ) : Binary p) / (((2 * i + 1 : ℤ) : Binary p) * Win.Rounded.pi l p), ?_, ?_⟩
  · simp only [ew, bind, Except.bind]
    exact Fir.fdiv_ok' p _ _ h0
  · convert r using 2
    · push_cast
      ring
    · push_cast
      ring

end

namespace Rounded

/-- The states for the input `x`. -/
def state {V : Type} [Zero V] (m : ℕ) (c : ℕ → V) (one : V) (x : ℕ → V) (t : ℕ) : State V :=
  ⟨(List.range (4 * m + 1)).map fun (j : ℕ) => past x ((t : ℤ) - (4 * m + 1 : ℕ) + j), (List.range m).map c, one⟩

/-- The terms of the imaginary part. -/
def terms {V : Type} [Zero V] [Mul V] [Sub V] (m : ℕ) (c : ℕ → V) (x : ℕ → V) (t : ℕ) (i : ℕ) : V :=
  c i * (past x ((t : ℤ) - 1 - ((2 * i + 1 + 2 * m : ℕ) : ℤ)) - past x ((t : ℤ) - 1 - ((2 * m - (2 * i + 1) : ℕ) : ℤ)))

include hm in
theorem call_ok {V : Type} [Zero V] [Add V] [Sub V] [Mul V] [Neg V] (c : ℕ → V) (one : V) (x : ℕ → V) (t : ℕ) :
    call (4 * m + 1) (state m c one x t) (x t) = .ok (state m c one x (t + 1), (one * past x ((t : ℤ) - 1 - (2 * m : ℕ)), leftSum (terms m c x t) m)) := by
  have hterm : ∀ i < m, term (state m c one x t) (4 * m + 1) i = .ok (terms m c x t i) := by
    intro i hi
    simp only [term, half, state, terms]
    rw [rd_map_range _ _ i _ rfl hi, rd_map_range _ _ (2 * m - (2 * i + 1)) _ (by omega) (by omega), rd_map_range _ _ (2 * m + (2 * i + 1)) _ (by omega) (by omega)]
    rw [show (t : ℤ) - 1 - ((2 * i + 1 + 2 * m : ℕ) : ℤ) = (t : ℤ) - (4 * m + 1 : ℕ) + (2 * m - (2 * i + 1) : ℕ) by omega,
      show (t : ℤ) - 1 - ((2 * m - (2 * i + 1) : ℕ) : ℤ) = (t : ℤ) - (4 * m + 1 : ℕ) + (2 * m + (2 * i + 1) : ℕ) by omega]
    rfl
  have hshift := shiftIn_ok (fun j : ℕ => past x ((t : ℤ) - (4 * m + 1 : ℕ) + j)) (4 * m + 1) (by omega) _ rfl
  have hlast : past x ((t : ℤ) - (4 * m + 1 : ℕ) + (4 * m + 1 : ℕ)) = x t := by rw [past, if_pos (by omega)]; congr 1; omega
  simp only [hlast] at hshift
  simp only [call, half, quarter]
  rw [show rd (state m c one x t).real ((2 * m : ℕ) : ℤ) = _ from rd_map_range _ _ (2 * m) _ rfl (by omega)]
  simp only [bind, Except.bind, hterm 0 (by omega)]
  have hs := leftSum_loop (fun i => term (state m c one x t) (4 * m + 1) i) _ m hm hterm
  simp only [bind, Except.bind] at hs
  rw [hs]
  simp only [show shiftIn (state m c one x t).real (4 * m + 1) (x t) = _ from hshift, pure, Except.pure]
  congr 2
  · simp only [state]
    congr 1
    refine List.map_congr_left fun j _ => ?_
    congr 1
    push_cast; ring
  · congr 1
    rw [show (state m c one x t).reco = one from rfl]
    congr 2
    push_cast; ring

theorem make_ok {p : ℕ} [NeZero p] (win : ℤ → ℤ → M (Binary p)) (pi : Binary p) (c : ℕ → Binary p) (one : Binary p) (h1 : win (2 * m : ℕ) (4 * m + 1 : ℕ) = .ok one)
    (hc : ∀ i < m, (do
      let w ← win ((2 * i + 1) + 2 * m : ℕ) (4 * m + 1 : ℕ)
      Fir.Rounded.fdiv (w * ((2 : ℤ) : Binary p)) (((2 * i + 1 : ℤ) : Binary p) * pi)) = .ok (c i)) (real imco : List (Binary p)) (hr : real.length = 4 * m + 1) (hi : imco.length = m)
    (x : ℕ → Binary p) : make win pi (4 * m + 1) real imco = .ok (state m c one x 0) := by
  simp only [make, half, quarter, h1]
  have hfill := fill_ok imco m hi _ c hc
  simp only [bind_assoc] at hfill
  simp only [bind, Except.bind] at hfill ⊢
  rw [hfill]
  simp only [clear_ok real (4 * m + 1) hr, pure, Except.pure, state]
  congr 2
  refine List.map_congr_left fun j hj => ?_
  rw [List.mem_range] at hj
  rw [past, if_neg (by omega)]

end Rounded

theorem past_val {p : ℕ} [NeZero p] (x : ℕ → Binary p) (j : ℤ) : ((past x j).val : ℝ) = past (fun t => ((x t).val : ℝ)) j := by
  by_cases h : 0 ≤ j
  · simp only [past, if_pos h]
  · simp only [past, if_neg h]
    exact Rat.cast_zero

theorem binary_one_mul {p : ℕ} [NeZero p] (one : Binary p) (h : one.val = 1) (b : Binary p) : one * b = b := by
  refine Binary.val_injective p ?_
  show Binary.round p (one.val * b.val) = b.val
  rw [h, one_mul, Binary.round_of_representable p _ b.representable]

theorem leftSum_zero {p : ℕ} [NeZero p] (f : ℕ → Binary p) (m : ℕ) (hm : 1 ≤ m) (h : ∀ i < m, f i = 0) : leftSum f m = 0 := by
  obtain ⟨n, rfl⟩ : ∃ n, m = n + 1 := ⟨m - 1, by omega⟩
  clear hm
  induction n with
  | zero => exact h 0 (by norm_num)
  | succ n ih =>
    have e : leftSum f (n + 1 + 1) = leftSum f (n + 1) + f (n + 1) := by
      simp only [leftSum]
      rw [show n + 1 + 1 - 1 = n + 1 by omega, show n + 1 - 1 = n by omega, List.range_succ, List.foldl_append]
      rfl
    rw [e, ih fun i hi => h i (by omega), h (n + 1) (by omega)]
    refine Binary.val_injective p ?_
    show Binary.round p (0 + 0) = 0
    rw [add_zero]
    exact Binary.round_of_representable p _ ⟨0, 0, by positivity, by simp⟩

include hm in
/-- **C87** The Hilbert transformer in floating point. Its real part is exactly the input, `2m + 1` samples ago. Its imaginary part differs from the exact answer of the ideal
transformer, shortened by the exact Kaiser window, by little compared to the sum of the absolute values of all products of taps and samples, and it is exactly zero whenever the
samples in the delay line are the same on both sides of its centre. -/
theorem C87_hilbert (hm2 : m < 2 ^ 28) (l p : ℕ) [NeZero p] (hp : 16 ≤ p) (hp' : p ≤ 53) (hl : p ≤ l) (a : Binary p) (ha : |(a.val : ℝ)| ≤ 3)
    (A : ℕ) (hA : 60 + 85 * (a.val : ℝ) ^ 2 ≤ A) (hsize : 10 * (A + m + 10) ≤ 2 ^ p) (real imco : List (Binary p)) (hr : real.length = 4 * m + 1) (hi : imco.length = m) :
    ∃ h, Rounded.makeBinary l p (4 * m + 1) a real imco = .ok h ∧ ∀ x : ℕ → Binary p, ∃ re im : ℕ → Binary p,
      (∀ T : ℕ, ∃ h', run (Rounded.call (4 * m + 1)) h ((List.range T).map x) = .ok (h', (List.range T).map fun t => (re t, im t))) ∧
      ∀ t : ℕ, re t = past x ((t : ℤ) - 1 - (2 * m : ℕ)) ∧
        |((im t).val : ℝ) - fir (4 * m + 1) (fun k => kaiserWindow a.val (4 * m + 1) k * quarterTurn ((k : ℝ) - (2 * m : ℕ))) (past fun t => ((x t).val : ℝ)) ((t : ℤ) - 1)| ≤
          1.1 * (A + m + 10) / 2 ^ p * fir (4 * m + 1) (fun k => |kaiserWindow a.val (4 * m + 1) k * quarterTurn ((k : ℝ) - (2 * m : ℕ))|) (fun j => |past (fun t => ((x t).val : ℝ)) j|) ((t : ℤ) - 1) ∧
        ((∀ k : ℕ, k ≤ 2 * m → past x ((t : ℤ) - 1 - (2 * m : ℕ) - k) = past x ((t : ℤ) - 1 - (2 * m : ℕ) + k)) → (im t).val = 0) := by
  have hR := binary_roundedField p
  obtain ⟨one, e1, h1⟩ := Win.C83_kaiser_middle l p (by omega) hp' hl hp a ha (2 * m) (by omega) (by omega)
  have hc : ∀ i, ∃ c, i < m → ((do
      let w ← Win.Rounded.kaiserBinary l p a ((2 * i + 1) + 2 * m : ℕ) (4 * m + 1 : ℕ)
      Fir.Rounded.fdiv (w * ((2 : ℤ) : Binary p)) (((2 * i + 1 : ℤ) : Binary p) * Win.Rounded.pi l p)) = .ok c ∧
    Rel (1 / 2 ^ p) (A + 9) (c.val : ℝ) (kaiserWindow a.val (4 * m + 1) ((2 * i + 1) + 2 * m : ℕ) * 2 / (((2 * i + 1 : ℕ) : ℝ) * Real.pi))) := by
    intro i
    by_cases hi : i < m
    · obtain ⟨c, hc⟩ := imco_rel hm l p hp hp' hl a ha A hA hm2 i hi
      exact ⟨c, fun _ => hc⟩
    · exact ⟨0, fun h => absurd h hi⟩
  choose c hc using hc
  have e1' : Win.Rounded.kaiserBinary l p a (2 * m : ℕ) (4 * m + 1 : ℕ) = .ok one := by
    rw [← e1]
    congr 1
    push_cast; ring
  have hmake := fun x => Rounded.make_ok (Win.Rounded.kaiserBinary l p a) (Win.Rounded.pi l p) c one e1' (fun i hi => (hc i hi).1) real imco hr hi x
  refine ⟨Rounded.state m c one (fun _ => 0) 0, hmake _, fun x => ⟨fun t => past x ((t : ℤ) - 1 - (2 * m : ℕ)), fun t => leftSum (Rounded.terms m c x t) m, fun T => ⟨Rounded.state m c one x T, ?_⟩, fun t => ⟨rfl, ?_, fun hsym => ?_⟩⟩⟩
  · have e := hmake fun _ => 0
    rw [hmake x] at e
    rw [← Except.ok.inj e]
    refine run_known _ x (Rounded.state m c one x) _ (fun t => ?_) T
    rw [Rounded.call_ok hm, binary_one_mul one h1]
  · have hu0 : (0 : ℝ) ≤ 1 / 2 ^ p := by positivity
    rw [fir_pairs _ (fun n _ _ => kaiserWindow_symmetric _ m hm n)]
    have hle := pairs_le (m := m) (kaiserWindow a.val (4 * m + 1)) (fun n _ _ => kaiserWindow_symmetric _ m hm n) (past fun t => ((x t).val : ℝ)) ((t : ℤ) - 1)
    have hterm : ∀ i < m, Rel (1 / 2 ^ p) (A + 11) ((Rounded.terms m c x t i).val : ℝ) (kaiserWindow a.val (4 * m + 1) ((2 * i + 1) + 2 * m : ℕ) * 2 / (((2 * i + 1 : ℕ) : ℝ) * Real.pi) *
        (past (fun t => ((x t).val : ℝ)) ((t : ℤ) - 1 - ((2 * i + 1 + 2 * m : ℕ) : ℤ)) - past (fun t => ((x t).val : ℝ)) ((t : ℤ) - 1 - ((2 * m - (2 * i + 1) : ℕ) : ℤ)))) := by
      intro i hi
      rw [← past_val, ← past_val]
      have rd : Rel (1 / 2 ^ p) 1 ((past x ((t : ℤ) - 1 - ((2 * i + 1 + 2 * m : ℕ) : ℤ)) - past x ((t : ℤ) - 1 - ((2 * m - (2 * i + 1) : ℕ) : ℤ))).val : ℝ) _ :=
        Rel.of_le hu0 (hR.sub (past x ((t : ℤ) - 1 - ((2 * i + 1 + 2 * m : ℕ) : ℤ))) (past x ((t : ℤ) - 1 - ((2 * m - (2 * i + 1) : ℕ) : ℤ)))) (by norm_num)
      exact (hc i hi).2.mul hu0 rd (hR.mul _ _)
    refine (leftSum_error _ rfl _ _ _ m hm hterm).trans ?_
    have hS : (0 : ℝ) ≤ ∑ i ∈ Finset.range m, |kaiserWindow a.val (4 * m + 1) ((2 * i + 1) + 2 * m : ℕ) * 2 / (((2 * i + 1 : ℕ) : ℝ) * Real.pi) *
        (past (fun t => ((x t).val : ℝ)) ((t : ℤ) - 1 - ((2 * i + 1 + 2 * m : ℕ) : ℤ)) - past (fun t => ((x t).val : ℝ)) ((t : ℤ) - 1 - ((2 * m - (2 * i + 1) : ℕ) : ℤ)))| := Finset.sum_nonneg fun i _ => abs_nonneg _
    have hK : A + 11 + (m - 1) = A + m + 10 := by omega
    have hb := pow_units (1 / 2 ^ p) hu0 (A + m + 10) (by
      rw [mul_one_div, ← mul_div_assoc, div_le_one (by positivity)]
      exact_mod_cast hsize)
    rw [hK]
    refine mul_le_mul (hb.trans (le_of_eq ?_)) hle hS (by positivity)
    push_cast
    ring
  · show (leftSum (Rounded.terms m c x t) m).val = 0
    rw [leftSum_zero _ m hm]
    · rfl
    · intro i hi
      have h := hsym (2 * i + 1) (by omega)
      rw [Rounded.terms, show (t : ℤ) - 1 - ((2 * i + 1 + 2 * m : ℕ) : ℤ) = (t : ℤ) - 1 - (2 * m : ℕ) - (2 * i + 1 : ℕ) by omega,
        show (t : ℤ) - 1 - ((2 * m - (2 * i + 1) : ℕ) : ℤ) = (t : ℤ) - 1 - (2 * m : ℕ) + (2 * i + 1 : ℕ) by omega, h]
      refine Binary.val_injective p ?_
      show Binary.round p ((c i).val * Binary.round p (_ - _)) = 0
      have r0 : Binary.round p 0 = 0 := Binary.round_of_representable p _ ⟨0, 0, by positivity, by simp⟩
      rw [sub_self, r0, mul_zero, r0]

/-- A transformer with 65 taps and the parameter two, in double precision: 452 units. -/
example (real imco : List (Binary 53)) (hr : real.length = 65) (hi : imco.length = 16) : ∃ h, Rounded.makeBinary 64 53 65 (Binary.literal 64 53 2) real imco = .ok h := by
  have h2 : ((Binary.literal 64 53 2).val : ℝ) = 2 := by
    have : (Binary.literal 64 53 2).val = 2 := by decide +kernel
    rw [this]; norm_num
  obtain ⟨h, e, -⟩ := C87_hilbert (m := 16) (by norm_num) (by norm_num) 64 53 (by norm_num) le_rfl (by norm_num) (Binary.literal 64 53 2) (by rw [h2]; norm_num) 400 (by rw [h2]; norm_num) (by norm_num) real imco hr hi
  exact ⟨h, e⟩

end Hilbert
end DSP
