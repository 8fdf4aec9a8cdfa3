import Verif.Props.Resampler2
import Verif.Props.PnmPixels
import Verif.Lemmas.UnitCircle

/-!
# C61: the block resampler
-/

namespace DSP.Resampler
open Spec

variable {A : Type} [AddCommGroup A] [Module ℝ A]

theorem sum_ok (TAPS OVER : ℕ) (L : ℝ → ℝ) (r : Resampler) (hL : ∀ x, -1 / 2 ≤ x → x ≤ (TAPS : ℝ) - 1 / 2 → r.lpf.call (TAPS * OVER) x = .ok (L x))
    (input : List A) (samples stride s0 : ℤ) (x : ℝ) (u : ℤ → A) (hst : 1 ≤ stride) (hfit : samples * stride ≤ 2147483647)
    (hu : ∀ s, 0 ≤ s → s < samples → input[(s * stride).toNat]? = some (u s)) (h0 : 0 ≤ s0) (h1 : s0 + TAPS ≤ samples) (hx : |x - s0| ≤ 1 / 2) :
    r.sum TAPS OVER input stride s0 x = .ok (∑ s ∈ Finset.range TAPS, L (((s0 + s : ℤ) : ℝ) - x) • u (s0 + s)) := by
  obtain ⟨v, e, hv⟩ := foldlM_inv (fun k acc => acc = ∑ s ∈ Finset.range k, L (((s0 + s : ℤ) : ℝ) - x) • u (s0 + s)) (fun sum (j : ℕ) => do
    let k := ((s0 + j : ℤ) : ℝ) - x
    let v ← r.lpf.call (TAPS * OVER) k
    let p ← int32 ((s0 + j) * stride)
    let u ← rd input p
    return sum + v • u) TAPS 0 (by simp) (by
    rintro i hi acc rfl
    refine ⟨_, ?_, (Finset.sum_range_succ _ _).symm⟩
    have h2 : (0 : ℝ) ≤ i := by positivity
    have h3 : (i : ℝ) + 1 ≤ TAPS := by exact_mod_cast hi
    have hp0 : 0 ≤ (s0 + i) * stride := by positivity
    have hp1 : (s0 + i) * stride ≤ samples * stride := by
      have : s0 + i ≤ samples := by omega
      nlinarith
    rw [abs_le] at hx
    simp only []
    rw [hL _ (by push_cast; linarith) (by push_cast; linarith), int32_fits (by omega)]
    simp only [bind, Except.bind]
    rw [rd_of_getElem? hp0 (hu _ (by omega) (by omega))]
    rfl)
  rw [sum, e, hv]

variable (TAPS OVER : ℕ) (hT : 1 ≤ TAPS) (hO : 1 ≤ OVER) (hK : 2 ≤ TAPS * OVER) (hK2 : TAPS * OVER ≤ 1073741824) (rate cutoff alpha : ℝ) (hr : rate ≠ 0)
  (tmp junk : List ℝ) (ht : tmp.length = TAPS * OVER) (hj : junk.length = TAPS * OVER - 1)

include hT hO hK hK2 hr ht hj in
/-- For every filter, block and difference: the call reads and writes inside of the arrays of `samples * stride` elements and sets only the elements at
`(i + (TAPS-1)/2) * stride`. Such an element becomes the input, filtered around the position `i * rate / (rate + diff)`: with the `TAPS` samples from the one that is nearest to it. If there
are not enough of them, it stays as it is. -/
theorem C61_block : ∃ r w S, make TAPS OVER rate cutoff alpha tmp junk = .ok r ∧ IsTaper (TAPS * OVER : ℕ) w ∧
      (∀ n : ℤ, 0 ≤ n → n < (TAPS * OVER : ℕ) → Win.kaiser alpha n (TAPS * OVER : ℕ) = .ok (w n)) ∧
      IsNaturalSpline (TAPS * OVER) (fun n => passBand 0 (cutoff / rate) ((n : ℝ) / OVER - ((TAPS : ℝ) - 1) / 2) * w n) S ∧
      ∀ (diff : ℝ) (_ : rate + diff ≠ 0) (samples stride : ℤ) (_ : 0 ≤ samples) (_ : 1 ≤ stride) (_ : samples * stride ≤ 2147483647)
        (_ : |samples * (rate / (rate + diff))| ≤ 1073741823) (input output : List A) (u : ℤ → A)
        (_ : ∀ s, 0 ≤ s → s < samples → input[(s * stride).toNat]? = some (u s)) (_ : output.length = samples * stride),
        ∃ output', r.call TAPS OVER output input diff samples stride = .ok output' ∧ output'.length = output.length ∧
          (∀ p : ℕ, (∀ i : ℕ, (i : ℤ) < samples - TAPS → (p : ℤ) ≠ (i + ((TAPS - 1) / 2 : ℕ)) * stride) → output'[p]? = output[p]?) ∧
          ∀ i : ℕ, (i : ℤ) < samples - TAPS → ∃ s0 : ℤ, |i * (rate / (rate + diff)) - s0| ≤ 1 / 2 ∧
            output'[((i + ((TAPS - 1) / 2 : ℕ)) * stride).toNat]? = if 0 ≤ s0 ∧ s0 + TAPS ≤ samples then
              some (∑ s ∈ Finset.range TAPS, S ((s0 + s - i * (rate / (rate + diff))) * OVER) • u (s0 + s))
            else output[((i + ((TAPS - 1) / 2 : ℕ)) * stride).toNat]? := by
  obtain ⟨s, w, S, e, hw, hk, hS, hc⟩ := Resampling.lpf_ok TAPS OVER hO hK hK2 rate cutoff alpha hr tmp junk ht hj
  refine ⟨⟨s, rate⟩, w, S, by simp only [make, bind, Except.bind, e, pure, Except.pure], hw, hk, hS, ?_⟩
  intro diff hd samples stride hs0 hst hfit hratio input output u hu hlen
  have hTK : TAPS ≤ TAPS * OVER := Nat.le_mul_of_pos_right _ hO
  have hO' : (1 : ℝ) ≤ OVER := by exact_mod_cast hO
  have hT' : (1 : ℝ) ≤ TAPS := by exact_mod_cast hT
  have hK' : (TAPS : ℝ) * OVER ≤ 1073741824 := by exact_mod_cast hK2
  have hL : ∀ x, -1 / 2 ≤ x → x ≤ (TAPS : ℝ) - 1 / 2 → s.call (TAPS * OVER) x = .ok (S (x * OVER)) := by
    intro x h0 h1
    refine hc x ?_
    rw [abs_lt]
    constructor <;> nlinarith
  have hss : samples ≤ samples * stride := by nlinarith
  simp only [call, bind, Except.bind, fdiv_ok hd, int32_fits (show -2147483648 ≤ samples - TAPS ∧ samples - TAPS ≤ 2147483647 by omega)]
  set ratio := rate / (rate + diff) with hratio'
  have hpos : ∀ i : ℕ, (i : ℤ) < samples - TAPS → 0 ≤ (i + ((TAPS - 1) / 2 : ℕ) : ℤ) * stride ∧ (i + ((TAPS - 1) / 2 : ℕ) : ℤ) * stride < samples * stride := by
    intro i hi
    constructor
    · positivity
    · have : (i + ((TAPS - 1) / 2 : ℕ) : ℤ) < samples := by omega
      nlinarith
  obtain ⟨b, e2, hb1, hb2, hb3⟩ := foldlM_inv (fun k (b : List A) => b.length = output.length ∧
      (∀ p : ℕ, (∀ i : ℕ, i < k → (p : ℤ) ≠ (i + ((TAPS - 1) / 2 : ℕ)) * stride) → b[p]? = output[p]?) ∧
      ∀ i : ℕ, i < k → b[((i + ((TAPS - 1) / 2 : ℕ)) * stride).toNat]? = if 0 ≤ Pnm.nearbyint (i * ratio) ∧ Pnm.nearbyint (i * ratio) + TAPS ≤ samples then
          some (∑ s ∈ Finset.range TAPS, S ((Pnm.nearbyint (i * ratio) + s - i * ratio) * OVER) • u (Pnm.nearbyint (i * ratio) + s))
        else output[((i + ((TAPS - 1) / 2 : ℕ)) * stride).toNat]?)
    (body ⟨s, rate⟩ TAPS OVER input samples stride ratio) (samples - TAPS).toNat output ⟨rfl, fun _ _ => rfl, fun i hi => absurd hi (by omega)⟩ (by
    rintro i hi b ⟨hb1, hb2, hb3⟩
    have hi' : (i : ℤ) < samples - TAPS := by omega
    obtain ⟨hp0, hp1⟩ := hpos i hi'
    have hnear := Pnm.nearbyint_near (i * ratio)
    have hs0r : |(i : ℝ) * ratio| ≤ 1073741823 := by
      refine le_trans ?_ hratio
      rw [abs_mul, abs_mul]
      have : |(i : ℝ)| ≤ |(samples : ℝ)| := by
        rw [abs_of_nonneg (by positivity), abs_of_nonneg (by exact_mod_cast hs0)]
        exact_mod_cast (by omega : (i : ℤ) ≤ samples)
      gcongr
    have hs0b : -1073741824 ≤ Pnm.nearbyint (i * ratio) ∧ Pnm.nearbyint (i * ratio) ≤ 1073741823 := by
      rw [abs_le] at hnear hs0r
      constructor
      · have : (-1073741825 : ℝ) < Pnm.nearbyint (i * ratio) := by linarith [hnear.2, hs0r.1]
        have : (-1073741825 : ℤ) < Pnm.nearbyint (i * ratio) := by exact_mod_cast this
        omega
      · have : (Pnm.nearbyint (i * ratio) : ℝ) < 1073741824 := by linarith [hnear.1, hs0r.2]
        have : Pnm.nearbyint (i * ratio) < (1073741824 : ℤ) := by exact_mod_cast this
        omega
    have hunique : ∀ j : ℕ, (j + ((TAPS - 1) / 2 : ℕ) : ℤ) * stride = (i + ((TAPS - 1) / 2 : ℕ)) * stride → j = i := by
      intro j hj
      have := mul_right_cancel₀ (by omega : stride ≠ 0) hj
      omega
    simp only [body, bind, Except.bind, int32_fits (show -2147483648 ≤ Pnm.nearbyint (i * ratio) ∧ Pnm.nearbyint (i * ratio) ≤ 2147483647 by omega),
      int32_fits (show -2147483648 ≤ Pnm.nearbyint (i * ratio) + TAPS ∧ Pnm.nearbyint (i * ratio) + TAPS ≤ 2147483647 by omega)]
    have hfree : b[((i + ((TAPS - 1) / 2 : ℕ)) * stride).toNat]? = output[((i + ((TAPS - 1) / 2 : ℕ)) * stride).toNat]? := by
      refine hb2 _ fun j hj hjp => ?_
      rw [Int.toNat_of_nonneg hp0] at hjp
      have := hunique j hjp.symm
      omega
    by_cases c : Pnm.nearbyint (i * ratio) < 0 ∨ Pnm.nearbyint (i * ratio) + TAPS > samples
    · rw [if_pos c]
      refine ⟨b, rfl, hb1, fun p hp => hb2 p fun j hj => hp j (by omega), fun j hj => ?_⟩
      by_cases c2 : j = i
      · subst c2
        rw [if_neg (by omega), hfree]
      · exact hb3 j (by omega)
    · rw [if_neg c, sum_ok TAPS OVER (fun k => S (k * OVER)) ⟨s, rate⟩ hL input samples stride _ _ u hst hfit hu (by omega) (by omega) hnear]
      simp only [int32_fits (show -2147483648 ≤ (i + ((TAPS - 1) / 2 : ℕ) : ℤ) * stride ∧ (i + ((TAPS - 1) / 2 : ℕ) : ℤ) * stride ≤ 2147483647 by omega)]
      rw [wr_ok hp0 (by omega)]
      refine ⟨_, rfl, by simp [hb1], fun p hp => ?_, fun j hj => ?_⟩
      · rw [List.getElem?_set, if_neg, hb2 p fun j hj => hp j (by omega)]
        intro h
        exact hp i (by omega) (by omega)
      · by_cases c2 : j = i
        · subst c2
          rw [List.getElem?_set, if_pos rfl, if_pos (by omega), if_pos (by omega)]
          congr 1
          refine Finset.sum_congr rfl fun k _ => ?_
          push_cast
          rfl
        · rw [List.getElem?_set, if_neg, hb3 j (by omega)]
          intro h
          have h0 : 0 ≤ (j + ((TAPS - 1) / 2 : ℕ) : ℤ) * stride := by positivity
          exact c2 (hunique j (by omega)))
  refine ⟨b, e2, hb1, fun p hp => hb2 p fun i hi => hp i (by omega), fun i hi => ⟨Pnm.nearbyint (i * ratio), Pnm.nearbyint_near _, hb3 i (by omega)⟩⟩

/-- Without the hypothesis on the rate: the call divides by zero. -/
theorem C61_division (r : Resampler) (output input : List A) (diff : ℝ) (samples stride : ℤ) (h : r.rate + diff = 0) :
    r.call TAPS OVER output input diff samples stride = .error .divZero := by
  simp [call, fdiv, h, bind, Except.bind]

/-- Three taps, two points per tap, eight samples at every other place. -/
example : ∃ r, make 3 2 4 1 2 (List.replicate 6 7) (List.replicate 5 8) = .ok r ∧
    ∃ out, r.call 3 2 (List.replicate 16 (9 : ℝ)) (List.replicate 16 (5 : ℝ)) 1 8 2 = .ok out ∧ out.length = 16 := by
  obtain ⟨r, w, S, e, -, -, -, H⟩ := C61_block (A := ℝ) 3 2 (by norm_num) (by norm_num) (by norm_num) (by norm_num) 4 1 2 (by norm_num) (List.replicate 6 7) (List.replicate 5 8)
    (by simp) (by simp)
  obtain ⟨out, e', h, -⟩ := H 1 (by norm_num) 8 2 (by norm_num) (by norm_num) (by norm_num) (by norm_num [abs_le]) (List.replicate 16 5) (List.replicate 16 9) (fun _ => 5)
    (fun s h0 h1 => by rw [List.getElem?_replicate, if_pos (by omega)]) (by simp)
  exact ⟨r, e, out, e', by rw [h]; simp⟩

end DSP.Resampler
