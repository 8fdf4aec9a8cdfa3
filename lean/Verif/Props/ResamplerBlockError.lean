import Verif.Props.ResamplerError
import Verif.Props.Resampler

/-!
# C104: the block resampler in floating point
-/

namespace DSP.Resampler.Rounded
open Spec

variable (l p q : ℕ) [NeZero p] [NeZero q] (hp : 16 ≤ p) (hp' : p ≤ 53) (hl : p ≤ l) (hq : p ≤ q) (hq31 : 31 ≤ q) (sin : Binary p → Binary p) (hsin : Fir.LibrarySine p sin) (TAPS OVER : ℕ) (hT : 1 ≤ TAPS)
  (hO : 2 ≤ OVER) (hK : 64 * (TAPS * OVER) ≤ 2 ^ p) (hK2 : TAPS * OVER ≤ 1073741824) (rate cutoff alpha : Binary p) (hr : rate.val ≠ 0) (hc : |2 * ((cutoff.val : ℝ) / rate.val)| ≤ 1) (ha : |(alpha.val : ℝ)| ≤ 3)

omit [NeZero p] [NeZero q] in
include hp hq in
/-- The roundings of the position and of the offset. -/
theorem units : (1 + (1 : ℚ) / 2 ^ p) * (1 + 1 / 2 ^ q) / (1 - 1 / 2 ^ p) - 1 ≤ 3.1 * (1 / 2 ^ p) ∧ (1 + (1 : ℚ) / 2 ^ p) * (1 + 1 / 2 ^ q) - 1 ≤ 2.01 * (1 / 2 ^ p) ∧ (1 : ℚ) / 2 ^ p ≤ 1 / 65536 := by
  have h1 : (1 : ℚ) / 2 ^ p ≤ 1 / 65536 := by
    rw [show (65536 : ℚ) = 2 ^ 16 by norm_num]
    gcongr
    norm_num
  have h2 : (1 : ℚ) / 2 ^ q ≤ 1 / 2 ^ p := by gcongr; norm_num
  have h0 : (0 : ℚ) ≤ 1 / 2 ^ p := by positivity
  have h3 : (0 : ℚ) ≤ 1 / 2 ^ q := by positivity
  generalize (1 : ℚ) / 2 ^ p = u at *
  generalize (1 : ℚ) / 2 ^ q = v at *
  refine ⟨?_, by nlinarith, h1⟩
  have h4 : (1 + u) * (1 + v) ≤ (1 + 3.1 * u) * (1 - u) := by nlinarith
  have : (1 + u) * (1 + v) / (1 - u) ≤ 1 + 3.1 * u := by
    rw [div_le_iff₀ (by linarith)]
    exact h4
  linarith

variable {l p q}

include hp hq hT hO hK in
theorem sum_ok (G E : ℝ) (hG : 0 ≤ G) (S : ℝ → ℝ) (r : Resampler.Rounded p) (hs : Resampling.Near TAPS OVER G E r.lpf S)
    (input : List (Binary p)) (samples stride s0 : ℤ) (x : Binary q) (u : ℤ → Binary p) (hst : 1 ≤ stride) (hfit : samples * stride ≤ 2147483647) (hsq : samples < 2 ^ q)
    (hu : ∀ s, 0 ≤ s → s < samples → input[(s * stride).toNat]? = some (u s)) (h0 : 0 ≤ s0) (h1 : s0 + TAPS ≤ samples) (hx : |x.val - s0| ≤ 1 / 2) :
    ∃ v, r.sum TAPS OVER input stride s0 x = .ok v ∧ |(v.val : ℝ) - ∑ s ∈ Finset.range TAPS, S ((s0 + s - x.val) * OVER) * (u (s0 + s)).val| ≤
      (E + 10 * (TAPS + 1)) * (1 / 2 ^ p) * G * ∑ s ∈ Finset.range TAPS, Resampling.reach OVER s * |((u (s0 + s)).val : ℝ)| := by
  obtain ⟨-, hu2, -⟩ := units p q hp hq
  obtain ⟨y, e, hy⟩ := Resampling.sum_near TAPS OVER hT hK (by omega) G E hG r.lpf S hs (fun sum (j : ℕ) => do
    let k := offset p q x (s0 + j)
    let v ← r.lpf.call Binary.trunc (TAPS * OVER) k
    let i ← int32 ((s0 + j) * stride)
    let u ← rd input i
    return sum + v * u) (fun j => u (s0 + j)) (fun j => offset p q x (s0 + j)) (s0 - x.val) (by
      have := (Rat.cast_le (K := ℝ)).mpr hx
      push_cast at this
      rw [abs_sub_comm]
      exact this) (by
      intro j hj
      have := C81_offset (p := p) x (s0 + j) (by rw [abs_of_nonneg (by omega)]; omega)
      have h2 := this.trans (mul_le_mul_of_nonneg_right hu2 (abs_nonneg _))
      have h3 := (Rat.cast_le (K := ℝ)).mpr h2
      push_cast at h3
      rw [show (j : ℝ) + (s0 - x.val) = s0 + j - x.val by ring]
      exact h3) (by
      intro j hj acc v hv
      have hp0 : 0 ≤ (s0 + j) * stride := by positivity
      have hp1 : (s0 + j) * stride ≤ samples * stride := mul_le_mul_of_nonneg_right (by omega) (by omega)
      simp only [hv, bind, Except.bind, pure, Except.pure]
      rw [int32_fits (by omega)]
      simp only []
      rw [rd_of_getElem? hp0 (hu _ (by omega) (by omega))])
  refine ⟨y, e, ?_⟩
  have : ∀ s : ℕ, ((s : ℝ) + (s0 - x.val)) = s0 + s - x.val := fun s => by ring
  simp only [this] at hy
  exact hy

include hp hp' hl hq hq31 hsin hT hO hK hK2 hr hc ha in
/-- For every precision, filter, block and difference: the call reads and writes inside of the arrays of `samples * stride` elements and sets only the elements at `(i + (TAPS-1)/2) * stride`. Such an element
becomes the input, filtered around a position that is `i * rate / (rate + diff)` up to `3.1` units of rounding: with the `TAPS` samples from the one that is nearest to it, by the natural spline through the weighted low-pass filter,
with an error of at most `1030 + 990 * alpha^2 + 90 * TAPS` units of rounding, in proportion to the gain of the filter and the sum of the absolute values of these samples, the first of them weighted by `(OVER/2 + 1.1)^3`.
If there are not enough of them, it stays as it is. -/
theorem C104_block (tmp junk : List (Binary p)) (ht : tmp.length = TAPS * OVER) (hj : junk.length = TAPS * OVER - 1) :
    ∃ r S, make l q sin TAPS OVER rate cutoff alpha tmp junk = .ok r ∧
      IsNaturalSpline (TAPS * OVER) (prototype TAPS OVER ((cutoff.val : ℝ) / rate.val) alpha.val) S ∧
      ∀ (diff : Binary p) (_ : rate.val + diff.val ≠ 0) (samples stride : ℤ) (_ : 0 ≤ samples) (_ : 1 ≤ stride) (_ : samples * stride ≤ 2147483647)
        (_ : |samples * (rate.val / (rate.val + diff.val))| ≤ 1000000000) (input output : List (Binary p)) (u : ℤ → Binary p)
        (_ : ∀ s, 0 ≤ s → s < samples → input[(s * stride).toNat]? = some (u s)) (_ : output.length = samples * stride),
        ∃ output', r.call q TAPS OVER output input diff samples stride = .ok output' ∧ output'.length = output.length ∧
          (∀ k : ℕ, (∀ i : ℕ, (i : ℤ) < samples - TAPS → (k : ℤ) ≠ (i + ((TAPS - 1) / 2 : ℕ)) * stride) → output'[k]? = output[k]?) ∧
          ∀ i : ℕ, (i : ℤ) < samples - TAPS → ∃ (x : ℚ) (s0 : ℤ), |x - i * (rate.val / (rate.val + diff.val))| ≤ 3.1 / 2 ^ p * |i * (rate.val / (rate.val + diff.val))| ∧ |x - s0| ≤ 1 / 2 ∧
            if 0 ≤ s0 ∧ s0 + TAPS ≤ samples then
              ∃ v, output'[((i + ((TAPS - 1) / 2 : ℕ)) * stride).toNat]? = some v ∧ |(v.val : ℝ) - ∑ s ∈ Finset.range TAPS, S ((s0 + s - x) * OVER) * (u (s0 + s)).val| ≤
                (1030 + 990 * (alpha.val : ℝ) ^ 2 + 90 * TAPS) * |2 * ((cutoff.val : ℝ) / rate.val)| * (1 / 2 ^ p) *
                  ∑ s ∈ Finset.range TAPS, (if s = 0 then ((OVER : ℝ) / 2 + 1.1) ^ 3 else 1) * |((u (s0 + s)).val : ℝ)|
            else output'[((i + ((TAPS - 1) / 2 : ℕ)) * stride).toNat]? = output[((i + ((TAPS - 1) / 2 : ℕ)) * stride).toNat]? := by
  obtain ⟨s, S, es, hS, hnear⟩ := Resampling.lpf_taps l p q hp hp' hl hq sin hsin TAPS OVER hT hO hK hK2 rate cutoff alpha hr hc ha tmp junk ht hj
  refine ⟨⟨s, rate⟩, S, by simp only [make, bind, Except.bind, es, pure, Except.pure], hS, ?_⟩
  intro diff hd samples stride hs0 hst hfit hratio input output u hu hlen
  obtain ⟨hu1, -, hu3⟩ := units p q hp hq
  obtain ⟨c, ec, hpos⟩ := C81_block hq rate diff hd
  have hG := abs_nonneg (2 * ((cutoff.val : ℝ) / rate.val))
  generalize |2 * ((cutoff.val : ℝ) / rate.val)| = G at *
  have hTK : TAPS ≤ TAPS * OVER := Nat.le_mul_of_pos_right _ (by omega)
  have hss : samples ≤ samples * stride := le_mul_of_one_le_right hs0 hst
  have hq2 : (2147483648 : ℤ) ≤ 2 ^ q := by
    rw [show (2147483648 : ℤ) = 2 ^ 31 by norm_num]
    exact pow_le_pow_right₀ (by norm_num) hq31
  generalize rate.val / (rate.val + diff.val) = ρ at *
  have hplace : ∀ i : ℕ, (i : ℤ) < samples - TAPS → 0 ≤ (i + ((TAPS - 1) / 2 : ℕ) : ℤ) * stride ∧ (i + ((TAPS - 1) / 2 : ℕ) : ℤ) * stride < samples * stride := by
    intro i hi
    constructor
    · positivity
    · exact mul_lt_mul_of_pos_right (by omega) (by omega)
  have hposi : ∀ i : ℕ, (i : ℤ) < samples - TAPS → |(position q c i).val - i * ρ| ≤ 3.1 / 2 ^ p * |i * ρ| := by
    intro i hi
    have hi2 : (i : ℤ) < 2 ^ q := by omega
    refine (hpos i (by exact_mod_cast hi2)).trans (mul_le_mul_of_nonneg_right (hu1.trans (le_of_eq ?_)) (abs_nonneg _))
    ring
  set Good : ℤ → ℚ → Option (Binary p) → Prop := fun s0 x o => ∃ v, o = some v ∧ |(v.val : ℝ) - ∑ s ∈ Finset.range TAPS, S ((s0 + s - x) * OVER) * (u (s0 + s)).val| ≤
      ((1018 + 990 * (alpha.val : ℝ) ^ 2 + 77 * TAPS) + 10 * (TAPS + 1)) * (1 / 2 ^ p) * G * ∑ s ∈ Finset.range TAPS, Resampling.reach OVER s * |((u (s0 + s)).val : ℝ)| with hGood
  simp only [call, bind, Except.bind, ec, int32_fits (show -2147483648 ≤ samples - TAPS ∧ samples - TAPS ≤ 2147483647 by omega)]
  obtain ⟨b, e2, hb1, hb2, hb3⟩ := foldlM_inv (fun k (b : List (Binary p)) => b.length = output.length ∧
      (∀ n : ℕ, (∀ i : ℕ, i < k → (n : ℤ) ≠ (i + ((TAPS - 1) / 2 : ℕ)) * stride) → b[n]? = output[n]?) ∧
      ∀ i : ℕ, i < k → if 0 ≤ Binary.nearest (position q c i).val ∧ Binary.nearest (position q c i).val + TAPS ≤ samples then
          Good (Binary.nearest (position q c i).val) (position q c i).val b[((i + ((TAPS - 1) / 2 : ℕ)) * stride).toNat]?
        else b[((i + ((TAPS - 1) / 2 : ℕ)) * stride).toNat]? = output[((i + ((TAPS - 1) / 2 : ℕ)) * stride).toNat]?)
    (body ⟨s, rate⟩ TAPS OVER input samples stride c) (samples - TAPS).toNat output ⟨rfl, fun _ _ => rfl, fun i hi => absurd hi (by omega)⟩ (by
    rintro i hi b ⟨hb1, hb2, hb3⟩
    have hi' : (i : ℤ) < samples - TAPS := by omega
    obtain ⟨hp0, hp1⟩ := hplace i hi'
    have hn := Binary.nearest_near (position q c i).val
    have hs0r : |(i : ℚ) * ρ| ≤ 1000000000 := by
      refine le_trans ?_ hratio
      rw [abs_mul, abs_mul]
      have : |(i : ℚ)| ≤ |(samples : ℚ)| := by
        rw [abs_of_nonneg (by positivity), abs_of_nonneg (by exact_mod_cast hs0)]
        exact_mod_cast (by omega : (i : ℤ) ≤ samples)
      gcongr
    have hx := hposi i hi'
    have hx2 : 3.1 / 2 ^ p * |i * ρ| ≤ 50000 := by
      rw [show (3.1 : ℚ) / 2 ^ p = 3.1 * (1 / 2 ^ p) by ring]
      have := mul_le_mul (mul_le_mul_of_nonneg_left hu3 (by norm_num : (0 : ℚ) ≤ 3.1)) hs0r (abs_nonneg _) (by norm_num)
      exact this.trans (by norm_num)
    have hs0b : -1073741824 ≤ Binary.nearest (position q c i).val ∧ Binary.nearest (position q c i).val ≤ 1073741823 := by
      rw [abs_le] at hn hs0r hx
      constructor
      · have : (-1073741825 : ℚ) < Binary.nearest (position q c i).val := by linarith [hn.1, hn.2, hs0r.1, hx.1]
        have : (-1073741825 : ℤ) < Binary.nearest (position q c i).val := by exact_mod_cast this
        omega
      · have : (Binary.nearest (position q c i).val : ℚ) < 1073741824 := by linarith [hn.1, hn.2, hs0r.2, hx.2]
        have : Binary.nearest (position q c i).val < (1073741824 : ℤ) := by exact_mod_cast this
        omega
    have hunique : ∀ j : ℕ, (j + ((TAPS - 1) / 2 : ℕ) : ℤ) * stride = (i + ((TAPS - 1) / 2 : ℕ)) * stride → j = i := by
      intro j hj
      have := mul_right_cancel₀ (by omega : stride ≠ 0) hj
      omega
    simp only [body, bind, Except.bind]
    generalize hN : Binary.nearest (position q c i).val = N at *
    rw [int32_fits (show -2147483648 ≤ N ∧ N ≤ 2147483647 by omega)]
    simp only []
    rw [int32_fits (show -2147483648 ≤ N + (TAPS : ℤ) ∧ N + (TAPS : ℤ) ≤ 2147483647 by omega)]
    simp only []
    have hfree : b[((i + ((TAPS - 1) / 2 : ℕ)) * stride).toNat]? = output[((i + ((TAPS - 1) / 2 : ℕ)) * stride).toNat]? := by
      refine hb2 _ fun j hj hjp => ?_
      rw [Int.toNat_of_nonneg hp0] at hjp
      have := hunique j hjp.symm
      omega
    by_cases cc : N < 0 ∨ N + TAPS > samples
    · rw [if_pos cc]
      refine ⟨b, rfl, hb1, fun n hn => hb2 n fun j hj => hn j (by omega), fun j hj => ?_⟩
      by_cases c2 : j = i
      · subst c2
        rw [hN, if_neg (by omega), hfree]
      · exact hb3 j (by omega)
    · rw [if_neg cc]
      obtain ⟨v, ev, hv⟩ := sum_ok hp hq TAPS OVER hT hO hK G _ hG S ⟨s, rate⟩ hnear input samples stride N (position q c i) u hst hfit (by omega) hu (by omega) (by omega) (by
        first | exact hn | (rw [abs_sub_comm]; exact hn))
      rw [ev]
      simp only [int32_fits (show -2147483648 ≤ (i + ((TAPS - 1) / 2 : ℕ) : ℤ) * stride ∧ (i + ((TAPS - 1) / 2 : ℕ) : ℤ) * stride ≤ 2147483647 by omega)]
      rw [wr_ok hp0 (by omega)]
      refine ⟨_, rfl, by simp [hb1], fun n hn => ?_, fun j hj => ?_⟩
      · rw [List.getElem?_set, if_neg, hb2 n fun j hj => hn j (by omega)]
        intro h
        exact hn i (by omega) (by omega)
      · by_cases c2 : j = i
        · subst c2
          rw [hN, if_pos (by omega), List.getElem?_set, if_pos rfl, if_pos (by omega)]
          exact ⟨v, rfl, hv⟩
        · have hne : ((i + ((TAPS - 1) / 2 : ℕ) : ℤ) * stride).toNat ≠ ((j + ((TAPS - 1) / 2 : ℕ) : ℤ) * stride).toNat := by
            intro h
            have h0 : 0 ≤ (j + ((TAPS - 1) / 2 : ℕ) : ℤ) * stride := by positivity
            exact c2 (hunique j (by omega))
          rw [List.getElem?_set, if_neg hne]
          exact hb3 j (by omega))
  refine ⟨b, e2, hb1, fun n hn => hb2 n fun i hi => hn i (by omega), fun i hi => ⟨(position q c i).val, Binary.nearest (position q c i).val, hposi i hi, ?_, ?_⟩⟩
  · have hn := Binary.nearest_near (position q c i).val
    first | exact hn | (rw [abs_sub_comm]; exact hn)
  · have h := hb3 i (by omega)
    split_ifs at h ⊢ with c1
    · obtain ⟨v, hv, hF⟩ := h
      refine ⟨v, hv, hF.trans ?_⟩
      have : ∀ s : ℕ, Resampling.reach OVER s = if s = 0 then ((OVER : ℝ) / 2 + 1.1) ^ 3 else 1 := fun s => rfl
      simp only [← this]
      have hA : 0 ≤ ∑ s ∈ Finset.range TAPS, Resampling.reach OVER s * |((u (Binary.nearest (position q c i).val + s)).val : ℝ)| :=
        Finset.sum_nonneg fun j _ => mul_nonneg (zero_le_one.trans (Resampling.reach_pos OVER j)) (abs_nonneg _)
      have hTr : (0 : ℝ) ≤ TAPS := by positivity
      refine mul_le_mul_of_nonneg_right ?_ hA
      rw [mul_right_comm]
      refine mul_le_mul_of_nonneg_right (mul_le_mul_of_nonneg_right ?_ hG) (by positivity)
      linarith
    · exact h

/-- A filter of three taps with four points for each in `float`, for eight samples at every other place. -/
example : ∃ (rate cutoff alpha diff : Binary 24) (r : Resampler.Rounded 24) (out : List (Binary 24)), make 64 53 Fir.roundedSine 3 4 rate cutoff alpha (List.replicate 12 7) (List.replicate 11 8) = .ok r ∧
    r.call 53 3 4 (List.replicate 16 9) (List.replicate 16 5) diff 8 2 = .ok out ∧ out.length = 16 := by
  obtain ⟨r, S, e, -, H⟩ := C104_block (l := 64) (p := 24) (q := 53) (by norm_num) (by norm_num) (by norm_num) (by norm_num) (by norm_num) Fir.roundedSine (Fir.roundedSine_library 24) 3 4 (by norm_num) (by norm_num)
    (by norm_num) (by norm_num) ⟨48000, 48000, 0, by norm_num, by norm_num⟩ ⟨12000, 12000, 0, by norm_num, by norm_num⟩ ⟨2, 2, 0, by norm_num, by norm_num⟩ (by norm_num) (by norm_num [abs_of_pos]) (by norm_num)
    (List.replicate 12 7) (List.replicate 11 8) (by simp) (by simp)
  obtain ⟨out, e', h, -⟩ := H ⟨12, 12, 0, by norm_num, by norm_num⟩ (by norm_num) 8 2 (by norm_num) (by norm_num) (by norm_num) (by norm_num [abs_of_pos]) (List.replicate 16 5) (List.replicate 16 9) (fun _ => 5)
    (fun s h0 h1 => by rw [List.getElem?_replicate, if_pos (by omega)]) (by simp)
  exact ⟨_, _, _, _, r, out, e, e', by rw [h]; simp⟩

end DSP.Resampler.Rounded
