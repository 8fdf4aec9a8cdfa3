import Verif.Props.ResamplerDesign
import Verif.Props.ResamplerClock
import Verif.Props.Resampler2
import Verif.Lemmas.RoundedSum

/-!
# C103: the streaming resampler in floating point
-/

namespace DSP
open Spec

namespace Resampling

/-- One more product. -/
theorem product_step (u P A S acc t m r : ℝ) (hu0 : 0 ≤ u) (hP : 1 + u ≤ P) (hS : |S| ≤ A) (h : |acc - S| ≤ (P - 1) * A) (hm : |m - t| ≤ u * |t|) (hr : |r - (acc + m)| ≤ u * |acc + m|) :
    |r - (S + t)| ≤ (P * (1 + u) - 1) * (A + |t|) := by
  have h1 : |acc + m - (S + t)| ≤ (P - 1) * (A + |t|) := by
    calc |acc + m - (S + t)| = |(acc - S) + (m - t)| := by congr 1; ring
      _ ≤ |acc - S| + |m - t| := abs_add_le _ _
      _ ≤ (P - 1) * A + (P - 1) * |t| := add_le_add h (hm.trans (mul_le_mul_of_nonneg_right (by linarith) (abs_nonneg _)))
      _ = _ := by ring
  have h2 : |acc + m| ≤ P * (A + |t|) := by
    calc |acc + m| = |(acc + m - (S + t)) + (S + t)| := by congr 1; ring
      _ ≤ (P - 1) * (A + |t|) + (A + |t|) := (abs_add_le _ _).trans (add_le_add h1 ((abs_add_le _ _).trans (by linarith)))
      _ = _ := by ring
  calc |r - (S + t)| ≤ |r - (acc + m)| + |acc + m - (S + t)| := abs_sub_le _ _ _
    _ ≤ u * (P * (A + |t|)) + (P - 1) * (A + |t|) := add_le_add (hr.trans (mul_le_mul_of_nonneg_left h2 hu0)) h1
    _ = _ := by ring

/-- A sum of products. -/
theorem products_near {p : ℕ} [NeZero p] (f : Binary p → ℕ → M (Binary p)) (n : ℕ) (v b : ℕ → Binary p) (h : ∀ i < n, ∀ acc, f acc i = .ok (acc + v i * b i)) :
    ∃ y, (List.range n).foldlM f 0 = .ok y ∧
      |(y.val : ℝ) - ∑ i ∈ Finset.range n, ((v i).val : ℝ) * (b i).val| ≤ ((1 + 1 / 2 ^ p) ^ (n + 1) - 1) * ∑ i ∈ Finset.range n, |((v i).val : ℝ) * (b i).val| := by
  have hR := binary_roundedField p
  have hu0 : (0 : ℝ) ≤ 1 / 2 ^ p := by positivity
  refine foldlM_inv (fun k (y : Binary p) => |(y.val : ℝ) - ∑ i ∈ Finset.range k, ((v i).val : ℝ) * (b i).val| ≤ ((1 + 1 / 2 ^ p) ^ (k + 1) - 1) * ∑ i ∈ Finset.range k, |((v i).val : ℝ) * (b i).val|) f n 0 ?_ ?_
  · have : ((0 : Binary p).val : ℝ) = 0 := by show ((0 : ℚ) : ℝ) = 0; norm_num
    simp [this]
  · intro i hi acc hacc
    refine ⟨_, h i hi acc, ?_⟩
    rw [Finset.sum_range_succ, Finset.sum_range_succ, pow_succ]
    refine product_step _ _ _ _ _ _ _ _ hu0 ?_ (Finset.abs_sum_le_sum_abs _ _) hacc (hR.mul (v i) (b i)) (hR.add acc (v i * b i))
    calc (1 : ℝ) + 1 / 2 ^ p = (1 + 1 / 2 ^ p) ^ 1 := (pow_one _).symm
      _ ≤ _ := pow_le_pow_right₀ (by linarith) (by omega)

/-- How much the sample at the tap `s` counts for the error: the spline is continued over its end for the first of them. -/
noncomputable def reach (OVER s : ℕ) : ℝ := if s = 0 then ((OVER : ℝ) / 2 + 1.1) ^ 3 else 1

theorem reach_pos (OVER s : ℕ) : 1 ≤ reach OVER s := by
  unfold reach
  split_ifs
  · exact one_le_pow₀ (by have : (0 : ℝ) ≤ OVER := by positivity
                          linarith)
  · exact le_rfl

/-- `s` is close to the filter `S`, at all places where it is used. -/
def Near {p : ℕ} [NeZero p] (TAPS OVER : ℕ) (G E : ℝ) (s : NaturalSpline.Rounded (Binary p)) (S : ℝ → ℝ) : Prop :=
  ∀ (j : ℕ) (d : ℝ) (k : Binary p), j < TAPS → |d| ≤ 1 / 2 → |(k.val : ℝ) - (j + d)| ≤ 2.01 * (1 / 2 ^ p) * |j + d| →
    ∃ v, s.call Binary.trunc (TAPS * OVER) k = .ok v ∧ |(v.val : ℝ)| ≤ 8.6 * reach OVER j * G ∧ |(v.val : ℝ) - S ((j + d) * OVER)| ≤ E * reach OVER j * (1 / 2 ^ p) * G

section
variable (l p q : ℕ) [NeZero p] [NeZero q] (hp : 16 ≤ p) (hp' : p ≤ 53) (hl : p ≤ l) (hq : p ≤ q) (sin : Binary p → Binary p) (hsin : Fir.LibrarySine p sin) (TAPS OVER : ℕ) (hT : 1 ≤ TAPS)
  (hO : 2 ≤ OVER) (hK : 64 * (TAPS * OVER) ≤ 2 ^ p) (hK2 : TAPS * OVER ≤ 1073741824) (rate cutoff alpha : Binary p) (hr : rate.val ≠ 0) (hc : |2 * ((cutoff.val : ℝ) / rate.val)| ≤ 1) (ha : |(alpha.val : ℝ)| ≤ 3)

include hp hp' hl hq hsin hT hO hK hK2 hr hc ha in
theorem lpf_taps (tmp junk : List (Binary p)) (ht : tmp.length = TAPS * OVER) (hj : junk.length = TAPS * OVER - 1) : ∃ s S, Rounded.lpf l p q sin TAPS OVER rate cutoff alpha tmp junk = .ok s ∧
    IsNaturalSpline (TAPS * OVER) (prototype TAPS OVER ((cutoff.val : ℝ) / rate.val) alpha.val) S ∧
    Near TAPS OVER |2 * ((cutoff.val : ℝ) / rate.val)| (1018 + 990 * (alpha.val : ℝ) ^ 2 + 77 * TAPS) s S := by
  obtain ⟨s, S, e, hS, h⟩ := lpf_near l p q hp hp' hl hq sin hsin TAPS OVER hT hO hK hK2 rate cutoff alpha hr hc ha tmp junk ht hj
  refine ⟨s, S, e, hS, fun j d k hj hd hk => ?_⟩
  obtain ⟨h1, h2⟩ := h _ k hk
  have hTr : (0 : ℝ) ≤ TAPS := by positivity
  have ha2 := sq_nonneg (alpha.val : ℝ)
  have hu0 : (0 : ℝ) ≤ 1 / 2 ^ p := by positivity
  generalize |2 * ((cutoff.val : ℝ) / rate.val)| = G at *
  have hG : 0 ≤ 1 / 2 ^ p * |G| := by positivity
  by_cases c : j = 0
  · subst c
    rw [Nat.cast_zero, zero_add] at *
    obtain ⟨v, e1, e2, e3⟩ := h2 hd
    have hG0 : 0 ≤ G := by
      by_contra hG
      have h3 : (0 : ℝ) < 8.6 * ((OVER : ℝ) / 2 + 1.1) ^ 3 := by positivity
      have := mul_neg_of_pos_of_neg h3 (not_le.mp hG)
      linarith [abs_nonneg (v.val : ℝ)]
    refine ⟨v, e1, ?_, e3.trans ?_⟩
    · simpa [reach] using e2
    · rw [reach, if_pos rfl]
      gcongr
      · norm_num
      · norm_num
  · have hj1 : (1 : ℝ) ≤ j := by exact_mod_cast Nat.pos_of_ne_zero c
    have hj2 : (j : ℝ) + 1 ≤ TAPS := by exact_mod_cast hj
    rw [abs_le] at hd
    obtain ⟨v, e1, e2, e3⟩ := h1 (by linarith) (by linarith)
    have hG0 : 0 ≤ G := by linarith [abs_nonneg (v.val : ℝ)]
    refine ⟨v, e1, ?_, e3.trans ?_⟩
    · rw [reach, if_neg c]
      linarith
    · rw [reach, if_neg c, mul_one]
      gcongr
      norm_num

end

/-- The sum, if the offsets are exact enough. -/
theorem sum_near {p : ℕ} [NeZero p] (TAPS OVER : ℕ) (hT : 1 ≤ TAPS) (hK : 64 * (TAPS * OVER) ≤ 2 ^ p) (hO : 1 ≤ OVER) (G E : ℝ) (hG : 0 ≤ G) (s : NaturalSpline.Rounded (Binary p)) (S : ℝ → ℝ) (h : Near TAPS OVER G E s S)
    (f : Binary p → ℕ → M (Binary p)) (b k : ℕ → Binary p) (d : ℝ) (hd : |d| ≤ 1 / 2)
    (hk : ∀ j < TAPS, |((k j).val : ℝ) - (j + d)| ≤ 2.01 * (1 / 2 ^ p) * |j + d|)
    (hf : ∀ j < TAPS, ∀ acc v, s.call Binary.trunc (TAPS * OVER) (k j) = .ok v → f acc j = .ok (acc + v * b j)) :
    ∃ y, (List.range TAPS).foldlM f 0 = .ok y ∧
      |(y.val : ℝ) - ∑ j ∈ Finset.range TAPS, S ((j + d) * OVER) * (b j).val| ≤ (E + 10 * (TAPS + 1)) * (1 / 2 ^ p) * G * ∑ j ∈ Finset.range TAPS, reach OVER j * |((b j).val : ℝ)| := by
  choose! v hv using fun j hj => h j d (k j) hj hd (hk j hj)
  obtain ⟨y, e, hy⟩ := products_near f TAPS v b fun i hi acc => hf i hi acc _ (hv i hi).1
  refine ⟨y, e, ?_⟩
  have hu0 : (0 : ℝ) ≤ 1 / 2 ^ p := by positivity
  have hsmall : 10 * (((TAPS + 1 : ℕ) : ℝ) * (1 / 2 ^ p)) ≤ 1 := by
    rw [mul_one_div, ← mul_div_assoc, div_le_one (by positivity)]
    have : TAPS ≤ TAPS * OVER := Nat.le_mul_of_pos_right _ hO
    exact_mod_cast (by omega : 10 * (TAPS + 1) ≤ 2 ^ p)
  have hP := pow_units _ hu0 _ hsmall
  have h1 : ∑ i ∈ Finset.range TAPS, |((v i).val : ℝ) * (b i).val| ≤ 8.6 * G * ∑ j ∈ Finset.range TAPS, reach OVER j * |((b j).val : ℝ)| := by
    rw [Finset.mul_sum]
    refine Finset.sum_le_sum fun i hi => ?_
    rw [abs_mul]
    have := mul_le_mul_of_nonneg_right (hv i (Finset.mem_range.mp hi)).2.1 (abs_nonneg ((b i).val : ℝ))
    linarith
  have h2 : |∑ i ∈ Finset.range TAPS, ((v i).val : ℝ) * (b i).val - ∑ j ∈ Finset.range TAPS, S ((j + d) * OVER) * (b j).val| ≤ E * (1 / 2 ^ p) * G * ∑ j ∈ Finset.range TAPS, reach OVER j * |((b j).val : ℝ)| := by
    rw [← Finset.sum_sub_distrib, Finset.mul_sum]
    refine (Finset.abs_sum_le_sum_abs _ _).trans (Finset.sum_le_sum fun i hi => ?_)
    rw [← sub_mul, abs_mul]
    have := mul_le_mul_of_nonneg_right (hv i (Finset.mem_range.mp hi)).2.2 (abs_nonneg ((b i).val : ℝ))
    linarith
  have hA : 0 ≤ ∑ j ∈ Finset.range TAPS, reach OVER j * |((b j).val : ℝ)| := Finset.sum_nonneg fun j _ => mul_nonneg (zero_le_one.trans (reach_pos OVER j)) (abs_nonneg _)
  have hA1 : 0 ≤ ∑ i ∈ Finset.range TAPS, |((v i).val : ℝ) * (b i).val| := Finset.sum_nonneg fun j _ => abs_nonneg _
  generalize (∑ j ∈ Finset.range TAPS, reach OVER j * |((b j).val : ℝ)|) = A at *
  generalize (∑ i ∈ Finset.range TAPS, |((v i).val : ℝ) * (b i).val|) = A1 at *
  have h3 := mul_le_mul hP h1 hA1 (by positivity)
  push_cast at h3
  have h4 : 1.1 * ((TAPS : ℝ) + 1) * (1 / 2 ^ p) * (8.6 * G * A) ≤ 10 * (TAPS + 1) * (1 / 2 ^ p) * G * A := by
    have : 0 ≤ ((TAPS : ℝ) + 1) * (1 / 2 ^ p) * (G * A) := by positivity
    linarith
  refine (abs_sub_le _ _ _).trans ((add_le_add hy h2).trans ?_)
  linarith

end Resampling

namespace Resampler2.Rounded

variable {p : ℕ} [NeZero p]

/-- The samples in the buffer, filtered at the offset `d`. -/
def Filtered (TAPS OVER : ℕ) (C : ℝ) (S : ℝ → ℝ) (b : ℕ → Binary p) (d v : Binary p) : Prop :=
  |(v.val : ℝ) - ∑ j ∈ Finset.range TAPS, S ((j + d.val) * OVER) * (b j).val| ≤ C * (1 / 2 ^ p) * ∑ j ∈ Finset.range TAPS, Resampling.reach OVER j * |((b j).val : ℝ)|

theorem sum_ok (TAPS OVER : ℕ) (hT : 1 ≤ TAPS) (hO : 1 ≤ OVER) (hK : 64 * (TAPS * OVER) ≤ 2 ^ p) (G E : ℝ) (hG : 0 ≤ G) (S : ℝ → ℝ) (b : ℕ → Binary p) (r : Resampler2.Rounded p)
    (hb : r.buf = (List.range TAPS).map b) (hs : Resampling.Near TAPS OVER G E r.lpf S) (hd : |r.dpos.val| ≤ 1 / 2) :
    ∃ v, r.sum TAPS OVER = .ok v ∧ Filtered TAPS OVER ((E + 10 * (TAPS + 1)) * G) S b r.dpos v := by
  have hR := binary_roundedField p
  obtain ⟨y, e, hy⟩ := Resampling.sum_near TAPS OVER hT hK hO G E hG r.lpf S hs (fun sum (s : ℕ) => do
    let k := ((s : ℤ) : Binary p) + r.dpos
    let v ← r.lpf.call Binary.trunc (TAPS * OVER) k
    let u ← rd r.buf s
    return sum + v * u) b (fun s => ((s : ℤ) : Binary p) + r.dpos) r.dpos.val (by
      have := (Rat.cast_le (K := ℝ)).mpr hd
      push_cast at this
      exact this) (by
      intro j hj
      have hjK : j < 2 ^ p := by
        have : TAPS ≤ TAPS * OVER := Nat.le_mul_of_pos_right _ hO
        omega
      have ej : (((j : ℤ) : Binary p).val : ℝ) = j := by
        rw [Binary.cast_exact p j (by rw [abs_of_nonneg (by omega)]; exact_mod_cast hjK)]
        norm_num
      have := hR.add ((j : ℤ) : Binary p) r.dpos
      rw [ej] at this
      have h0 : (0 : ℝ) ≤ 1 / 2 ^ p * |j + (r.dpos.val : ℝ)| := by positivity
      linarith) (by
      intro j hj acc v hv
      simp only [hv, bind, Except.bind, pure, Except.pure]
      rw [hb, rd_map_range _ _ j _ rfl hj])
  exact ⟨y, e, by rw [Filtered]; refine hy.trans (le_of_eq ?_); ring⟩

theorem again_prefix (one half delta : Binary p) (fuel : ℕ) (dpos : Binary p) (acc : List (Binary p)) (d : Binary p) (l : List (Binary p)) (h : Clock.again one half delta fuel dpos acc = .ok (d, l)) :
    ∃ ps, l = acc ++ dpos :: ps := by
  induction fuel generalizing dpos acc with
  | zero => simp [Clock.again] at h
  | succ fuel ih =>
    simp only [Clock.again, pure, Except.pure] at h
    split_ifs at h with c
    · obtain ⟨ps, e⟩ := ih _ _ h
      exact ⟨_ :: ps, by rw [e, List.append_assoc]; rfl⟩
    · simp only [Except.ok.injEq, Prod.mk.injEq] at h
      exact ⟨[], h.2.symm⟩

/-- The loop takes the positions of the clock. -/
theorem again_ok (half : Binary p) (TAPS OVER : ℕ) (delta : Binary p) (Q : Binary p → Binary p → Prop) (fuel : ℕ) (r : Resampler2.Rounded p) (output : List (Binary p)) (c : ℕ) (acc ps : List (Binary p)) (d : Binary p)
    (h : Clock.again 1 half delta fuel r.dpos acc = .ok (d, acc ++ ps)) (hlen : c + ps.length ≤ output.length)
    (hs : ∀ x ∈ ps, ∃ v, ({ r with dpos := x } : Resampler2.Rounded p).sum TAPS OVER = .ok v ∧ Q x v) :
    ∃ out, again half TAPS OVER delta fuel r output c = .ok ({ r with dpos := d }, out, c + ps.length) ∧ out.length = output.length ∧
      (∀ j, j < c ∨ c + ps.length ≤ j → out[j]? = output[j]?) ∧ ∀ (j : ℕ) x, ps[j]? = some x → ∃ v, out[c + j]? = some v ∧ Q x v := by
  induction fuel generalizing r output c acc ps with
  | zero => simp [Clock.again] at h
  | succ fuel ih =>
    obtain ⟨ps', e⟩ := again_prefix _ _ _ _ _ _ _ _ h
    have e := List.append_cancel_left e
    subst e
    obtain ⟨v, e1, hv⟩ := hs r.dpos (by simp)
    have e1 : r.sum TAPS OVER = .ok v := e1
    have hw : wr output (c : ℤ) v = .ok (output.set c v) := wr_nat (by simp at hlen; omega)
    have hc : c < output.length := by simp at hlen; omega
    simp only [Clock.again, pure, Except.pure] at h
    simp only [again, bind, Except.bind, pure, Except.pure, e1, hw]
    by_cases cond : r.dpos + delta > half
    · rw [if_pos cond] at h ⊢
      obtain ⟨out, e2, hl, hold, hnew⟩ := ih { r with dpos := r.dpos + delta - 1 } (output.set c v) (c + 1) (acc ++ [r.dpos]) ps' (by
        rw [show acc ++ [r.dpos] ++ ps' = acc ++ r.dpos :: ps' by simp]; exact h) (by simp at hlen ⊢; omega) (fun x hx => hs x (by simp [hx]))
      refine ⟨out, ?_, by simpa using hl, ?_, ?_⟩
      · rw [e2, List.length_cons, show c + 1 + ps'.length = c + (ps'.length + 1) by ring]
      · intro j hj
        rw [hold j (by simp at hj; omega), List.getElem?_set_ne (by simp at hj; omega)]
      · intro j x hx
        cases j with
        | zero =>
          simp only [List.getElem?_cons_zero, Option.some.injEq] at hx
          subst hx
          exact ⟨v, by rw [add_zero, hold c (by omega), List.getElem?_set_self hc], hv⟩
        | succ j =>
          rw [List.getElem?_cons_succ] at hx
          obtain ⟨w, h1, h2⟩ := hnew j x hx
          exact ⟨w, by rw [← h1]; congr 1; ring, h2⟩
    · rw [if_neg cond] at h ⊢
      simp only [Except.ok.injEq, Prod.mk.injEq] at h
      obtain ⟨rfl, h⟩ := h
      have h := List.append_cancel_left h
      obtain rfl : ps' = [] := by simpa using h.symm
      refine ⟨_, rfl, by simp, fun j hj => List.getElem?_set_ne (by simp at hj; omega), ?_⟩
      intro j x hx
      cases j with
      | zero =>
        simp only [List.getElem?_cons_zero, Option.some.injEq] at hx
        subst hx
        exact ⟨v, by rw [add_zero, List.getElem?_set_self hc], hv⟩
      | succ j => simp at hx

/-- What a call leaves and returns. -/
theorem call_ok (TAPS OVER fuel : ℕ) (hT : 1 ≤ TAPS) (Q : Binary p → Binary p → Prop) (r : Resampler2.Rounded p) (b : ℕ → Binary p) (hb : r.buf = (List.range TAPS).map b) (diff d : Binary p) (ps : List (Binary p))
    (h : Clock.binary p r.rate fuel r.dpos diff = .ok (d, ps)) (output : List (Binary p)) (hlen : ps.length ≤ output.length)
    (hs : ∀ x ∈ ps, ∃ v, ({ r with buf := (List.range TAPS).map fun j => b (j + 1), dpos := x } : Resampler2.Rounded p).sum TAPS OVER = .ok v ∧ Q x v) :
    ∃ out, r.call TAPS OVER fuel output (b TAPS) diff = .ok ({ r with dpos := d, buf := (List.range TAPS).map fun j => b (j + 1) }, out, ps.length) ∧ out.length = output.length ∧
      (∀ j, ps.length ≤ j → out[j]? = output[j]?) ∧ ∀ (j : ℕ) x, ps[j]? = some x → ∃ v, out[j]? = some v ∧ Q x v := by
  unfold Clock.binary Clock.call at h
  unfold call
  simp only [shiftIn_ok b TAPS hT _ hb, bind, Except.bind, pure, Except.pure] at h ⊢
  by_cases c : r.dpos < -Binary.literal 53 p (1 / 2)
  · rw [if_pos c] at h ⊢
    simp only [Except.ok.injEq, Prod.mk.injEq] at h
    obtain ⟨rfl, rfl⟩ := h
    exact ⟨output, rfl, rfl, fun _ _ => rfl, fun j x hx => by simp at hx⟩
  · rw [if_neg c] at h ⊢
    by_cases c2 : r.rate = 0
    · rw [if_pos c2] at h
      simp at h
    · rw [if_neg c2] at h ⊢
      obtain ⟨out, e, h1, h2, h3⟩ := again_ok (Binary.literal 53 p (1 / 2)) TAPS OVER (diff / r.rate) Q fuel { r with buf := (List.range TAPS).map fun j => b (j + 1) } output 0 [] ps d h (by omega) hs
      refine ⟨out, ?_, h1, fun j hj => h2 j (by omega), fun j x hx => ?_⟩
      · simpa using e
      · simpa using h3 j x hx

section
variable (l p q : ℕ) [NeZero p] [NeZero q] (hp : 16 ≤ p) (hp' : p ≤ 53) (hl : p ≤ l) (hq : p ≤ q) (sin : Binary p → Binary p) (hsin : Fir.LibrarySine p sin) (TAPS OVER : ℕ) (hT : 1 ≤ TAPS)
  (hO : 2 ≤ OVER) (hK : 64 * (TAPS * OVER) ≤ 2 ^ p) (hK2 : TAPS * OVER ≤ 1073741824) (rate cutoff alpha : Binary p) (hr : rate.val ≠ 0) (hc : |2 * ((cutoff.val : ℝ) / rate.val)| ≤ 1) (ha : |(alpha.val : ℝ)| ≤ 3)

include hp hp' hl hq hsin hT hO hK hK2 hr hc ha in
/-- For every precision, filter, stream of samples and sequence of differences of at most half of the rate, and any number of calls: no call faults. A call gives as many outputs as the
clock `Clock.binary` of C81 does, and at the same positions, of at most a half. An output is the input, filtered at this position by the natural spline through the weighted low-pass filter, with an error of at most
`1030 + 990 * alpha^2 + 90 * TAPS` units of rounding, in proportion to the gain of the filter and the sum of the absolute values of the samples in the buffer, the oldest of them weighted by `(OVER/2 + 1.1)^3`.
The output array is not changed after the outputs. -/
theorem C103_stream (tmp junk buf : List (Binary p)) (ht : tmp.length = TAPS * OVER) (hj : junk.length = TAPS * OVER - 1) (hbuf : buf.length = TAPS) :
    ∃ r S, make l q sin TAPS OVER rate cutoff alpha tmp junk buf = .ok r ∧
      IsNaturalSpline (TAPS * OVER) (prototype TAPS OVER ((cutoff.val : ℝ) / rate.val) alpha.val) S ∧
      ∀ (fuel : ℕ) (_ : 2 ≤ fuel) (x diff : ℕ → Binary p) (outs : ℕ → List (Binary p)) (_ : ∀ t, 2 ≤ (outs t).length) (_ : ∀ t, |(diff t).val / rate.val| ≤ 1 / 2) (T : ℕ),
        ∃ r' zs d ys, run (step TAPS OVER fuel) r ((List.range T).map fun t => (outs t, x t, diff t)) = .ok (r', zs) ∧
          run (Clock.binary p rate fuel) 0 ((List.range T).map diff) = .ok (d, ys) ∧ zs.length = T ∧ ys.length = T ∧
          ∀ t < T, ∃ out ps, zs[t]? = some (out, ps.length) ∧ ys[t]? = some ps ∧ ps.length ≤ 2 ∧ out.length = (outs t).length ∧ out.drop ps.length = (outs t).drop ps.length ∧
            ∀ (j : ℕ) (e : Binary p), ps[j]? = some e → |e.val| ≤ 1 / 2 ∧ ∃ v, out[j]? = some v ∧
              |(v.val : ℝ) - ∑ s ∈ Finset.range TAPS, S ((s + e.val) * OVER) * (past x ((t : ℤ) + 1 - TAPS + s)).val| ≤
                (1030 + 990 * (alpha.val : ℝ) ^ 2 + 90 * TAPS) * |2 * ((cutoff.val : ℝ) / rate.val)| * (1 / 2 ^ p) *
                  ∑ s ∈ Finset.range TAPS, (if s = 0 then ((OVER : ℝ) / 2 + 1.1) ^ 3 else 1) * |((past x ((t : ℤ) + 1 - TAPS + s)).val : ℝ)| := by
  obtain ⟨s, S, es, hS, hnear⟩ := Resampling.lpf_taps l p q hp hp' hl hq sin hsin TAPS OVER hT hO hK hK2 rate cutoff alpha hr hc ha tmp junk ht hj
  refine ⟨⟨s, rate, 0, (List.range TAPS).map fun _ => 0⟩, S, ?_, hS, ?_⟩
  · simp only [make, es, clear_ok buf TAPS hbuf, bind, Except.bind, pure, Except.pure]
  intro fuel hf x diff outs houts hdiff T
  have hG := abs_nonneg (2 * ((cutoff.val : ℝ) / rate.val))
  generalize |2 * ((cutoff.val : ℝ) / rate.val)| = G at *
  suffices H : ∃ zs d ys, run (step TAPS OVER fuel) ⟨s, rate, 0, (List.range TAPS).map fun _ => 0⟩ ((List.range T).map fun t => (outs t, x t, diff t)) =
        .ok (⟨s, rate, d, (List.range TAPS).map fun (j : ℕ) => past x ((T : ℤ) - TAPS + j)⟩, zs) ∧
      run (Clock.binary p rate fuel) 0 ((List.range T).map diff) = .ok (d, ys) ∧ zs.length = T ∧ ys.length = T ∧ -1 ≤ d.val ∧ d.val ≤ 1 / 2 ∧
      ∀ t < T, ∃ out ps, zs[t]? = some (out, ps.length) ∧ ys[t]? = some ps ∧ ps.length ≤ 2 ∧ out.length = (outs t).length ∧ (∀ j, ps.length ≤ j → out[j]? = (outs t)[j]?) ∧
        ∀ (j : ℕ) (e : Binary p), ps[j]? = some e → |e.val| ≤ 1 / 2 ∧ ∃ v, out[j]? = some v ∧
          Filtered TAPS OVER (((1018 + 990 * (alpha.val : ℝ) ^ 2 + 77 * TAPS) + 10 * (TAPS + 1)) * G) S (fun s => past x ((t : ℤ) + 1 - TAPS + s)) e v by
    obtain ⟨zs, d, ys, e1, e2, l1, l2, -, -, h⟩ := H
    refine ⟨_, zs, d, ys, e1, e2, l1, l2, fun t ht => ?_⟩
    obtain ⟨out, ps, h1, h2, h3, h4, h5, h6⟩ := h t ht
    refine ⟨out, ps, h1, h2, h3, h4, ?_, fun j e he => ?_⟩
    · apply List.ext_getElem?
      intro j
      rw [List.getElem?_drop, List.getElem?_drop, h5 _ (by omega)]
    · obtain ⟨a, v, hv, hF⟩ := h6 j e he
      refine ⟨a, v, hv, hF.trans ?_⟩
      have : ∀ s : ℕ, Resampling.reach OVER s = if s = 0 then ((OVER : ℝ) / 2 + 1.1) ^ 3 else 1 := fun s => rfl
      simp only [← this]
      have hA : 0 ≤ ∑ s ∈ Finset.range TAPS, Resampling.reach OVER s * |((past x ((t : ℤ) + 1 - TAPS + s)).val : ℝ)| :=
        Finset.sum_nonneg fun j _ => mul_nonneg (zero_le_one.trans (Resampling.reach_pos OVER j)) (abs_nonneg _)
      have hTr : (0 : ℝ) ≤ TAPS := by positivity
      refine mul_le_mul_of_nonneg_right (mul_le_mul_of_nonneg_right (mul_le_mul_of_nonneg_right ?_ hG) (by positivity)) hA
      linarith
  induction T with
  | zero =>
    refine ⟨[], 0, [], ?_, rfl, rfl, rfl, by show (-1 : ℚ) ≤ 0; norm_num, by show (0 : ℚ) ≤ 1 / 2; norm_num, fun t ht => by omega⟩
    rw [List.range_zero, List.map_nil, run]
    congr 3
    refine List.map_congr_left fun j hj => ?_
    rw [List.mem_range] at hj
    rw [past, if_neg (by omega)]
  | succ T ih =>
    obtain ⟨zs, d, ys, e1, e2, l1, l2, b0, b1, h⟩ := ih
    obtain ⟨d', ps, ec, hl2, b0', b1', hps, -, -⟩ := Clock.C81_call rate fuel hf d (diff T) hr (hdiff T) b0 b1
    have hlast : past x ((T : ℤ) - TAPS + TAPS) = x T := by rw [past, if_pos (by omega)]; congr 1; omega
    have eidx : ∀ j : ℕ, (T : ℤ) - TAPS + (j + 1 : ℕ) = ((T + 1 : ℕ) : ℤ) - TAPS + j := fun j => by push_cast; ring
    obtain ⟨out, eo, ol, ohi, oq⟩ := call_ok TAPS OVER fuel hT
      (Filtered TAPS OVER (((1018 + 990 * (alpha.val : ℝ) ^ 2 + 77 * TAPS) + 10 * (TAPS + 1)) * G) S (fun s => past x ((T : ℤ) + 1 - TAPS + s)))
      ⟨s, rate, d, (List.range TAPS).map fun (j : ℕ) => past x ((T : ℤ) - TAPS + j)⟩ (fun j => past x ((T : ℤ) - TAPS + j)) rfl (diff T) d' ps ec (outs T) (hl2.trans (houts T)) (by
        intro e he
        refine sum_ok TAPS OVER hT (by omega) hK G _ hG S _ ⟨s, rate, e, _⟩ ?_ hnear (hps e he)
        refine List.map_congr_left fun j _ => ?_
        congr 1
        push_cast; ring)
    rw [hlast] at eo
    simp only [eidx] at eo
    refine ⟨zs ++ [(out, ps.length)], d', ys ++ [ps], ?_, ?_, by simp [l1], by simp [l2], b0', b1', fun t ht => ?_⟩
    · rw [List.range_succ, List.map_append, List.map_singleton]
      exact run_snoc _ _ _ _ _ _ _ _ e1 eo
    · rw [List.range_succ, List.map_append, List.map_singleton]
      exact run_snoc _ _ _ _ _ _ _ _ e2 ec
    · rcases Nat.lt_succ_iff_lt_or_eq.mp ht with ht | rfl
      · rw [List.getElem?_append_left (by omega), List.getElem?_append_left (by omega)]
        exact h t ht
      · refine ⟨out, ps, ?_, ?_, hl2, ol, ohi, fun j e he => ⟨hps e (List.mem_of_getElem? he), oq j e he⟩⟩
        · rw [List.getElem?_append_right (by omega), l1]; simp
        · rw [List.getElem?_append_right (by omega), l2]; simp

end

/-- A filter of three taps with four points for each in `float`, and ten calls. -/
example : ∃ (rate cutoff alpha diff : Binary 24) (r r' : Resampler2.Rounded 24) (zs : List (List (Binary 24) × ℕ)),
    make 64 53 Fir.roundedSine 3 4 rate cutoff alpha (List.replicate 12 7) (List.replicate 11 8) (List.replicate 3 9) = .ok r ∧
    run (step 3 4 2) r ((List.range 10).map fun _ => (List.replicate 2 6, 5, diff)) = .ok (r', zs) ∧ zs.length = 10 := by
  obtain ⟨r, S, e, -, H⟩ := C103_stream 64 24 53 (by norm_num) (by norm_num) (by norm_num) (by norm_num) Fir.roundedSine (Fir.roundedSine_library 24) 3 4 (by norm_num) (by norm_num)
    (by norm_num) (by norm_num) ⟨48000, 48000, 0, by norm_num, by norm_num⟩ ⟨12000, 12000, 0, by norm_num, by norm_num⟩ ⟨2, 2, 0, by norm_num, by norm_num⟩ (by norm_num) (by norm_num [abs_of_pos]) (by norm_num)
    (List.replicate 12 7) (List.replicate 11 8) (List.replicate 3 9) (by simp) (by simp) (by simp)
  obtain ⟨r', zs, -, -, e', -, h, -⟩ := H 2 le_rfl (fun _ => 5) (fun _ => ⟨12, 12, 0, by norm_num, by norm_num⟩) (fun _ => List.replicate 2 6) (fun _ => by simp) (fun _ => by norm_num [abs_of_pos]) 10
  exact ⟨_, _, _, _, r, r', zs, e, e', h⟩

end Resampler2.Rounded
end DSP
