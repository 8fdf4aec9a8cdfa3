import Verif.Props.WindowSpecial
import Verif.Props.KaiserError
import Verif.Props.DecibelSpecial
import Verif.Props.FMDBridge
import Mathlib.Analysis.Complex.ExponentialBounds

/-!
# C143: the Bessel function behind the Kaiser window with the limits of the exponent
-/

namespace DSP

open Ieee Spec FFT Bridge

namespace Win

/-! ### The series, given its terms -/

/-- The compensated sum of one and the first terms. -/
def partialOf {V : Type} [Zero V] [Add V] [Sub V] (one : V) (t : ℕ → V) (n : ℕ) : Kahan V := (Kahan.init one).feed ((List.range n).map t)

theorem partialOf_succ {V : Type} [Zero V] [Add V] [Sub V] (one : V) (t : ℕ → V) (n : ℕ) : partialOf one t (n + 1) = ((partialOf one t n).call (t n)).1 := by
  unfold partialOf
  rw [List.range_succ, List.map_append, List.map_singleton, feed_append]

set_option maxHeartbeats 1000000 in
/-- Terms with small errors, summed up until they have no effect. -/
theorem sum_error {p : ℕ} [NeZero p] (one : Binary p) (h1 : (one.val : ℝ) = 1) (t : ℕ → Binary p) (X u δ : ℝ) (eu : u = 1 / 2 ^ p) (hu0 : 1 / 10 ^ 20 ≤ u) (hu : u ≤ 1 / 1000) (hX : |X| ≤ 9.6) (hδ0 : 0 ≤ δ) (hδ : δ ≤ u ^ 2 / 10 ^ 5)
    (hT : ∀ k < 34, 0 ≤ ((t k).val : ℝ) ∧ |((t k).val : ℝ) - term X (k + 1)| ≤ 1.14 * (4 * ((k + 1 : ℕ) : ℝ) + 1) * u * term X (k + 1) + δ)
    (n : ℕ) (hn : n ≤ 34) (hend : n = 34 ∨ ∃ m, n = m + 1 ∧ partialOf one t (m + 1) = partialOf one t m) :
    |((partialOf one t n).high.val : ℝ) - besselI0 X| ≤ 27 * u * besselI0 X := by
  have hR := binary_roundedField p
  rw [← eu] at hR
  have hu00 : 0 ≤ u := le_trans (by positivity) hu0
  set S := ∑ k ∈ Finset.range (n + 1), term X k with hS
  have hS1 : 1 ≤ S := by
    rw [hS, Finset.sum_range_succ', term_zero]
    have := Finset.sum_nonneg (s := Finset.range n) (f := fun k => term X (k + 1)) (fun i _ => term_nonneg _ _)
    linarith
  have hSI : S ≤ besselI0 X := (summable_term X).sum_le_tsum _ fun i _ => term_nonneg _ _
  have hn' : (n : ℝ) ≤ 34 := by exact_mod_cast hn
  have huS : u ^ 2 ≤ u * S * 0.001 := by nlinarith
  set E := ∑ k ∈ Finset.range n, ((t k).val : ℝ) with hE
  have hterms : ∑ k ∈ Finset.range n, |((t k).val : ℝ) - term X (k + 1)| ≤ 23.1 * u * S := by
    have hi := sum_index_le X n
    rw [Finset.sum_range_succ'] at hi
    simp only [Nat.cast_zero, zero_mul, add_zero] at hi
    have hS' : ∑ k ∈ Finset.range n, term X (k + 1) ≤ S := by
      rw [hS, Finset.sum_range_succ', term_zero]; linarith
    calc _ ≤ ∑ k ∈ Finset.range n, (1.14 * (4 * ((k + 1 : ℕ) : ℝ) + 1) * u * term X (k + 1) + δ) := by
          apply Finset.sum_le_sum
          intro k hk
          have := Finset.mem_range.mp hk
          exact (hT k (by omega)).2
      _ = 1.14 * u * (4 * ∑ k ∈ Finset.range n, ((k + 1 : ℕ) : ℝ) * term X (k + 1) + ∑ k ∈ Finset.range n, term X (k + 1)) + n * δ := by
          rw [Finset.sum_add_distrib, Finset.sum_const, Finset.card_range, nsmul_eq_mul]
          congr 1
          rw [Finset.mul_sum, ← Finset.sum_add_distrib, Finset.mul_sum]
          exact Finset.sum_congr rfl fun k _ => by ring
      _ ≤ 1.14 * u * (4 * (4.8 * S) + S) + 34 * (u ^ 2 / 10 ^ 5) := by
          have h48 : |X| / 2 * S ≤ 4.8 * S := by
            apply mul_le_mul_of_nonneg_right _ (by linarith)
            linarith
          gcongr
          exact hi.trans h48
      _ ≤ _ := by nlinarith [mul_nonneg hu00 (by linarith : 0 ≤ S)]
  have hpos : ∀ k < n, 0 ≤ ((t k).val : ℝ) := fun k hk => (hT k (by omega)).1
  have hES : |1 + E - S| ≤ 23.1 * u * S := by
    refine le_trans ?_ hterms
    have : 1 + E - S = ∑ k ∈ Finset.range n, (((t k).val : ℝ) - term X (k + 1)) := by
      rw [hS, Finset.sum_range_succ', term_zero, Finset.sum_sub_distrib]; ring
    rw [this]
    exact Finset.abs_sum_le_sum_abs _ _
  have hKahan : |((partialOf one t n).high.val : ℝ) - (1 + E)| ≤ 3.41 * u * (1 + E) := by
    have hlen : ((List.range n).map t).length = n := by simp
    have := Kahan.C15_standard_model (fun b : Binary p => (b.val : ℝ)) u hR.toRounded hu00 (by linarith) one ((List.range n).map t) (by
      rw [hlen]
      nlinarith)
    rw [hlen, h1, abs_one, List.map_map, List.map_map] at this
    have e1 : ((List.range n).map ((fun b : Binary p => (b.val : ℝ)) ∘ t)).sum = E := by
      rw [hE, Finset.sum_range, ← List.sum_ofFn, List.ofFn_eq_map]
      rw [← List.map_coe_finRange_eq_range, List.map_map]
      rfl
    have e2 : ((List.range n).map ((fun y : Binary p => |(y.val : ℝ)|) ∘ t)).sum = E := by
      rw [← e1]
      congr 1
      apply List.map_congr_left
      intro k hk
      exact abs_of_nonneg (hpos k (List.mem_range.mp hk))
    rw [e1, e2] at this
    have hE0 : 0 ≤ 1 + E := by
      have := Finset.sum_nonneg (s := Finset.range n) (f := fun k => ((t k).val : ℝ)) fun k hk => hpos k (Finset.mem_range.mp hk)
      linarith
    refine this.trans (mul_le_mul_of_nonneg_right ?_ hE0)
    nlinarith
  have hE1 : 1 + E ≤ 1.0231 * S := by
    have := (abs_le.mp hES).2
    nlinarith
  have hhigh : |((partialOf one t n).high.val : ℝ) - S| ≤ 26.6 * u * S := by
    calc _ ≤ |((partialOf one t n).high.val : ℝ) - (1 + E)| + |1 + E - S| := abs_sub_le _ _ _
      _ ≤ 3.41 * u * (1.0231 * S) + 23.1 * u * S := by
        apply add_le_add _ hES
        exact hKahan.trans (by gcongr)
      _ ≤ _ := by nlinarith [mul_nonneg hu00 (by linarith : 0 ≤ S)]
  have htail : besselI0 X - S ≤ 0.1 * u * S := by
    have hstop : (∃ m, n = m + 1 ∧ partialOf one t (m + 1) = partialOf one t m) → term X n ≤ 3.8 * u ^ 2 * S := by
      rintro ⟨m, rfl, hm⟩
      have hsame := hm
      rw [partialOf_succ] at hsame
      have h2 := call_same hR.toRounded hu00 hu _ _ hsame
      rw [← hm] at h2
      have h3 := (hT m (by omega)).2
      have h4 : |((partialOf one t (m + 1)).high.val : ℝ)| ≤ 1.03 * S := by
        have := abs_sub_abs_le_abs_sub ((partialOf one t (m + 1)).high.val : ℝ) S
        rw [abs_of_nonneg (by linarith : 0 ≤ S)] at this
        nlinarith
      have h5 := (abs_le.mp h3).1
      have h6 := le_abs_self ((t m).val : ℝ)
      have ht := term_nonneg X (m + 1)
      have h7 : 1.14 * (4 * ((m + 1 : ℕ) : ℝ) + 1) * u ≤ 0.157 := by
        have : 4 * ((m + 1 : ℕ) : ℝ) + 1 ≤ 137 := by linarith
        nlinarith
      have h8 : 1.14 * (4 * ((m + 1 : ℕ) : ℝ) + 1) * u * term X (m + 1) ≤ 0.157 * term X (m + 1) := mul_le_mul_of_nonneg_right h7 ht
      have h9 : 3 * u ^ 2 * |((partialOf one t (m + 1)).high.val : ℝ)| ≤ 3 * u ^ 2 * (1.03 * S) := by gcongr
      have h10 : u ^ 2 / 10 ^ 5 ≤ 0.00001 * (u ^ 2 * S) := by nlinarith [sq_nonneg u]
      nlinarith [mul_nonneg (sq_nonneg u) (by linarith : 0 ≤ S)]
    have hsmall : term X n ≤ 0.1 * u * S := by
      rcases hend with h | h
      · rw [h]
        have := term_last X hX
        have : (1 : ℝ) / 10 ^ 30 ≤ 0.1 * u := by
          calc (1 : ℝ) / 10 ^ 30 ≤ 0.1 * (1 / 10 ^ 20) := by norm_num
            _ ≤ _ := by gcongr
        nlinarith
      · have := hstop h
        nlinarith [mul_nonneg hu00 (by linarith : 0 ≤ S)]
    refine (tail_le_last X n (term_halves X n ?_)).trans hsmall
    by_cases h6 : 6 ≤ n
    · exact Or.inl ⟨hX, h6⟩
    · right
      rcases hend with h | h
      · omega
      · have h3 := hstop h
        obtain ⟨m, hm, -⟩ := h
        refine ⟨?_, by omega⟩
        by_contra c
        have := early_large X n (by omega) (by linarith)
        rw [← hS] at this
        nlinarith [mul_nonneg hu00 (by linarith : 0 ≤ S)]
  calc _ ≤ |((partialOf one t n).high.val : ℝ) - S| + |S - besselI0 X| := abs_sub_le _ _ _
    _ ≤ 26.6 * u * S + 0.1 * u * S := by
      apply add_le_add hhigh
      rw [abs_sub_comm, abs_of_nonneg (by linarith)]
      exact htail
    _ ≤ 27 * u * S := by nlinarith [mul_nonneg hu00 (by linarith : 0 ≤ S)]
    _ ≤ _ := by gcongr

/-! ### Where the loop ends -/

/-- Where the loop ends in IEEE arithmetic, whose comparison takes the two zeros for equal. -/
theorem loop_exit_ieee {F : Format} [NeZero F.p] (one x : Ieee F) (j k : ℕ) : ∃ n, k ≤ n ∧ n ≤ k + j ∧
    Rounded.i0Loop x (List.range' (k + 1) j) (Rounded.partialSum one x k) (Rounded.factor one x k) = (Rounded.partialSum one x n).high ∧
    (n = k + j ∨ ∃ m, n = m + 1 ∧ (Rounded.partialSum one x m).eq (Rounded.partialSum one x (m + 1)) = true) := by
  induction j generalizing k with
  | zero => exact ⟨k, le_rfl, le_rfl, rfl, Or.inl rfl⟩
  | succ j ih =>
    simp only [List.range'_succ, Rounded.i0Loop]
    have ef : Rounded.factor one x k * (x / (((2 * (k + 1) : ℕ) : ℤ) : Ieee F)) = Rounded.factor one x (k + 1) := rfl
    rw [ef]
    have es : ((Rounded.partialSum one x k).same (Rounded.factor one x (k + 1) * Rounded.factor one x (k + 1))).1 = Rounded.partialSum one x (k + 1) :=
      (Rounded.partialSum_succ one x k).symm
    have es2 : ((Rounded.partialSum one x k).same (Rounded.factor one x (k + 1) * Rounded.factor one x (k + 1))).2 = (Rounded.partialSum one x k).eq (Rounded.partialSum one x (k + 1)) := by
      rw [Rounded.partialSum_succ]; rfl
    rw [es, es2]
    split_ifs with c
    · exact ⟨k + 1, by omega, by omega, rfl, Or.inr ⟨k, rfl, c⟩⟩
    · obtain ⟨n, h1, h2, h3, h4⟩ := ih (k + 1)
      refine ⟨n, by omega, by omega, h3, ?_⟩
      rcases h4 with h4 | h4
      · exact Or.inl (by omega)
      · exact Or.inr h4

/-! ### The terms -/

/-- One step of the variable `val`, with relative errors and a remainder. -/
theorem factor_step {e D f d v r s u η M : ℝ} (hr : 1 ≤ r) (hr' : r ≤ 1.1) (hs : 0 ≤ s) (hs' : s ≤ 1) (hu0 : 0 ≤ u) (hu : u ≤ 1 / 1000) (hη : 0 ≤ η) (he : |e| ≤ 150) (hD : |D| ≤ M)
    (h1 : |f - e| ≤ (r - 1) * |e| + s) (h2 : |d - D| ≤ u * |D| + η) (h3 : |v - f * d| ≤ u * |f * d| + η) :
    |v - e * D| ≤ ((1 + u) ^ 2 * r - 1) * |e * D| + (1.003 * M * s + 170 * η) := by
  have hA := abs_nonneg e
  have hB := abs_nonneg D
  have hd : |d| ≤ (1 + u) * |D| + η := by
    have := abs_sub_abs_le_abs_sub d D
    linarith
  have hX : |f * d - e * D| ≤ |e| * (u * |D| + η) + ((r - 1) * |e| + s) * ((1 + u) * |D| + η) := by
    have e1 : f * d - e * D = e * (d - D) + (f - e) * d := by ring
    rw [e1]
    refine (abs_add_le _ _).trans ?_
    rw [abs_mul, abs_mul]
    have := abs_nonneg (f - e)
    have : 0 ≤ (r - 1) * |e| + s := by linarith
    gcongr
  have hfd : |f * d| ≤ |e * D| + |f * d - e * D| := by
    have := abs_sub_abs_le_abs_sub (f * d) (e * D)
    linarith
  have hv : |v - e * D| ≤ |v - f * d| + |f * d - e * D| := abs_sub_le _ _ _
  have hAB : |e * D| = |e| * |D| := abs_mul _ _
  set X := |f * d - e * D|
  have k1 : |v - e * D| ≤ (1 + u) * X + u * (|e| * |D|) + η := by
    rw [hAB] at hfd
    nlinarith
  have k2 : (1 + u) * X ≤ (1 + u) * (|e| * (u * |D| + η) + ((r - 1) * |e| + s) * ((1 + u) * |D| + η)) := by gcongr
  have k3 : (1 + u) * (r * |e| * η + s * (1 + u) * |D| + s * η) ≤ 1.001 * (1.1 * 150 * η) + 1.003 * (M * s) + 1.001 * η := by
    have a1 : r * |e| * η ≤ 1.1 * 150 * η := by gcongr
    have a2 : s * η ≤ 1 * η := by gcongr
    have a3 : |D| * s ≤ M * s := by gcongr
    have a4 : (1 + u) * (1 + u) ≤ 1.003 := by nlinarith
    have a5 : (1 + u) * (s * (1 + u) * |D|) ≤ 1.003 * (M * s) := by
      calc (1 + u) * (s * (1 + u) * |D|) = ((1 + u) * (1 + u)) * (|D| * s) := by ring
        _ ≤ 1.003 * (M * s) := by
          have : 0 ≤ |D| * s := by positivity
          gcongr
    have a6 : (1 + u) * (r * |e| * η) ≤ 1.001 * (1.1 * 150 * η) := by
      have : 0 ≤ r * |e| * η := by positivity
      have : 1 + u ≤ 1.001 := by linarith
      gcongr
    have a7 : (1 + u) * (s * η) ≤ 1.001 * (1 * η) := by
      have : 1 + u ≤ 1.001 := by linarith
      gcongr
    linarith
  rw [hAB]
  calc _ ≤ _ := k1
    _ ≤ (1 + u) * (|e| * (u * |D| + η) + ((r - 1) * |e| + s) * ((1 + u) * |D| + η)) + u * (|e| * |D|) + η := by linarith
    _ = ((1 + u) ^ 2 * r - 1) * (|e| * |D|) + ((1 + u) * (r * |e| * η + s * (1 + u) * |D| + s * η) + η) := by ring
    _ ≤ _ := by linarith

/-- A square. -/
theorem square_step {e f v r s u η : ℝ} (hr : 1 ≤ r) (hr' : r ≤ 1.1) (hs : 0 ≤ s) (hs' : s ≤ 1) (hu0 : 0 ≤ u) (hu : u ≤ 1 / 1000) (he : |e| ≤ 150)
    (h1 : |f - e| ≤ (r - 1) * |e| + s) (h3 : |v - f * f| ≤ u * |f * f| + η) :
    |v - e ^ 2| ≤ ((1 + u) * r ^ 2 - 1) * e ^ 2 + (335 * s + η) := by
  have hA := abs_nonneg e
  have hf : |f + e| ≤ (r + 1) * |e| + s := by
    have e1 : f + e = (f - e) + 2 * e := by ring
    rw [e1]
    refine (abs_add_le _ _).trans ?_
    rw [abs_mul, abs_two]
    linarith
  have hX : |f * f - e ^ 2| ≤ ((r - 1) * |e| + s) * ((r + 1) * |e| + s) := by
    have e1 : f * f - e ^ 2 = (f - e) * (f + e) := by ring
    rw [e1, abs_mul]
    have := abs_nonneg (f + e)
    have : 0 ≤ (r - 1) * |e| + s := (abs_nonneg _).trans h1
    gcongr
  have hff : |f * f| ≤ e ^ 2 + |f * f - e ^ 2| := by
    have := abs_sub_abs_le_abs_sub (f * f) (e ^ 2)
    rw [abs_of_nonneg (sq_nonneg e)] at this
    linarith
  have hv : |v - e ^ 2| ≤ |v - f * f| + |f * f - e ^ 2| := abs_sub_le _ _ _
  set X := |f * f - e ^ 2|
  have k1 : |v - e ^ 2| ≤ (1 + u) * X + u * e ^ 2 + η := by nlinarith
  have k2 : (1 + u) * X ≤ (1 + u) * (((r - 1) * |e| + s) * ((r + 1) * |e| + s)) := by gcongr
  have k3 : (1 + u) * (2 * r * |e| * s + s * s) ≤ 335 * s := by
    have a1 : 2 * r * |e| * s ≤ 2 * 1.1 * 150 * s := by gcongr
    have a2 : s * s ≤ 1 * s := by gcongr
    have a3 : 1 + u ≤ 1.001 := by linarith
    calc (1 + u) * (2 * r * |e| * s + s * s) ≤ 1.001 * (2 * 1.1 * 150 * s + 1 * s) := by
          have : 0 ≤ 2 * r * |e| * s + s * s := by positivity
          gcongr
      _ ≤ _ := by linarith
  have e2 : e ^ 2 = |e| ^ 2 := (sq_abs e).symm
  calc _ ≤ _ := k1
    _ ≤ (1 + u) * (((r - 1) * |e| + s) * ((r + 1) * |e| + s)) + u * e ^ 2 + η := by linarith
    _ = ((1 + u) * r ^ 2 - 1) * e ^ 2 + ((1 + u) * (2 * r * |e| * s + s * s) + η) := by rw [e2]; ring
    _ ≤ _ := by linarith

/-- The exact factors are no larger than `exp 5`. -/
theorem factor_le (X : ℝ) (hX : |X| ≤ 9.6) (k : ℕ) : |(X / 2) ^ k / k.factorial| ≤ 150 := by
  have h0 : (0 : ℝ) ≤ |X| / 2 := by positivity
  rw [abs_div, abs_pow, abs_div, abs_two, abs_of_nonneg (by positivity : (0 : ℝ) ≤ (k.factorial : ℝ))]
  refine (Real.pow_div_factorial_le_exp _ h0 k).trans ?_
  calc Real.exp (|X| / 2) ≤ Real.exp 5 := Real.exp_le_exp.mpr (by linarith)
    _ = Real.exp 1 ^ 5 := by rw [← Real.exp_nat_mul]; norm_num
    _ ≤ 2.7182818286 ^ 5 := by
      have := Real.exp_one_lt_d9
      gcongr
    _ ≤ 150 := by norm_num

/-- Formats with room for the Bessel function, such as the two of the code. -/
structure Ample (F : Format) : Prop where
  p : 20 ≤ F.p
  p' : F.p ≤ 60
  low : F.emin + 2 * F.p ≤ -60
  high : 120 ≤ F.emax
  emax : F.p ≤ F.emax

theorem ample_single : Ample Format.single := ⟨by decide, by decide, by decide, by decide, by decide⟩
theorem ample_double : Ample Format.double := ⟨by decide, by decide, by decide, by decide, by decide⟩

section
variable {F : Format} [NeZero F.p] (A : Ample F)
include A

omit [NeZero F.p] in
theorem Ample.usual : Silence.Usual F := ⟨by have := A.p; omega, by have := A.low; omega, A.emax⟩

omit [NeZero F.p] in
theorem Ample.big : (2 : ℝ) ^ 118 ≤ 2 ^ (F.emax - 1) := by
  rw [← zpow_natCast]
  exact zpow_le_zpow_right₀ (by norm_num) (by have := A.high; push_cast; omega)

omit [NeZero F.p] in
theorem Ample.unit : (1 : ℝ) / 2 ^ F.p ≤ 1 / 10 ^ 6 := by
  have : (2 : ℝ) ^ 20 ≤ 2 ^ F.p := pow_le_pow_right₀ (by norm_num) A.p
  exact one_div_le_one_div_of_le (by norm_num) (by norm_num at this ⊢; linarith)

omit [NeZero F.p] in
theorem Ample.unit' : (1 : ℝ) / 10 ^ 20 ≤ 1 / 2 ^ F.p := by
  have : (2 : ℝ) ^ F.p ≤ 2 ^ 60 := pow_le_pow_right₀ (by norm_num) A.p'
  exact one_div_le_one_div_of_le (by positivity) (by norm_num at this ⊢; linarith)

omit [NeZero F.p] in
/-- The errors below the normal numbers. -/
theorem Ample.tiny : (2 : ℝ) ^ (F.emin + F.p - 1) * 2 ^ 50 ≤ 1 / 2 ^ F.p := by
  rw [one_div, ← zpow_natCast, ← zpow_natCast, ← zpow_neg, ← zpow_add₀ (by norm_num)]
  exact zpow_le_zpow_right₀ (by norm_num) (by have := A.low; push_cast; omega)

omit [NeZero F.p] in
theorem even_exact (k : ℕ) (hk : k ≤ 34) : GoodIeee (((2 * k : ℕ) : ℤ) : Ieee F) ∧ (((((2 * k : ℕ) : ℤ) : Ieee F)).val : ℝ) = 2 * k := by
  have hp : 0 < F.p := by have := A.p; omega
  have h1 : ((2 * k : ℕ) : ℤ) < 2 ^ F.p := by
    have : (2 : ℤ) ^ 20 ≤ 2 ^ F.p := pow_le_pow_right₀ (by norm_num) A.p
    norm_num at this
    push_cast
    omega
  obtain ⟨a, b, c⟩ := cast_exact (F := F) hp (by have := A.low; omega) A.emax ((2 * k : ℕ) : ℤ) (by rw [abs_of_nonneg (by positivity)]; exact h1)
  refine ⟨⟨a, b⟩, ?_⟩
  rw [c]
  push_cast
  ring

/-- The remainder of the factors, in units of the smallest error. -/
def remainder (k : ℕ) : ℝ := 200 * 6 ^ min k 5

omit A [NeZero F.p] in
theorem remainder_le (k : ℕ) : remainder k ≤ 1555200 := by
  unfold remainder
  have : (6 : ℝ) ^ min k 5 ≤ 6 ^ 5 := pow_le_pow_right₀ (by norm_num) (by omega)
  norm_num at this ⊢
  linarith

omit A [NeZero F.p] in
theorem remainder_step (k : ℕ) : 1.003 * (4.8 / (k + 1)) * remainder k + 170 ≤ remainder (k + 1) := by
  have hp : (0 : ℝ) < 6 ^ min k 5 := by positivity
  have h1 : (1 : ℝ) ≤ 6 ^ min k 5 := one_le_pow₀ (by norm_num)
  unfold remainder
  by_cases h : k < 5
  · have e1 : min k 5 = k := by omega
    have e2 : min (k + 1) 5 = k + 1 := by omega
    rw [e1] at hp h1 ⊢
    rw [e2, pow_succ]
    have : (4.8 : ℝ) / (k + 1) ≤ 4.8 := div_le_self (by norm_num) (by linarith [(Nat.cast_nonneg k : (0 : ℝ) ≤ k)])
    nlinarith
  · have e1 : min k 5 = 5 := by omega
    have e2 : min (k + 1) 5 = 5 := by omega
    rw [e1, e2]
    have hk : (5 : ℝ) ≤ k := by exact_mod_cast (by omega : 5 ≤ k)
    have : (4.8 : ℝ) / (k + 1) ≤ 0.8 := by
      rw [div_le_iff₀ (by linarith)]
      linarith
    norm_num at this ⊢
    linarith

omit [NeZero F.p] in
set_option maxHeartbeats 1000000 in
/-- The variable `val` of the loop. -/
theorem factor_ieee (one x : Ieee F) (ho : GoodIeee one) (h1 : (one.val : ℝ) = 1) (hx : GoodIeee x) (hX : |(x.val : ℝ)| ≤ 9.6) (u η : ℝ) (eu : u = 1 / 2 ^ F.p) (eη : η = u * 2 ^ (F.emin + F.p - 1)) (k : ℕ) (hk : k ≤ 34) :
    GoodIeee (Rounded.factor one x k) ∧ |((Rounded.factor one x k).val : ℝ) - ((x.val : ℝ) / 2) ^ k / k.factorial| ≤ ((1 + u) ^ (2 * k) - 1) * |((x.val : ℝ) / 2) ^ k / k.factorial| + remainder k * η := by
  have U := A.usual
  have hu0 : 0 ≤ u := by rw [eu]; positivity
  have hu6 : u ≤ 1 / 10 ^ 6 := by rw [eu]; exact A.unit
  have hη : 0 ≤ η := by rw [eη]; positivity
  have hη' : η ≤ 1 / 10 ^ 20 := by
    have := A.tiny
    rw [← eu] at this
    rw [eη]
    have h3 : (0 : ℝ) ≤ 2 ^ (F.emin + F.p - 1) := by positivity
    nlinarith
  have big := A.big
  induction k with
  | zero =>
    refine ⟨ho, ?_⟩
    have : ((Rounded.factor one x 0).val : ℝ) = 1 := h1
    rw [this]
    simp only [pow_zero, Nat.factorial_zero, Nat.cast_one, div_one, sub_self, abs_zero, mul_zero, zero_mul, zero_add]
    unfold remainder
    positivity
  | succ k ih =>
    obtain ⟨g, ih⟩ := ih (by omega)
    obtain ⟨gd, ed⟩ := even_exact A (k + 1) hk
    have hk0 : (0 : ℝ) ≤ k := Nat.cast_nonneg k
    have hk1 : (0 : ℝ) < k + 1 := by linarith
    set e := ((x.val : ℝ) / 2) ^ k / k.factorial with he
    have he150 : |e| ≤ 150 := factor_le _ hX k
    set D := (x.val : ℝ) / (2 * (k + 1)) with hD
    have hDM : |D| ≤ 4.8 / (k + 1) := by
      rw [hD, abs_div, abs_of_pos (by linarith : (0 : ℝ) < 2 * (k + 1)), div_le_div_iff₀ (by linarith) hk1]
      nlinarith
    have hDM' : |D| ≤ 4.8 := hDM.trans (div_le_self (by norm_num) (by linarith))
    have hr : (1 : ℝ) ≤ (1 + u) ^ (2 * k) := one_le_pow₀ (by linarith)
    have hr' : (1 + u) ^ (2 * k) ≤ 1.1 := by
      have := pow_error u hu0 (by linarith) (2 * k) (by omega)
      have h3 : ((2 * k : ℕ) : ℝ) ≤ 68 := by exact_mod_cast (by omega : 2 * k ≤ 68)
      have h4 : ((2 * k : ℕ) : ℝ) * u ≤ 68 * u := by gcongr
      nlinarith
    have hs0 : 0 ≤ remainder k * η := by unfold remainder; positivity
    have hs1 : remainder k * η ≤ 1 := by
      calc remainder k * η ≤ 1555200 * (1 / 10 ^ 20) := by
            have := remainder_le k
            gcongr
        _ ≤ 1 := by norm_num
    obtain ⟨c, hc⟩ : ∃ c : Ieee F, c = (((2 * (k + 1) : ℕ) : ℤ) : Ieee F) := ⟨_, rfl⟩
    rw [← hc] at gd ed
    have ef : Rounded.factor one x (k + 1) = Rounded.factor one x k * (x / c) := by rw [hc]; rfl
    rw [Nat.cast_succ] at ed
    have hd0 : c.val ≠ 0 := by
      intro h0
      rw [h0, Rat.cast_zero] at ed
      linarith
    have q := FMDRounded.good_div U x c hx gd hd0 (by
      rw [ed]
      exact hDM'.trans (le_trans (by norm_num) big))
    rw [ed, ← hD, ← eu, mul_add, ← eη] at q
    have hfac : |((Rounded.factor one x k).val : ℝ)| ≤ 170 := by
      have := abs_sub_abs_le_abs_sub ((Rounded.factor one x k).val : ℝ) e
      have h3 : ((1 + u) ^ (2 * k) - 1) * |e| ≤ 0.1 * 150 := by
        have : (1 + u) ^ (2 * k) - 1 ≤ 0.1 := by linarith
        have := abs_nonneg e
        gcongr
      linarith
    have hd : |((x / c).val : ℝ)| ≤ 5 := by
      have := abs_sub_abs_le_abs_sub ((x / c).val : ℝ) D
      have h3 : u * |D| ≤ 1 / 10 ^ 6 * 4.8 := by gcongr
      have := q.2
      norm_num at h3 hη'
      linarith
    have m := good_mul U (Rounded.factor one x k) (x / c) g q.1 (by
      rw [abs_mul]
      calc _ ≤ (170 : ℝ) * 5 := by gcongr
        _ ≤ 2 ^ 118 := by norm_num
        _ ≤ _ := big)
    rw [← eu, mul_add, ← eη] at m
    rw [ef]
    refine ⟨m.1, ?_⟩
    have st := factor_step hr hr' hs0 hs1 hu0 (by linarith) hη he150 hDM ih q.2 m.2
    have ee : ((x.val : ℝ) / 2) ^ (k + 1) / (k + 1).factorial = e * D := by
      rw [he, hD, Nat.factorial_succ, pow_succ]
      push_cast
      have : (k.factorial : ℝ) ≠ 0 := by exact_mod_cast k.factorial_ne_zero
      field_simp
    rw [ee]
    refine st.trans ?_
    have e2 : (1 + u) ^ 2 * (1 + u) ^ (2 * k) = (1 + u) ^ (2 * (k + 1)) := by rw [← pow_add]; congr 1; ring
    rw [e2]
    have := mul_le_mul_of_nonneg_right (remainder_step k) hη
    nlinarith

set_option maxHeartbeats 1000000 in
/-- The terms of the sum. -/
theorem term_ieee (one x : Ieee F) (ho : GoodIeee one) (h1 : (one.val : ℝ) = 1) (hx : GoodIeee x) (hX : |(x.val : ℝ)| ≤ 9.6) (u η : ℝ) (eu : u = 1 / 2 ^ F.p) (eη : η = u * 2 ^ (F.emin + F.p - 1)) (k : ℕ) (hk : k ≤ 34) :
    GoodIeee (Rounded.factor one x k * Rounded.factor one x k) ∧ 0 ≤ ((Rounded.factor one x k * Rounded.factor one x k).val : ℝ) ∧ ((Rounded.factor one x k * Rounded.factor one x k).val : ℝ) ≤ 2 ^ 16 ∧
      |((Rounded.factor one x k * Rounded.factor one x k).val : ℝ) - term x.val k| ≤ 1.14 * (4 * (k : ℝ) + 1) * u * term x.val k + 10 ^ 9 * η := by
  have U := A.usual
  have hu0 : 0 ≤ u := by rw [eu]; positivity
  have hu6 : u ≤ 1 / 10 ^ 6 := by rw [eu]; exact A.unit
  have hη : 0 ≤ η := by rw [eη]; positivity
  have hη' : η ≤ 1 / 10 ^ 20 := by
    have := A.tiny
    rw [← eu] at this
    rw [eη]
    have h3 : (0 : ℝ) ≤ 2 ^ (F.emin + F.p - 1) := by positivity
    nlinarith
  have big := A.big
  obtain ⟨g, h⟩ := factor_ieee A one x ho h1 hx hX u η eu eη k hk
  set e := ((x.val : ℝ) / 2) ^ k / k.factorial with he
  have he150 : |e| ≤ 150 := factor_le _ hX k
  have hr : (1 : ℝ) ≤ (1 + u) ^ (2 * k) := one_le_pow₀ (by linarith)
  have hr' : (1 + u) ^ (2 * k) ≤ 1.1 := by
    have := pow_error u hu0 (by linarith) (2 * k) (by omega)
    have h3 : ((2 * k : ℕ) : ℝ) ≤ 68 := by exact_mod_cast (by omega : 2 * k ≤ 68)
    have h4 : ((2 * k : ℕ) : ℝ) * u ≤ 68 * u := by gcongr
    nlinarith
  have hs0 : 0 ≤ remainder k * η := by unfold remainder; positivity
  have hs2 : remainder k * η ≤ 1555200 * η := by
    have := remainder_le k
    gcongr
  have hs1 : remainder k * η ≤ 1 := hs2.trans (by norm_num at hη' ⊢; linarith)
  have hfac : |((Rounded.factor one x k).val : ℝ)| ≤ 170 := by
    have := abs_sub_abs_le_abs_sub ((Rounded.factor one x k).val : ℝ) e
    have h3 : ((1 + u) ^ (2 * k) - 1) * |e| ≤ 0.1 * 150 := by
      have : (1 + u) ^ (2 * k) - 1 ≤ 0.1 := by linarith
      have := abs_nonneg e
      gcongr
    linarith
  have hsq : |((Rounded.factor one x k).val : ℝ) * (Rounded.factor one x k).val| ≤ 28900 := by
    rw [abs_mul]
    calc _ ≤ (170 : ℝ) * 170 := by gcongr
      _ = _ := by norm_num
  have m := good_mul U (Rounded.factor one x k) (Rounded.factor one x k) g g (hsq.trans (le_trans (by norm_num) big))
  rw [← eu, mul_add, ← eη] at m
  refine ⟨m.1, ?_, ?_, ?_⟩
  · have hp : 0 < F.p := by have := A.p; omega
    rw [mul_val hp _ _ g.1 g.1 g.2 g.2 m.1.1]
    exact_mod_cast roundTo_nonneg hp _ (mul_self_nonneg _)
  · have := (abs_le.mp m.2).2
    have h2 := le_abs_self (((Rounded.factor one x k).val : ℝ) * (Rounded.factor one x k).val)
    have h3 : u * |((Rounded.factor one x k).val : ℝ) * (Rounded.factor one x k).val| ≤ 1 / 10 ^ 6 * 28900 := by gcongr
    norm_num [-abs_mul] at h3 hη' ⊢
    linarith
  · have st := square_step hr hr' hs0 hs1 hu0 (by linarith) he150 h m.2
    have et : term x.val k = e ^ 2 := rfl
    rw [et]
    refine st.trans ?_
    have hp := pow_error u hu0 (by linarith) (4 * k + 1) (by omega)
    push_cast at hp
    have e2 : (1 + u) * ((1 + u) ^ (2 * k)) ^ 2 = (1 + u) ^ (4 * k + 1) := by rw [← pow_mul, ← pow_succ']; congr 1; ring
    rw [e2]
    have h3 := mul_le_mul_of_nonneg_right hp (sq_nonneg e)
    linarith

/-! ### The sum -/

omit [NeZero F.p] in
theorem bounded_add (a b : Ieee F) (ha : GoodIeee a) (hb : GoodIeee b) (B C : ℝ) (h1 : |(a.val : ℝ)| ≤ B) (h2 : |(b.val : ℝ)| ≤ C) (h : B + C ≤ 2 ^ 118) (h' : 1 ≤ B + C) :
    GoodIeee (a + b) ∧ |((a + b).val : ℝ)| ≤ 1.01 * (B + C) := by
  have hab : |(a.val : ℝ) + b.val| ≤ B + C := (abs_add_le _ _).trans (add_le_add h1 h2)
  obtain ⟨g, e⟩ := good_add A.usual a b ha hb (hab.trans (h.trans A.big))
  refine ⟨g, ?_⟩
  have hu := A.unit
  have ht : (2 : ℝ) ^ (F.emin + F.p - 1) ≤ 1 := by
    have := A.tiny
    have h0 : (0 : ℝ) ≤ 2 ^ (F.emin + F.p - 1) := by positivity
    norm_num at this hu
    nlinarith
  have h3 : 1 / 2 ^ F.p * (|(a.val : ℝ) + b.val| + 2 ^ (F.emin + F.p - 1)) ≤ 1 / 10 ^ 6 * ((B + C) + 1) := by gcongr
  have := abs_sub_abs_le_abs_sub ((a + b).val : ℝ) (a.val + b.val)
  have h4 := e.trans h3
  norm_num at h4
  linarith

omit [NeZero F.p] in
theorem bounded_sub (a b : Ieee F) (ha : GoodIeee a) (hb : GoodIeee b) (B C : ℝ) (h1 : |(a.val : ℝ)| ≤ B) (h2 : |(b.val : ℝ)| ≤ C) (h : B + C ≤ 2 ^ 118) (h' : 1 ≤ B + C) :
    GoodIeee (a - b) ∧ |((a - b).val : ℝ)| ≤ 1.01 * (B + C) := by
  have := bounded_add A a (-b) ha (good_neg b hb) B C h1 (by rw [neg_val]; push_cast; rwa [abs_neg]) h h'
  exact this

set_option maxHeartbeats 1000000 in
/-- Nothing overflows in the compensated sum. -/
theorem partial_good (one : Ieee F) (ho : GoodIeee one) (h1 : (one.val : ℝ) = 1) (t : ℕ → Ieee F) (ht : ∀ k < 34, GoodIeee (t k) ∧ |((t k).val : ℝ)| ≤ 2 ^ 16) (n : ℕ) (hn : n ≤ 34) :
    (GoodIeee (partialOf one t n).high ∧ |((partialOf one t n).high.val : ℝ)| ≤ 7 ^ n * 2 ^ 16) ∧ GoodIeee (partialOf one t n).low ∧ |((partialOf one t n).low.val : ℝ)| ≤ 7 ^ n * 2 ^ 16 := by
  induction n with
  | zero =>
    refine ⟨⟨ho, ?_⟩, ⟨agree_zero.1, agree_zero.2.1⟩, ?_⟩
    · show |(one.val : ℝ)| ≤ _
      rw [h1]; norm_num
    · show |((0 : Ieee F).val : ℝ)| ≤ _
      rw [agree_zero.2.2]
      show |(((0 : Binary F.p).val : ℚ) : ℝ)| ≤ _
      have : (0 : Binary F.p).val = 0 := rfl
      rw [this]; norm_num
  | succ n ih =>
    obtain ⟨⟨gh, bh⟩, gl, bl⟩ := ih (by omega)
    obtain ⟨gt, bt⟩ := ht n (by omega)
    rw [partialOf_succ]
    set K := partialOf one t n
    have h7 : (1 : ℝ) ≤ 7 ^ n := one_le_pow₀ (by norm_num)
    have h7' : (7 : ℝ) ^ n ≤ 7 ^ 33 := pow_le_pow_right₀ (by norm_num) (by omega)
    set B : ℝ := 7 ^ n * 2 ^ 16 with hB
    have hB1 : 2 ^ 16 ≤ B := by rw [hB]; norm_num at h7 ⊢; linarith
    have hB2 : 7 * B ≤ 2 ^ 118 := by rw [hB]; norm_num at h7' ⊢; linarith
    have hB3 : (1 : ℝ) ≤ B := le_trans (by norm_num) hB1
    obtain ⟨g1, b1⟩ := bounded_sub A (t n) K.low gt gl B B (bt.trans hB1) bl (by linarith) (by linarith)
    obtain ⟨g2, b2⟩ := bounded_add A K.high (t n - K.low) gh g1 B _ bh b1 (by linarith) (by linarith)
    obtain ⟨g3, b3⟩ := bounded_sub A (K.high + (t n - K.low)) K.high g2 gh _ B b2 bh (by linarith) (by linarith)
    obtain ⟨g4, b4⟩ := bounded_sub A (K.high + (t n - K.low) - K.high) (t n - K.low) g3 g1 _ _ b3 b1 (by linarith) (by linarith)
    have e7 : (7 : ℝ) ^ (n + 1) * 2 ^ 16 = 7 * B := by rw [hB, pow_succ]; ring
    rw [e7]
    refine ⟨⟨g2, ?_⟩, g4, ?_⟩
    · show |((K.high + (t n - K.low)).val : ℝ)| ≤ _
      linarith
    · show |((K.high + (t n - K.low) - K.high - (t n - K.low)).val : ℝ)| ≤ _
      linarith

set_option maxHeartbeats 1000000 in
/-- **C143** For every finite argument up to 9.6, a little more than the three half turns the comment mentions, no step of the Bessel function overflows, and the result has a relative error of at most
27 units. That holds also where the factors of the series are below the normal numbers and where zeros of both signs are compared. -/
theorem C143_i0 (x : Ieee F) (hx : x.Finite ∧ x.Valid) (hX : |(x.val : ℝ)| ≤ 9.6) (one : Ieee F) (ho : one.Finite ∧ one.Valid) (h1 : one.val = 1) :
    (Rounded.i0 one x).Finite ∧ (Rounded.i0 one x).Valid ∧ |((Rounded.i0 one x).val : ℝ) - besselI0 x.val| ≤ 27 / 2 ^ F.p * besselI0 x.val := by
  have hp : 0 < F.p := by have := A.p; omega
  have h1' : (one.val : ℝ) = 1 := by rw [h1]; norm_num
  obtain ⟨n, -, hn, he, hend⟩ := loop_exit_ieee one x 34 0
  rw [zero_add] at hn hend
  have ei : Rounded.i0 one x = (Rounded.partialSum one x n).high := by
    rw [← he]; rfl
  rw [ei]
  obtain ⟨u, eu⟩ : ∃ u : ℝ, u = 1 / 2 ^ F.p := ⟨_, rfl⟩
  obtain ⟨η, eη⟩ : ∃ η : ℝ, η = u * 2 ^ (F.emin + F.p - 1) := ⟨_, rfl⟩
  have hu0 : 0 ≤ u := by rw [eu]; positivity
  have hu6 : u ≤ 1 / 10 ^ 6 := by rw [eu]; exact A.unit
  set t : ℕ → Ieee F := fun k => Rounded.factor one x (k + 1) * Rounded.factor one x (k + 1) with ht
  have eP : ∀ m, Rounded.partialSum one x m = partialOf one t m := fun m => rfl
  have hT : ∀ k < 34, GoodIeee (t k) ∧ 0 ≤ ((t k).val : ℝ) ∧ ((t k).val : ℝ) ≤ 2 ^ 16 ∧ |((t k).val : ℝ) - term x.val (k + 1)| ≤ 1.14 * (4 * ((k + 1 : ℕ) : ℝ) + 1) * u * term x.val (k + 1) + 10 ^ 9 * η :=
    fun k hk => term_ieee A one x ho h1' hx hX u η eu eη (k + 1) (by omega)
  have hv : ∀ k, (t k).Valid := fun k => mul_valid hp _ _
  set t' : ℕ → Binary F.p := fun k => lift (t k) (hv k) with ht'
  set one' := lift one ho.2 with hone'
  have good := partial_good A one ho h1' t (fun k hk => ⟨(hT k hk).1, by rw [abs_of_nonneg (hT k hk).2.1]; exact (hT k hk).2.2.1⟩)
  have agree : ∀ m, AgreeK (partialOf one t m) (partialOf one' t' m) := by
    intro m
    induction m with
    | zero => exact ⟨Same.agree ⟨ho.1, ho.2, rfl⟩, agree_zero.agree⟩
    | succ m ih =>
      rw [partialOf_succ, partialOf_succ]
      exact (kahan_call ih fun hf => ⟨hf, hv m, rfl⟩).1
  have same : ∀ m ≤ 34, Same (partialOf one t m).high (partialOf one' t' m).high ∧ Same (partialOf one t m).low (partialOf one' t' m).low :=
    fun m hm => ⟨(agree m).1 (good m hm).1.1.1, (agree m).2 (good m hm).2.1.1⟩
  rw [eP]
  refine ⟨(good n hn).1.1.1, (good n hn).1.1.2, ?_⟩
  rw [(same n hn).1.2.2]
  have hδ : 10 ^ 9 * η ≤ u ^ 2 / 10 ^ 5 := by
    have h3 := A.tiny
    rw [← eu] at h3
    have h4 : u * (2 ^ (F.emin + F.p - 1) * 2 ^ 50) ≤ u * u := by gcongr
    have h5 : η * 2 ^ 50 ≤ u ^ 2 := by rw [eη]; linarith [h4]
    have h0 : 0 ≤ η := by rw [eη]; positivity
    rw [le_div_iff₀ (by positivity)]
    norm_num at h5 ⊢
    linarith
  have := sum_error one' h1' t' x.val u (10 ^ 9 * η) eu (by rw [eu]; exact A.unit') (by linarith) hX (by rw [eη]; positivity) hδ (fun k hk => ⟨(hT k hk).2.1, (hT k hk).2.2.2⟩) n hn (by
    rcases hend with h | ⟨m, rfl, h⟩
    · exact Or.inl h
    · refine Or.inr ⟨m, rfl, ?_⟩
      rw [eP, eP] at h
      simp only [Kahan.eq, Bool.and_eq_true] at h
      obtain ⟨s1, s2⟩ := same m (by omega)
      obtain ⟨s3, s4⟩ := same (m + 1) hn
      have v2 := (Elementary.AtanIeee.beq_iff s2 s4).mp h.1
      have v1 := (Elementary.AtanIeee.beq_iff s1 s3).mp h.2
      cases hK : partialOf one' t' m with
      | mk a b =>
        cases hL : partialOf one' t' (m + 1) with
        | mk a' b' =>
          rw [hK, hL] at v1 v2
          simp only at v1 v2
          cases a; cases b; cases a'; cases b'
          simp only at v1 v2
          subst v1 v2
          rfl)
  rw [eu] at this
  calc _ ≤ _ := this
    _ = _ := by ring

end

end Win
end DSP
