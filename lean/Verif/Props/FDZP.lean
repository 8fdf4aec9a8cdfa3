import Verif.Props.FFT
import Verif.Lemmas.Base

/-!
# C35: FDZP
-/

namespace DSP

open FFT Complex

/-! ### The specification passes through the samples -/

theorem sum_halves {α : Type*} [AddCommMonoid α] (f : ℕ → α) (N : ℕ) (hN : 0 < N) :
    ∑ n ∈ Finset.range N, f n = f 0 + ∑ j ∈ Finset.range ((N - 1) / 2), (f (j + 1) + f (N - (j + 1))) + if N % 2 = 0 then f (N / 2) else 0 := by
  rcases Nat.even_or_odd' N with ⟨h, rfl | rfl⟩
  · obtain ⟨h, rfl⟩ : ∃ h', h = h' + 1 := ⟨h - 1, by omega⟩
    rw [if_pos (by omega), show (2 * (h + 1) - 1) / 2 = h by omega, show 2 * (h + 1) / 2 = h + 1 by omega]
    rw [show 2 * (h + 1) = 1 + h + 1 + h by ring, Finset.sum_range_add, Finset.sum_range_add, Finset.sum_range_add,
      Finset.sum_range_one, Finset.sum_range_one, Finset.sum_add_distrib]
    rw [← Finset.sum_range_reflect (fun x => f (1 + h + 1 + x))]
    have e1 : ∑ j ∈ Finset.range h, f (1 + j) = ∑ j ∈ Finset.range h, f (j + 1) :=
      Finset.sum_congr rfl fun j _ => by rw [add_comm]
    have e2 : ∑ j ∈ Finset.range h, f (1 + h + 1 + (h - 1 - j)) = ∑ j ∈ Finset.range h, f (1 + h + 1 + h - (j + 1)) := by
      apply Finset.sum_congr rfl
      intro j hj
      have := Finset.mem_range.mp hj
      congr 1
      omega
    rw [e1, e2, show 1 + h + 0 = h + 1 by ring]
    abel
  · rw [if_neg (by omega), show (2 * h + 1 - 1) / 2 = h by omega, Spec.sum_pairs, add_zero]

theorem exp_eq_unit (N k m : ℕ) : Complex.exp (2 * Real.pi * I * (k : ℕ) * (((m : ℝ) / (N : ℝ) : ℝ) : ℂ)) = Spec.unit 1 N (k * m) := by
  unfold Spec.unit
  congr 1
  push_cast
  ring

theorem exp_eq_unit_neg (N k m : ℕ) : Complex.exp (-(2 * Real.pi * I * (k : ℕ) * (((m : ℝ) / (N : ℝ) : ℝ) : ℂ))) = Spec.unit (-1) N (k * m) := by
  unfold Spec.unit
  congr 1
  push_cast
  ring

theorem cos_eq_unit (N k m : ℕ) : Complex.cos (2 * Real.pi * (k : ℕ) * (((m : ℝ) / (N : ℝ) : ℝ) : ℂ)) =
    (Spec.unit 1 N (k * m) + Spec.unit (-1) N (k * m)) / 2 := by
  unfold Complex.cos
  rw [← exp_eq_unit, ← exp_eq_unit_neg]
  congr 3 <;> ring

/-- The interpolant goes through the samples. -/
theorem interp_sample (N : ℕ) (hN : 0 < N) (x : ℕ → ℂ) (n : ℕ) (hn : n < N) : Spec.interp N x ((n : ℝ) / (N : ℝ)) = x n := by
  have h := dft_dft (-1) (Or.inr rfl) N x n hn
  rw [neg_neg] at h
  unfold Spec.interp
  have hN' : (N : ℂ) ≠ 0 := by exact_mod_cast hN.ne'
  rw [one_div, inv_mul_eq_iff_eq_mul₀ hN', ← h]
  generalize Spec.dft (-1) N x = X
  unfold Spec.dft
  rw [sum_halves _ N hN]
  congr 1
  · congr 1
    · rw [Nat.zero_mul, Spec.unit_zero, mul_one]
    · apply Finset.sum_congr rfl
      intro k hk
      have := Finset.mem_range.mp hk
      rw [exp_eq_unit, exp_eq_unit_neg, Nat.mul_comm (N - (k + 1)), Spec.unit_rev 1 N _ _ (by omega), Nat.mul_comm n]
  · by_cases hev : N % 2 = 0
    · rw [if_pos hev, if_pos hev, cos_eq_unit]
      have : Spec.unit (-1) N (N / 2 * n) = Spec.unit 1 N (N / 2 * n) := by
        have := Spec.unit_rev 1 N (N / 2) n (by omega)
        rw [show N - N / 2 = N / 2 by omega, Nat.mul_comm] at this
        exact this.symm
      rw [this]
      ring
    · rw [if_neg hev, if_neg hev]

/-! ### What the code does -/

/-- What is left in `tmp` by the preceding calls: zeros in the gap. -/
def FDZP.Inv (OUTPUT INPUT : ℕ) (tmp : List ℂ) : Prop :=
  tmp.length = OUTPUT ∧ ∀ j, INPUT ≤ j → j < OUTPUT - INPUT / 2 → tmp[j]? = some 0

theorem FDZP.scale_ok (c : ℂ) (l : List ℂ) :
    (List.range l.length).foldlM (fun output (i : Nat) => do
      let v ← rd output (i : Int)
      wr output (i : Int) (c * v)) l = (.ok (l.map (c * ·)) : M (List ℂ)) := by
  obtain ⟨b, e, h1, h2, h3⟩ := foldlM_inv (fun i (b : List ℂ) => b.length = l.length ∧ (∀ k < i, b[k]? = (l.map (c * ·))[k]?) ∧
      (∀ k, i ≤ k → b[k]? = l[k]?))
    (fun output (i : Nat) => do
      let v ← rd output (i : Int)
      wr output (i : Int) (c * v)) l.length l ⟨rfl, by simp, by simp⟩ (by
      rintro a ha b ⟨g1, g2, g3⟩
      have : b[a]? = some l[a] := by rw [g3 a (le_refl _), List.getElem?_eq_getElem ha]
      rw [rd_some this]
      simp only [bind, Except.bind]
      refine ⟨_, wr_nat (by omega), by simp [g1], ?_, ?_⟩
      · intro k hk
        rw [List.getElem?_set]
        by_cases e : a = k
        · subst e
          rw [if_pos rfl, if_pos (by omega), List.getElem?_map, List.getElem?_eq_getElem ha]; rfl
        · rw [if_neg e, g2 k (by omega)]
      · intro k hk
        rw [List.getElem?_set, if_neg (by omega), g3 k (by omega)])
  rw [e]
  congr 1
  apply List.ext_getElem?
  intro k
  by_cases hk : k < l.length
  · exact h2 k hk
  · rw [h3 k (by omega), List.getElem?_eq_none (by omega), List.getElem?_eq_none (by simp; omega)]

/-- A spectrum laid out like the code means to do it is that of the interpolant. -/
theorem spectrum_interp (h g : ℕ) (x V : ℕ → ℂ) (m : ℕ)
    (w1 : ∀ j, j ≤ h → V j = Spec.dft (-1) (2 * (h + 1)) x j)
    (w2 : V (h + 1) = ((1 / 2 : ℝ) : ℂ) * Spec.dft (-1) (2 * (h + 1)) x (h + 1))
    (w3 : ∀ j < g, V (h + 2 + j) = 0)
    (w4 : V (h + 2 + g) = ((1 / 2 : ℝ) : ℂ) * Spec.dft (-1) (2 * (h + 1)) x (h + 1))
    (w5 : ∀ j < h, V (h + 2 + g + 1 + j) = Spec.dft (-1) (2 * (h + 1)) x (h + 2 + j)) :
    ((1 / ((2 * (h + 1) : ℕ) : ℝ) : ℝ) : ℂ) * Spec.dft 1 (2 * (h + 1) + 1 + g) V m =
      Spec.interp (2 * (h + 1)) x ((m : ℝ) / ((2 * (h + 1) + 1 + g : ℕ) : ℝ)) := by
  unfold Spec.interp
  rw [show (2 * (h + 1) - 1) / 2 = h by omega, show 2 * (h + 1) / 2 = h + 1 by omega, if_pos (by omega)]
  generalize Spec.dft (-1) (2 * (h + 1)) x = X at *
  generalize hO' : 2 * (h + 1) + 1 + g = O
  rw [cos_eq_unit O (h + 1) m]
  simp only [exp_eq_unit, exp_eq_unit_neg]
  rw [show ((1 / ((2 * (h + 1) : ℕ) : ℝ) : ℝ) : ℂ) = 1 / ((2 * (h + 1) : ℕ) : ℂ) by push_cast; rfl]
  congr 1
  unfold Spec.dft
  conv_lhs => rw [show Finset.range O = Finset.range (1 + h + 1 + g + 1 + h) by congr 1; omega]
  rw [Finset.sum_range_add, Finset.sum_range_add, Finset.sum_range_add, Finset.sum_range_add, Finset.sum_range_add]
  simp only [Finset.sum_range_one]
  have s0 : V 0 * Spec.unit 1 O (0 * m) = X 0 := by rw [w1 0 (by omega), Nat.zero_mul, Spec.unit_zero, mul_one]
  have s1 : ∑ j ∈ Finset.range h, V (1 + j) * Spec.unit 1 O ((1 + j) * m) =
      ∑ j ∈ Finset.range h, X (j + 1) * Spec.unit 1 O ((j + 1) * m) := by
    apply Finset.sum_congr rfl
    intro j hj
    have := Finset.mem_range.mp hj
    rw [w1 _ (by omega), Nat.add_comm 1 j]
  have s3 : ∑ j ∈ Finset.range g, V (1 + h + 1 + j) * Spec.unit 1 O ((1 + h + 1 + j) * m) = 0 := by
    apply Finset.sum_eq_zero
    intro j hj
    rw [show 1 + h + 1 + j = h + 2 + j by ring, w3 j (Finset.mem_range.mp hj), zero_mul]
  have s5 : ∑ j ∈ Finset.range h, V (1 + h + 1 + g + 1 + j) * Spec.unit 1 O ((1 + h + 1 + g + 1 + j) * m) =
      ∑ j ∈ Finset.range h, X (2 * (h + 1) - (j + 1)) * Spec.unit (-1) O ((j + 1) * m) := by
    rw [← Finset.sum_range_reflect]
    apply Finset.sum_congr rfl
    intro j hj
    have hj := Finset.mem_range.mp hj
    rw [show 1 + h + 1 + g + 1 + (h - 1 - j) = h + 2 + g + 1 + (h - 1 - j) by ring, w5 _ (by omega)]
    rw [show h + 2 + (h - 1 - j) = 2 * (h + 1) - (j + 1) by omega]
    rw [show h + 2 + g + 1 + (h - 1 - j) = O - (j + 1) by omega, Nat.mul_comm _ m, Spec.unit_rev 1 O _ _ (by omega), Nat.mul_comm m]
  have s4 : Spec.unit 1 O ((h + 2 + g) * m) = Spec.unit (-1) O ((h + 1) * m) := by
    rw [show h + 2 + g = O - (h + 1) by omega, Nat.mul_comm _ m, Spec.unit_rev 1 O _ _ (by omega), Nat.mul_comm m]
  rw [s0, s1, s3, s5]
  rw [show 1 + h + 1 + g + 0 = h + 2 + g by ring, w4, s4, show 1 + h + 0 = h + 1 by ring, w2, Finset.sum_add_distrib]
  push_cast
  ring

set_option maxHeartbeats 1000000 in
theorem FDZP.call_ok (T : Trig ℝ) (hT : T.Exact) (h g : ℕ) (hg : h ≤ g)
    (hI : Smooth (2 * (h + 1))) (hO : Smooth (2 * (h + 1) + 1 + g)) (tmp output input : List ℂ)
    (hinv : FDZP.Inv (2 * (h + 1) + 1 + g) (2 * (h + 1)) tmp) (ho : output.length = 2 * (h + 1) + 1 + g) (hi : input.length = 2 * (h + 1)) :
    ∃ tmp', FDZP.call T (2 * (h + 1) + 1 + g) (2 * (h + 1)) tmp output input =
        .ok (tmp', (List.range (2 * (h + 1) + 1 + g)).map fun (m : ℕ) =>
          Spec.interp (2 * (h + 1)) (fun n => input.getD n 0) ((m : ℝ) / ((2 * (h + 1) + 1 + g : ℕ) : ℝ))) ∧
      FDZP.Inv (2 * (h + 1) + 1 + g) (2 * (h + 1)) tmp' := by
  obtain ⟨hl, hgap⟩ := hinv
  unfold FDZP.call
  rw [C31_dft T hT (-1) (Or.inr rfl) (2 * (h + 1)) hI.1 hI.2 tmp input (by omega) (by omega)]
  generalize hX : Spec.dft (-1) (2 * (h + 1)) (fun n => input.getD n 0) = X
  have d1 : 2 * (h + 1) / 2 = h + 1 := by omega
  have d2 : (2 * (h + 1) + 1) / 2 + 1 = h + 2 := by omega
  have d3 : 2 * (h + 1) - (h + 2) = h := by omega
  have d4 : 2 * (h + 1) + 1 + g - (h + 1) = h + 2 + g := by omega
  have d5 : 2 * (h + 1) + 1 + g - 2 * (h + 1) = 1 + g := by omega
  have d6 : (2 * (h + 1) % 2 == 0) = true := by
    rw [beq_iff_eq]; omega
  simp only [bind, Except.bind, d1, d2, d3, d4, d5, d6, M.ite, if_true]
  rw [d1, d4] at hgap
  have ht1 : ∀ j < 2 * (h + 1), ((List.range (2 * (h + 1))).map X ++ tmp.drop (2 * (h + 1)))[j]? = some (X j) := by
    intro j hj
    rw [List.getElem?_append_left (by simpa using hj), List.getElem?_map, List.getElem?_range hj]; rfl
  have ht1' : ∀ j, 2 * (h + 1) ≤ j → ((List.range (2 * (h + 1))).map X ++ tmp.drop (2 * (h + 1)))[j]? = tmp[j]? := by
    intro j hj
    rw [List.getElem?_append_right (by simpa using hj), List.getElem?_drop]
    congr 1
    simp
    omega
  have hl1 : ((List.range (2 * (h + 1))).map X ++ tmp.drop (2 * (h + 1))).length = 2 * (h + 1) + 1 + g := by
    simp [hl]; omega
  generalize (List.range (2 * (h + 1))).map X ++ tmp.drop (2 * (h + 1)) = t1 at ht1 ht1' hl1 ⊢
  rw [rd_some (ht1 (h + 1) (by omega))]
  simp only
  rw [wr_nat (by omega)]
  simp only
  rw [rd_some (i := h + 1) (v := ((1 / 2 : ℝ) : ℂ) * X (h + 1)) (by rw [List.getElem?_set, if_pos rfl, if_pos (by omega)])]
  simp only
  rw [wr_nat (by simp; omega)]
  simp only
  generalize ht2 : (t1.set (h + 1) (((1 / 2 : ℝ) : ℂ) * X (h + 1))).set (h + 2 + g) (((1 / 2 : ℝ) : ℂ) * X (h + 1)) = t2
  have hl2 : t2.length = 2 * (h + 1) + 1 + g := by rw [← ht2]; simp [hl1]
  have h2 : ∀ j, t2[j]? = if j = h + 2 + g then some (((1 / 2 : ℝ) : ℂ) * X (h + 1)) else
      if j = h + 1 then some (((1 / 2 : ℝ) : ℂ) * X (h + 1)) else t1[j]? := by
    intro j
    rw [← ht2, List.getElem?_set]
    by_cases c1 : j = h + 2 + g
    · rw [if_pos c1.symm, if_pos c1, if_pos (by simp; omega)]
    · rw [if_neg (Ne.symm c1), if_neg c1, List.getElem?_set]
      by_cases c2 : j = h + 1
      · rw [if_pos c2.symm, if_pos c2, if_pos (by omega)]
      · rw [if_neg (Ne.symm c2), if_neg c2]
  -- copying
  obtain ⟨t3, e3, l3, p3, q3⟩ := foldlM_inv (fun a (b : List ℂ) => b.length = 2 * (h + 1) + 1 + g ∧
      (∀ a' < a, b[1 + g + (h + 2 + a')]? = some (X (h + 2 + a'))) ∧ (∀ j, (j < 1 + g + (h + 2) ∨ 1 + g + (h + 2) + a ≤ j) → b[j]? = t2[j]?))
    (fun tmp (a : Nat) => do
      let t ← rd tmp ((h + 2 + a : Nat) : Int)
      wr tmp ((1 + g + (h + 2 + a) : Nat) : Int) t) h t2 ⟨hl2, by simp, by simp⟩ (by
      rintro a ha b ⟨g1, g2, g3⟩
      have : b[h + 2 + a]? = some (X (h + 2 + a)) := by
        rw [g3 (h + 2 + a) (by omega), h2, if_neg (by omega), if_neg (by omega), ht1 (h + 2 + a) (by omega)]
      rw [rd_some this]
      simp only [bind, Except.bind]
      refine ⟨_, wr_nat (by omega), by simp [g1], ?_, ?_⟩
      · intro a' ha'
        rw [List.getElem?_set]
        by_cases c : a = a'
        · rw [if_pos (by omega), if_pos (by omega), c]
        · rw [if_neg (by omega), g2 a' (by omega)]
      · intro j hj
        rw [List.getElem?_set, if_neg (by omega), g3 j (by omega)])
  simp only [bind, Except.bind] at e3
  rw [e3]
  simp only
  -- zeroing
  obtain ⟨t4, e4, l4, p4, q4⟩ := foldlM_inv (fun a (b : List ℂ) => b.length = 2 * (h + 1) + 1 + g ∧
      (∀ a' < a, b[h + 2 + a']? = some 0) ∧ (∀ j, (j < h + 2 ∨ h + 2 + a ≤ j) → b[j]? = t3[j]?))
    (fun tmp (a : Nat) => wr tmp ((h + 2 + a : Nat) : Int) 0) h t3 ⟨l3, by simp, by simp⟩ (by
      rintro a ha b ⟨g1, g2, g3⟩
      refine ⟨_, wr_nat (by omega), by simp [g1], ?_, ?_⟩
      · intro a' ha'
        rw [List.getElem?_set]
        by_cases c : a = a'
        · rw [if_pos (by omega), if_pos (by omega)]
        · rw [if_neg (by omega), g2 a' (by omega)]
      · intro j hj
        rw [List.getElem?_set, if_neg (by omega), g3 j (by omega)])
  rw [e4]
  simp only
  -- the spectrum
  have v1 : ∀ j, j ≤ h → t4[j]? = some (X j) := by
    intro j hj
    rw [q4 j (by omega), q3 j (by omega), h2, if_neg (by omega), if_neg (by omega), ht1 j (by omega)]
  have v2 : t4[h + 1]? = some (((1 / 2 : ℝ) : ℂ) * X (h + 1)) := by
    rw [q4 (h + 1) (by omega), q3 (h + 1) (by omega), h2, if_neg (by omega), if_pos rfl]
  have v3 : ∀ j, h + 2 ≤ j → j < h + 2 + g → t4[j]? = some 0 := by
    intro j h1 h3
    by_cases c : j < h + 2 + h
    · have := p4 (j - (h + 2)) (by omega)
      rwa [show h + 2 + (j - (h + 2)) = j by omega] at this
    · rw [q4 j (by omega), q3 j (by omega), h2, if_neg (by omega), if_neg (by omega), ht1' j (by omega), hgap j (by omega) h3]
  have v4 : t4[h + 2 + g]? = some (((1 / 2 : ℝ) : ℂ) * X (h + 1)) := by
    rw [q4 (h + 2 + g) (by omega), q3 (h + 2 + g) (by omega), h2, if_pos rfl]
  have v5 : ∀ j < h, t4[h + 2 + g + 1 + j]? = some (X (h + 2 + j)) := by
    intro j hj
    rw [q4 (h + 2 + g + 1 + j) (by omega), ← p3 j hj]
    congr 1
    omega
  -- the backward transform
  rw [C31_dft T hT 1 (Or.inl rfl) _ hO.1 hO.2 output t4 (by omega) (by omega)]
  rw [← ho, List.drop_length, List.append_nil, ho]
  simp only
  have hs := FDZP.scale_ok (((1 / ((2 * (h + 1) : ℕ) : ℝ) : ℝ) : ℂ))
    ((List.range (2 * (h + 1) + 1 + g)).map (Spec.dft 1 (2 * (h + 1) + 1 + g) fun n => t4.getD n 0))
  rw [List.length_map, List.length_range] at hs
  simp only [bind, Except.bind] at hs
  rw [hs]
  refine ⟨t4, ?_, l4, ?_⟩
  · simp only [pure, Except.pure]
    congr 2
    rw [List.map_map]
    apply List.map_congr_left
    intro m _
    simp only [Function.comp]
    refine spectrum_interp h g _ (fun n => t4.getD n 0) m ?_ ?_ ?_ ?_ ?_
    · intro j hj; rw [List.getD_eq_getElem?_getD, v1 j hj, hX]; rfl
    · rw [List.getD_eq_getElem?_getD, v2, hX]; rfl
    · intro j hj; rw [List.getD_eq_getElem?_getD, v3 (h + 2 + j) (by omega) (by omega)]; rfl
    · rw [List.getD_eq_getElem?_getD, v4, hX]; rfl
    · intro j hj; rw [List.getD_eq_getElem?_getD, v5 j hj, hX]; rfl
  · intro j h1 h3
    rw [d1, d4] at h3
    exact v3 j (by omega) h3


/-- One call on an object in state `tmp`, with an output buffer of its own. -/
noncomputable def FDZP.step (T : Trig ℝ) (OUTPUT INPUT : ℕ) (tmp input : List ℂ) : M (List ℂ × List ℂ) :=
  FDZP.call T OUTPUT INPUT tmp (List.replicate OUTPUT 0) input

/-- The full claim: every call of every sequence of calls evaluates the interpolant at `OUTPUT` equidistant times. -/
def C35_claim : Prop := ∀ (T : Trig ℝ), T.Exact → ∀ OUTPUT INPUT : ℕ, 0 < INPUT → INPUT < OUTPUT →
  (∀ p, p.Prime → p ∣ INPUT → p ≤ 31) → (∀ p, p.Prime → p ∣ OUTPUT → p ≤ 31) →
  ∀ inputs : List (List ℂ), (∀ x ∈ inputs, x.length = INPUT) →
  ∃ s, run (FDZP.step T OUTPUT INPUT) (FDZP.init OUTPUT) inputs =
    .ok (s, inputs.map fun x => (List.range OUTPUT).map fun (m : ℕ) => Spec.interp INPUT (fun n => x.getD n 0) ((m : ℝ) / (OUTPUT : ℝ)))

/-- **C35** (for an even `INPUT` and `OUTPUT` at least half as large again; the full claim is `C35_claim`, which fails otherwise) Every
call evaluates the interpolant of its input, whatever happened before. -/
theorem C35_interpolates_partial (T : Trig ℝ) (hT : T.Exact) (OUTPUT INPUT : ℕ) (h0 : 0 < INPUT) (hev : INPUT % 2 = 0) (hlt : INPUT < OUTPUT)
    (h32 : 3 * INPUT ≤ 2 * OUTPUT)
    (hpi : ∀ p, p.Prime → p ∣ INPUT → p ≤ 31) (hpo : ∀ p, p.Prime → p ∣ OUTPUT → p ≤ 31)
    (inputs : List (List ℂ)) (hx : ∀ x ∈ inputs, x.length = INPUT) :
    ∃ s, run (FDZP.step T OUTPUT INPUT) (FDZP.init OUTPUT) inputs =
      .ok (s, inputs.map fun x => (List.range OUTPUT).map fun (m : ℕ) => Spec.interp INPUT (fun n => x.getD n 0) ((m : ℝ) / (OUTPUT : ℝ))) := by
  obtain ⟨h, rfl⟩ : ∃ h, INPUT = 2 * (h + 1) := ⟨INPUT / 2 - 1, by omega⟩
  obtain ⟨g, rfl⟩ : ∃ g, OUTPUT = 2 * (h + 1) + 1 + g := ⟨OUTPUT - (2 * (h + 1) + 1), by omega⟩
  have hinit : FDZP.Inv (2 * (h + 1) + 1 + g) (2 * (h + 1)) (FDZP.init (2 * (h + 1) + 1 + g)) := by
    refine ⟨by simp [FDZP.init], ?_⟩
    intro j h1 h2
    unfold FDZP.init
    rw [List.getElem?_replicate, if_pos (by omega)]
  generalize FDZP.init (2 * (h + 1) + 1 + g) = tmp at hinit
  induction inputs generalizing tmp with
  | nil => exact ⟨tmp, rfl⟩
  | cons x xs ih =>
    obtain ⟨tmp', e, hi'⟩ := FDZP.call_ok T hT h g (by omega) ⟨by omega, hpi⟩ ⟨by omega, hpo⟩ tmp (List.replicate (2 * (h + 1) + 1 + g) 0) x hinit
      (by simp) (hx x (by simp))
    obtain ⟨s, es⟩ := ih (fun y hy => hx y (by simp [hy])) tmp' hi'
    refine ⟨s, ?_⟩
    unfold run
    rw [show FDZP.step T (2 * (h + 1) + 1 + g) (2 * (h + 1)) tmp x =
      FDZP.call T (2 * (h + 1) + 1 + g) (2 * (h + 1)) tmp (List.replicate (2 * (h + 1) + 1 + g) 0) x from rfl, e]
    simp only
    rw [es]
    rfl

theorem smooth_of_le (N : ℕ) (h0 : 0 < N) (h : N ≤ 31) : ∀ p, p.Prime → p ∣ N → p ≤ 31 := fun _ _ hd => (Nat.le_of_dvd h0 hd).trans h

example : ∃ s, run (FDZP.step Trig.real 12 8) (FDZP.init 12) [(List.range 8).map fun (n : ℕ) => (n : ℂ), List.replicate 8 1] =
    .ok (s, [(List.range 8).map fun (n : ℕ) => (n : ℂ), List.replicate 8 1].map fun x =>
      (List.range 12).map fun (m : ℕ) => Spec.interp 8 (fun n => x.getD n 0) ((m : ℝ) / ((12 : ℕ) : ℝ))) :=
  C35_interpolates_partial _ Trig.real_exact 12 8 (by norm_num) (by norm_num) (by norm_num) (by norm_num) (smooth_of_le 8 (by norm_num) (by norm_num))
    (smooth_of_le 12 (by norm_num) (by norm_num)) _ (by simp)

/-- **C35** (same restriction) If `OUTPUT` is a multiple of `INPUT`, the samples reappear in the output. -/
theorem C35_reproduces_partial (T : Trig ℝ) (hT : T.Exact) (c INPUT : ℕ) (h0 : 0 < INPUT) (hev : INPUT % 2 = 0) (hc : 2 ≤ c)
    (hpo : ∀ p, p.Prime → p ∣ c * INPUT → p ≤ 31)
    (inputs : List (List ℂ)) (hx : ∀ x ∈ inputs, x.length = INPUT) :
    ∃ s ys, run (FDZP.step T (c * INPUT) INPUT) (FDZP.init (c * INPUT)) inputs = .ok (s, ys) ∧
      ∀ i n : ℕ, n < INPUT → (ys[i]?.bind fun (y : List ℂ) => y[c * n]?) = (inputs[i]?.bind fun (x : List ℂ) => x[n]?) := by
  have h2 : 2 * INPUT ≤ c * INPUT := Nat.mul_le_mul_right _ hc
  obtain ⟨s, e⟩ := C35_interpolates_partial T hT (c * INPUT) INPUT h0 hev (by omega) (by omega)
    (fun p hp hd => hpo p hp (hd.mul_left c)) hpo inputs hx
  refine ⟨s, _, e, ?_⟩
  intro i n hn
  rw [List.getElem?_map]
  cases hi : inputs[i]? with
  | none => rfl
  | some x =>
    have hlen := hx x (List.mem_of_getElem? hi)
    simp only [Option.map_some, Option.bind_some]
    rw [List.getElem?_map, List.getElem?_range (Nat.mul_lt_mul_of_pos_left hn (by omega))]
    simp only [Option.map_some]
    rw [List.getElem?_eq_getElem (by omega)]
    congr 1
    have : (((c * n : ℕ) : ℝ) / ((c * INPUT : ℕ) : ℝ)) = (n : ℝ) / (INPUT : ℝ) := by
      push_cast
      rw [mul_div_mul_left]
      have : (c : ℝ) ≠ 0 := by exact_mod_cast (by omega : c ≠ 0)
      exact this
    rw [this, interp_sample INPUT h0 _ n hn, List.getD_eq_getElem?_getD, List.getElem?_eq_getElem (by omega)]
    rfl

example : ∃ s ys, run (FDZP.step Trig.real (3 * 4) 4) (FDZP.init (3 * 4)) [[1, 2, 3, I]] = .ok (s, ys) ∧
    ∀ i n : ℕ, n < 4 → (ys[i]?.bind fun (y : List ℂ) => y[3 * n]?) = (([[1, 2, 3, I]] : List (List ℂ))[i]?.bind fun (x : List ℂ) => x[n]?) :=
  C35_reproduces_partial _ Trig.real_exact 3 4 (by norm_num) (by norm_num) (by norm_num) (smooth_of_le 12 (by norm_num) (by norm_num)) _ (by simp)

/-! ### Where the code fails -/

theorem unit_neg_quarter (k : ℕ) : Spec.unit (-1) 4 k = (-I) ^ k := by
  rw [Spec.unit_neg_conj, unit_quarter, map_pow, Complex.conj_I]

/-- **C35** An odd number of input samples: the first bin of negative frequency is left among the positive ones. With three
real samples `1, 0, 0` and four output samples, the second output is `i / 3`, while the interpolant has the value `1 / 3` there. -/
theorem C35_odd_input : (∃ tmp out, FDZP.step Trig.real 4 3 (FDZP.init 4) [1, 0, 0] = .ok (tmp, out) ∧ out[1]? = some (I / 3)) ∧
    Spec.interp 3 (fun n => ([1, 0, 0] : List ℂ).getD n 0) (1 / 4) = 1 / 3 := by
  have hX : ∀ k, Spec.dft (-1) 3 (fun n => ([1, 0, 0] : List ℂ).getD n 0) k = 1 := by
    intro k
    simp [Spec.dft, Finset.sum_range_succ, Spec.unit_zero]
  constructor
  · unfold FDZP.step FDZP.call
    rw [C31_dft _ Trig.real_exact (-1) (Or.inr rfl) 3 (by norm_num) (smooth_of_le 3 (by norm_num) (by norm_num)) _ _ (by simp [FDZP.init]) (by simp)]
    have e : (List.range 3).map (Spec.dft (-1) 3 fun n => ([1, 0, 0] : List ℂ).getD n 0) ++ (FDZP.init 4).drop 3 = [1, 1, 1, 0] := by
      simp only [List.range_succ, List.range_zero, List.nil_append, List.map_append, List.map_cons, List.map_nil, hX]
      rfl
    simp only [e, bind, Except.bind, M.ite]
    rw [if_neg (by decide)]
    simp only [pure, Except.pure]
    have hz : 3 - ((3 + 1) / 2 + 1) = 0 := by norm_num
    simp only [hz, List.range_zero, List.foldlM_nil, pure, Except.pure]
    rw [C31_dft _ Trig.real_exact 1 (Or.inl rfl) 4 (by norm_num) (smooth_of_le 4 (by norm_num) (by norm_num)) _ _ (by simp) (by simp)]
    have hs := FDZP.scale_ok (((1 / ((3 : ℕ) : ℝ) : ℝ) : ℂ))
      ((List.range 4).map (Spec.dft 1 4 fun n => ([1, 1, 1, 0] : List ℂ).getD n 0) ++ (List.replicate 4 (0 : ℂ)).drop 4)
    rw [show ((List.range 4).map (Spec.dft 1 4 fun n => ([1, 1, 1, 0] : List ℂ).getD n 0) ++ (List.replicate 4 (0 : ℂ)).drop 4).length = 4 by simp] at hs
    simp only [bind, Except.bind] at hs
    simp only [hs]
    refine ⟨_, _, rfl, ?_⟩
    simp only [List.drop_replicate, List.replicate_zero, List.append_nil, Nat.sub_self, List.getElem?_map]
    rw [List.getElem?_range (by norm_num)]
    simp only [Option.map_some, Option.some.injEq, Spec.dft, Finset.sum_range_succ, Finset.sum_range_zero, unit_quarter]
    norm_num
    ring
  · unfold Spec.interp
    simp only [hX]
    have e1 : Complex.exp (2 * Real.pi * I * ((0 + 1 : ℕ) : ℂ) * (((1 / 4 : ℝ)) : ℂ)) = I := by
      have := exp_eq_unit 4 1 1
      rw [unit_quarter] at this
      norm_num at this ⊢
      exact this
    have e2 : Complex.exp (-(2 * Real.pi * I * ((0 + 1 : ℕ) : ℂ) * (((1 / 4 : ℝ)) : ℂ))) = -I := by
      rw [Complex.exp_neg, e1, Complex.inv_I]
    rw [show (3 - 1) / 2 = 1 by norm_num, Finset.sum_range_one, e1, e2]
    norm_num

/-- **C35** `OUTPUT` less than one and a half times `INPUT`: bins are overwritten before they are copied. For the four samples of one turn backwards
and five output samples the output is zero. -/
theorem C35_overlap : ∃ tmp, FDZP.step Trig.real 5 4 (FDZP.init 5) [1, -I, -1, I] = .ok (tmp, [0, 0, 0, 0, 0]) := by
  have hX0 : Spec.dft (-1) 4 (fun n => ([1, -I, -1, I] : List ℂ).getD n 0) 0 = 0 := by
    simp [Spec.dft, Finset.sum_range_succ, unit_neg_quarter]
  have hX1 : Spec.dft (-1) 4 (fun n => ([1, -I, -1, I] : List ℂ).getD n 0) 1 = 0 := by
    simp [Spec.dft, Finset.sum_range_succ, unit_neg_quarter, pow_succ]
  have hX2 : Spec.dft (-1) 4 (fun n => ([1, -I, -1, I] : List ℂ).getD n 0) 2 = 0 := by
    simp [Spec.dft, Finset.sum_range_succ, unit_neg_quarter, pow_succ]
  unfold FDZP.step FDZP.call
  rw [C31_dft _ Trig.real_exact (-1) (Or.inr rfl) 4 (by norm_num) (smooth_of_le 4 (by norm_num) (by norm_num)) _ _ (by simp [FDZP.init]) (by simp)]
  generalize hX3 : Spec.dft (-1) 4 (fun n => ([1, -I, -1, I] : List ℂ).getD n 0) 3 = X3
  have e : (List.range 4).map (Spec.dft (-1) 4 fun n => ([1, -I, -1, I] : List ℂ).getD n 0) ++ (FDZP.init 5).drop 4 = [0, 0, 0, X3, 0] := by
    simp only [List.range_succ, List.range_zero, List.nil_append, List.map_append, List.map_cons, List.map_nil, hX0, hX1, hX2, hX3]
    rfl
  simp only [e, bind, Except.bind, M.ite]
  rw [if_pos (by decide)]
  simp only [show 4 / 2 = 2 by norm_num, show 5 - 2 = 3 by norm_num]
  have r1 : rd ([0, 0, 0, X3, 0] : List ℂ) ((2 : ℕ) : Int) = .ok 0 := rfl
  have w1 : wr ([0, 0, 0, X3, 0] : List ℂ) ((2 : ℕ) : Int) (((1 / 2 : ℝ) : ℂ) * 0) = .ok [0, 0, 0, X3, 0] := by rw [mul_zero]; rfl
  have w2 : wr ([0, 0, 0, X3, 0] : List ℂ) ((3 : ℕ) : Int) 0 = .ok [0, 0, 0, 0, 0] := rfl
  rw [r1]
  simp only
  rw [w1]
  simp only
  rw [r1]
  simp only
  rw [w2]
  simp only [show 4 - ((4 + 1) / 2 + 1) = 1 by norm_num, show (4 + 1) / 2 + 1 = 3 by norm_num, List.range_one, List.foldlM_cons, List.foldlM_nil]
  have r3 : rd ([0, 0, 0, 0, 0] : List ℂ) ((3 + 0 : ℕ) : Int) = .ok 0 := rfl
  have w3 : wr ([0, 0, 0, 0, 0] : List ℂ) ((5 - 4 + (3 + 0) : ℕ) : Int) 0 = .ok [0, 0, 0, 0, 0] := rfl
  have w4 : wr ([0, 0, 0, 0, 0] : List ℂ) ((3 + 0 : ℕ) : Int) 0 = .ok [0, 0, 0, 0, 0] := rfl
  rw [r3]
  simp only
  rw [w3]
  simp only [bind, Except.bind, pure, Except.pure]
  rw [w4]
  simp only
  rw [C31_dft _ Trig.real_exact 1 (Or.inl rfl) 5 (by norm_num) (smooth_of_le 5 (by norm_num) (by norm_num)) _ _ (by simp) (by simp)]
  have hz : (List.range 5).map (Spec.dft 1 5 fun n => ([0, 0, 0, 0, 0] : List ℂ).getD n 0) ++ (List.replicate 5 (0 : ℂ)).drop 5 = [0, 0, 0, 0, 0] := by
    have : ∀ k, Spec.dft 1 5 (fun n => ([0, 0, 0, 0, 0] : List ℂ).getD n 0) k = 0 := by
      intro k; simp [Spec.dft, Finset.sum_range_succ]
    simp only [List.range_succ, List.range_zero, List.nil_append, List.map_append, List.map_cons, List.map_nil, this]
    rfl
  rw [hz]
  have hs := FDZP.scale_ok (((1 / ((4 : ℕ) : ℝ) : ℝ) : ℂ)) [0, 0, 0, 0, 0]
  simp only [bind, Except.bind] at hs
  simp only
  rw [show (5 : ℕ) = ([0, 0, 0, 0, 0] : List ℂ).length from rfl, hs]
  simp only [List.map_cons, List.map_nil, mul_zero]
  exact ⟨_, rfl⟩

/-- **C35** fails in general. -/
theorem C35_violated : ¬ C35_claim := by
  intro h
  obtain ⟨s, hs⟩ := h Trig.real Trig.real_exact 5 4 (by norm_num) (by norm_num) (smooth_of_le 4 (by norm_num) (by norm_num))
    (smooth_of_le 5 (by norm_num) (by norm_num)) [[1, -I, -1, I]] (by simp)
  obtain ⟨tmp, ht⟩ := C35_overlap
  unfold run at hs
  rw [ht] at hs
  simp only [run, Except.ok.injEq, Prod.mk.injEq, List.map_cons, List.map_nil, List.cons.injEq, and_true] at hs
  have h2 := congrArg (fun l => l[0]?) hs.2
  simp only [List.getElem?_map] at h2
  rw [List.getElem?_range (by norm_num)] at h2
  have h3 := interp_sample 4 (by norm_num) (fun n => ([1, -I, -1, I] : List ℂ).getD n 0) 0 (by norm_num)
  norm_num at h2 h3
  rw [h3] at h2
  norm_num at h2

end DSP
