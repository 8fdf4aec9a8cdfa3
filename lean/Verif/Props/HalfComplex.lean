import Verif.Props.FFT

/-!
# C34: RealToHalfComplexTransform
-/

namespace DSP

open FFT Complex

/-- Bin `k` from the transform `Z` of the pairs. -/
theorem half_bin (T : Trig ℝ) (hT : T.Exact) (N : ℕ) (x : ℕ → ℝ) (k : ℕ) (hk0 : 0 < k) (hk : k < N) :
    Spec.dft (-1) N (fun n => (⟨x (2 * n), x (2 * n + 1)⟩ : ℂ)) k * halfA T (2 * N) k +
      (starRingEnd ℂ) (Spec.dft (-1) N (fun n => (⟨x (2 * n), x (2 * n + 1)⟩ : ℂ)) (N - k)) * halfB T (2 * N) k =
    Spec.dft (-1) (2 * N) (fun n => (x n : ℂ)) k := by
  have h := Spec.dft_split (-1) 2 N (by norm_num) (by omega) (fun n => (x n : ℂ)) 0 k
  rw [Nat.zero_mul, Nat.add_zero] at h
  rw [h]
  have h2 : ∀ y : ℕ → ℂ, Spec.dft (-1) 2 y 0 = y 0 + y 1 := by
    intro y; simp [Spec.dft, Finset.sum_range_succ, Spec.unit_zero]
  rw [h2, Nat.mul_zero, Nat.mul_one, Spec.unit_zero, one_mul]
  generalize hE : Spec.dft (-1) N (fun m => ((x (0 + m * 2) : ℝ) : ℂ)) k = E
  generalize hO : Spec.dft (-1) N (fun m => ((x (1 + m * 2) : ℝ) : ℂ)) k = O
  have hZ : Spec.dft (-1) N (fun n => (⟨x (2 * n), x (2 * n + 1)⟩ : ℂ)) k = E + I * O := by
    rw [← hE, ← hO]
    unfold Spec.dft
    rw [Finset.mul_sum, ← Finset.sum_add_distrib]
    apply Finset.sum_congr rfl
    intro n _
    beta_reduce
    rw [show 0 + n * 2 = 2 * n by ring, show 1 + n * 2 = 2 * n + 1 by ring, ← mul_assoc, ← add_mul]
    congr 1
    apply Complex.ext <;> simp
  have hZ' : (starRingEnd ℂ) (Spec.dft (-1) N (fun n => (⟨x (2 * n), x (2 * n + 1)⟩ : ℂ)) (N - k)) = E - I * O := by
    rw [Spec.dft_rev (-1) N _ k hk.le, ← hE, ← hO]
    unfold Spec.dft
    rw [Finset.mul_sum, ← Finset.sum_sub_distrib, map_sum]
    apply Finset.sum_congr rfl
    intro n _
    beta_reduce
    rw [show 0 + n * 2 = 2 * n by ring, show 1 + n * 2 = 2 * n + 1 by ring, ← mul_assoc, ← sub_mul, map_mul, ← Spec.unit_neg_conj, neg_neg]
    congr 1
    apply Complex.ext <;> simp
  rw [hZ, hZ', Spec.unit_neg]
  unfold halfA halfB
  rw [hT.sin, hT.cos]
  push_cast
  generalize Real.cos (2 * Real.pi * k / (2 * N)) = c
  generalize Real.sin (2 * Real.pi * k / (2 * N)) = sn
  have e1 : (⟨sn, c⟩ : ℂ) = sn + c * I := by apply Complex.ext <;> simp
  have e2 : (⟨c, -sn⟩ : ℂ) = c - sn * I := by apply Complex.ext <;> simp
  rw [e1, e2]
  linear_combination (-O * c) * Complex.I_sq

/-- **C34** For every even size with a transform for its half and every real input, the bins in between are those of the discrete
Fourier transform of the input, and the first and the last of them are halved. Nothing else is written. -/
theorem C34_halfComplex (T : Trig ℝ) (hT : T.Exact) (N : ℕ) (hN : 0 < N) (hp : ∀ p, p.Prime → p ∣ N → p ≤ 31)
    (out : List ℂ) (inp : List ℝ) (ho : N + 1 ≤ out.length) (hi : 2 * N ≤ inp.length) :
    ∃ out', halfComplex T (2 * N) out inp = .ok out' ∧ out'.length = out.length ∧
      (∀ k, 0 < k → k < N → out'[k]? = some (Spec.dft (-1) (2 * N) (fun n => ((inp.getD n 0 : ℝ) : ℂ)) k)) ∧
      (∀ k, k = 0 ∨ k = N → out'[k]? = some (1 / 2 * Spec.dft (-1) (2 * N) (fun n => ((inp.getD n 0 : ℝ) : ℂ)) k)) ∧
      (∀ k, N < k → out'[k]? = out[k]?) := by
  have hdiv : 2 * N / 2 = N := by omega
  unfold halfComplex
  simp only [hdiv]
  obtain ⟨o1, e1, l1, p1, q1⟩ := dit_ok T hT (-1) (Or.inr rfl) N
    ((List.range (inp.length / 2)).map fun n => (⟨inp.getD (2 * n) 0, inp.getD (2 * n + 1) 0⟩ : ℂ)) (factors T (-1) N)
    (factors_eq T hT (-1) (Or.inr rfl) N) N N 1 out 0 0 (fun n => (⟨inp.getD (2 * n) 0, inp.getD (2 * n + 1) 0⟩ : ℂ)) (le_refl _) ⟨hN, hp⟩
    (by norm_num) (by ring) (by omega) (by
      intro n hn
      rw [Nat.zero_add, Nat.mul_one, List.getElem?_map, List.getElem?_range (by omega)]
      rfl)
  rw [e1]
  simp only [Nat.zero_add] at p1 q1
  generalize hx : (fun n => inp.getD n 0) = x
  have hxx : ∀ n, inp.getD n 0 = x n := fun n => by rw [← hx]
  simp only [hxx] at p1 ⊢
  generalize hZ : (fun k => Spec.dft (-1) N (fun n => (⟨x (2 * n), x (2 * n + 1)⟩ : ℂ)) k) = Z
  have hZk : ∀ k, Spec.dft (-1) N (fun n => (⟨x (2 * n), x (2 * n + 1)⟩ : ℂ)) k = Z k := fun k => by rw [← hZ]
  have hbin : ∀ k, 0 < k → k < N → Z k * halfA T (2 * N) k + (starRingEnd ℂ) (Z (N - k)) * halfB T (2 * N) k =
      Spec.dft (-1) (2 * N) (fun n => (x n : ℂ)) k := by
    intro k h0 h1
    rw [← hZk, ← hZk]
    exact half_bin T hT N x k h0 h1
  simp only [hZk] at p1
  simp only [bind, Except.bind]
  have r0 : rd o1 0 = .ok (Z 0) := rd_some (i := 0) (p1 0 hN)
  rw [r0]
  simp only
  rw [wr_nat (by omega)]
  simp only
  have r1 : ∀ v, rd (o1.set N v) 0 = .ok (Z 0) := by
    intro v
    apply rd_some (i := 0)
    rw [List.getElem?_set, if_neg (by omega), p1 0 hN]
  rw [r1]
  simp only
  have w0 : ∀ (l : List ℂ) v, 0 < l.length → wr l 0 v = .ok (l.set 0 v) := by
    intro l v h; exact wr_nat (i := 0) h
  rw [w0 _ _ (by simp; omega)]
  simp only
  -- the two outer bins
  have hE0 : Spec.dft (-1) (2 * N) (fun n => (x n : ℂ)) 0 = (((Z 0).re + (Z 0).im : ℝ) : ℂ) := by
    rw [← hZk]
    unfold Spec.dft
    simp only [Nat.mul_zero, Spec.unit_zero, mul_one]
    rw [Spec.sum_range_mul, Finset.sum_range_succ, Finset.sum_range_one, Complex.re_sum, Complex.im_sum]
    push_cast
    congr 1 <;> apply Finset.sum_congr rfl <;> intro n _
    · rw [show 0 + n * 2 = 2 * n by ring]
    · rw [show 1 + n * 2 = 2 * n + 1 by ring]
  have hEN : Spec.dft (-1) (2 * N) (fun n => (x n : ℂ)) N = (((Z 0).re - (Z 0).im : ℝ) : ℂ) := by
    have hu : Spec.unit (-1) (2 * N) N = -1 := by
      have := Spec.unit_scale (-1) 2 N 1 hN
      rw [Nat.one_mul] at this
      rw [this, Spec.unit_neg]
      apply Complex.ext <;> simp
    rw [← hZk]
    unfold Spec.dft
    simp only [Nat.mul_zero, Spec.unit_zero, mul_one]
    rw [Spec.sum_range_mul, Finset.sum_range_succ, Finset.sum_range_one, Complex.re_sum, Complex.im_sum, sub_eq_add_neg]
    push_cast
    rw [← Finset.sum_neg_distrib]
    congr 1 <;> apply Finset.sum_congr rfl <;> intro n _
    · rw [show (0 + n * 2) * N = 2 * N * n by ring, Spec.unit_self, mul_one, show 0 + n * 2 = 2 * n by ring]
    · rw [show (1 + n * 2) * N = 2 * N * n + N by ring, Spec.unit_add, Spec.unit_self, hu, show 1 + n * 2 = 2 * n + 1 by ring]
      ring
  have rA : ∀ i < N, rd ((List.range N).map (halfA T (2 * N))) (i : Int) = .ok (halfA T (2 * N) i) := by
    intro i hi
    apply rd_some
    rw [List.getElem?_map, List.getElem?_range hi]; rfl
  have rB : ∀ i < N, rd ((List.range N).map (halfB T (2 * N))) (i : Int) = .ok (halfB T (2 * N) i) := by
    intro i hi
    apply rd_some
    rw [List.getElem?_map, List.getElem?_range hi]; rfl
  generalize hv0 : (((1 / 2 : ℝ) * ((Z 0).re + (Z 0).im) : ℝ) : ℂ) = v0
  generalize hvN : (((1 / 2 : ℝ) * ((Z 0).re - (Z 0).im) : ℝ) : ℂ) = vN
  obtain ⟨o2, e2, l2, p2, q2, r2, s2, t2⟩ := foldlM_inv (fun i (b : List ℂ) => b.length = out.length ∧
      (∀ k, 0 < k → k < N → (k ≤ i ∨ N ≤ k + i) → b[k]? = some (Spec.dft (-1) (2 * N) (fun n => (x n : ℂ)) k)) ∧
      (∀ k, i < k → k + i < N → b[k]? = some (Z k)) ∧ b[0]? = some v0 ∧ b[N]? = some vN ∧ (∀ k, N < k → b[k]? = out[k]?))
    (fun out (i' : Nat) => do
      let i : Nat := i' + 1
      let outi ← rd out (i : Int)
      let Ai ← rd ((List.range N).map (halfA T (2 * N))) (i : Int)
      let outr ← rd out ((N - i : Nat) : Int)
      let Bi ← rd ((List.range N).map (halfB T (2 * N))) (i : Int)
      let tmp := outi * Ai + (starRingEnd ℂ) outr * Bi
      let Ar ← rd ((List.range N).map (halfA T (2 * N))) ((N - i : Nat) : Int)
      let Br ← rd ((List.range N).map (halfB T (2 * N))) ((N - i : Nat) : Int)
      let out ← wr out ((N - i : Nat) : Int) (outr * Ar + (starRingEnd ℂ) outi * Br)
      wr out (i : Int) tmp) (N / 2) ((o1.set N vN).set 0 v0) (by
      refine ⟨by simp [l1], fun k h0 h1 h2 => by omega, ?_, ?_, ?_, ?_⟩
      · intro k h0 h1
        rw [List.getElem?_set, if_neg (by omega), List.getElem?_set, if_neg (by omega), p1 k (by omega)]
      · rw [List.getElem?_set, if_pos rfl, if_pos (by simp; omega)]
      · rw [List.getElem?_set, if_neg (by omega), List.getElem?_set, if_pos rfl, if_pos (by omega)]
      · intro k hk
        rw [List.getElem?_set, if_neg (by omega), List.getElem?_set, if_neg (by omega), q1 k (by omega)]) (by
      rintro a ha b ⟨g1, g2, g3, g4, g5, g6⟩
      have ha2 : 2 * (a + 1) ≤ N := by omega
      simp only [bind, Except.bind]
      rw [rd_some (g3 (a + 1) (by omega) (by omega)), rA (a + 1) (by omega), rd_some (g3 (N - (a + 1)) (by omega) (by omega)),
        rB (a + 1) (by omega), rA (N - (a + 1)) (by omega), rB (N - (a + 1)) (by omega)]
      simp only
      rw [wr_nat (by omega)]
      simp only
      refine ⟨_, wr_nat (by simp; omega), by simp [g1], ?_, ?_, ?_, ?_, ?_⟩
      · intro k h0 h1 h2
        rw [List.getElem?_set]
        by_cases c1 : a + 1 = k
        · rw [if_pos c1, if_pos (by simp; omega), ← c1, hbin (a + 1) (by omega) (by omega)]
        · rw [if_neg c1, List.getElem?_set]
          by_cases c2 : N - (a + 1) = k
          · rw [if_pos c2, if_pos (by omega)]
            have := hbin (N - (a + 1)) (by omega) (by omega)
            rw [show N - (N - (a + 1)) = a + 1 by omega] at this
            rw [this, c2]
          · rw [if_neg c2]
            exact g2 k h0 h1 (by omega)
      · intro k h0 h1
        rw [List.getElem?_set, if_neg (by omega), List.getElem?_set, if_neg (by omega)]
        exact g3 k (by omega) (by omega)
      · rw [List.getElem?_set, if_neg (by omega), List.getElem?_set, if_neg (by omega), g4]
      · rw [List.getElem?_set, if_neg (by omega), List.getElem?_set, if_neg (by omega), g5]
      · intro k hk
        rw [List.getElem?_set, if_neg (by omega), List.getElem?_set, if_neg (by omega), g6 k hk])
  refine ⟨o2, e2, l2, ?_, ?_, t2⟩
  · intro k h0 h1
    exact p2 k h0 h1 (by omega)
  · rintro k (h | h) <;> subst h
    · rw [r2, hE0, ← hv0]
      push_cast
      rfl
    · rw [s2, hEN, ← hvN]
      push_cast
      rfl

example : ∃ out', halfComplex Trig.real (2 * 12) (List.replicate 13 0) ((List.range 24).map fun (n : ℕ) => (n : ℝ)) = .ok out' ∧ out'.length = 13 := by
  obtain ⟨o, h1, h2, -⟩ := C34_halfComplex Trig.real Trig.real_exact 12 (by norm_num) smooth_12 (List.replicate 13 0)
    ((List.range 24).map fun (n : ℕ) => (n : ℝ)) (by simp) (by simp)
  exact ⟨o, h1, by simpa using h2⟩

end DSP
