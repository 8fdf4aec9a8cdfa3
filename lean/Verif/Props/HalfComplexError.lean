import Verif.Model.HalfComplexRounded
import Verif.Props.HalfComplex
import Verif.Props.FFTBinary

/-!
# C82: RealToHalfComplexTransform in rounded arithmetic
-/

namespace DSP

open FFT Spec Complex

namespace FFT

set_option linter.unusedSectionVars false

section near

variable {V : Type} [Zero V] [Add V] [Sub V] [Mul V] [Neg V] [IntCast V] {val : V → ℝ} {u : ℝ} (H : RoundedComplex (V := V) (A := Cplx V) val (Cplx.toComplex val) u)
  {K L : ℕ} {m n : ℝ} {a b : Cplx V} {z w : ℂ}
include H

/-- Halving, by a constant that is exact. -/
theorem Near.half {half : V} (hh : val half = 1 / 2) (ha : Near (Cplx.toComplex val) u K m a z) : Near (Cplx.toComplex val) u (K + 1) (m / 2) (half • a) (z / 2) := by
  refine near_round H.nonneg 1 (v := (val half : ℂ) * a.toComplex val) ?_ ?_ (by simpa using H.smul half a)
  · rw [hh]
    have : ((1 / 2 : ℝ) : ℂ) * a.toComplex val - z / 2 = (a.toComplex val - z) / 2 := by push_cast; ring
    rw [this, norm_div, Complex.norm_ofNat]
    have := ha.1
    linarith
  · rw [norm_div, Complex.norm_ofNat]
    have := ha.2
    linarith

/-- A product with a complex constant as the second factor. -/
theorem Near.mul_right (t : ℕ) {c : Cplx V} {r : ℂ} (hr : ‖r‖ ≤ 1) (hc : ‖c.toComplex val - r‖ ≤ (1 + u) ^ t - 1) (ha : Near (Cplx.toComplex val) u K m a z) :
    Near (Cplx.toComplex val) u (K + t + 3) m (a * c) (z * r) := by
  have hm : 0 ≤ m := (norm_nonneg _).trans ha.2
  have hu := H.nonneg
  refine near_round H.nonneg 3 (v := a.toComplex val * c.toComplex val) ?_ ?_ (by simpa using H.mul a c)
  · have h0 := pow_nonneg' u hu t
    calc _ = ‖a.toComplex val * (c.toComplex val - r) + (a.toComplex val - z) * r‖ := by ring_nf
      _ ≤ ‖a.toComplex val * (c.toComplex val - r)‖ + ‖(a.toComplex val - z) * r‖ := norm_add_le _ _
      _ = ‖a.toComplex val‖ * ‖c.toComplex val - r‖ + ‖a.toComplex val - z‖ * ‖r‖ := by rw [norm_mul, norm_mul]
      _ ≤ ((1 + u) ^ K * m) * ((1 + u) ^ t - 1) + (((1 + u) ^ K - 1) * m) * 1 := by
          have := ha.size hu
          have := ha.1
          have := mul_nonneg (pow_nonneg' u hu K) hm
          gcongr
      _ = _ := by rw [pow_add]; ring
  · rw [norm_mul]
    calc ‖z‖ * ‖r‖ ≤ m * 1 := by gcongr; exact ha.2
      _ = m := mul_one m

omit H in
theorem Near.conj (hN : ∀ a : V, val (-a) = -val a) (ha : Near (Cplx.toComplex val) u K m a z) : Near (Cplx.toComplex val) u K m a.conj ((starRingEnd ℂ) z) := by
  have : a.conj.toComplex val = (starRingEnd ℂ) (a.toComplex val) := by
    apply Complex.ext
    · rfl
    · simp only [Cplx.conj, Cplx.toComplex, hN, Complex.conj_im]
  refine ⟨?_, ?_⟩
  · rw [this, ← map_sub, Complex.norm_conj]; exact ha.1
  · rw [Complex.norm_conj]; exact ha.2

/-- The first and the last bin. -/
theorem Near.outer (hR : RoundedMul V val u) {half : V} (hh : val half = 1 / 2) (ha : Near (Cplx.toComplex val) u K m a z) :
    Near (Cplx.toComplex val) u (K + 2) m ⟨half * (a.re - a.im), 0⟩ (((z.re - z.im) / 2 : ℝ) : ℂ) ∧
    Near (Cplx.toComplex val) u (K + 2) m ⟨half * (a.re + a.im), 0⟩ (((z.re + z.im) / 2 : ℝ) : ℂ) := by
  have hz : ∀ r : V, Cplx.toComplex val ⟨r, 0⟩ = (val r : ℂ) := by
    intro r
    apply Complex.ext
    · rfl
    · simp [Cplx.toComplex, hR.zero]
  have key : ∀ (d : V) (x y : ℝ), |val d - x| ≤ u * |x| → |x - y| ≤ 2 * ‖a.toComplex val - z‖ → |y| ≤ 2 * ‖z‖ → Near (Cplx.toComplex val) u (K + 2) m ⟨half * d, 0⟩ ((y / 2 : ℝ) : ℂ) := by
    intro d x y h1 h2 h3
    have e1 : Near (Cplx.toComplex val) u (K + 1) (2 * m) ⟨d, 0⟩ ((y : ℝ) : ℂ) := by
      refine near_round H.nonneg 1 (v := (x : ℂ)) ?_ ?_ ?_
      · rw [← ofReal_sub, norm_real, Real.norm_eq_abs]
        have := ha.1
        linarith
      · rw [norm_real, Real.norm_eq_abs]
        have := ha.2
        linarith
      · rw [hz, ← ofReal_sub, norm_real, norm_real, Real.norm_eq_abs, Real.norm_eq_abs]
        simpa using h1
    have e2 := near_round H.nonneg 1 (K := K + 1) (m := m) (z := ((y / 2 : ℝ) : ℂ)) (r := (⟨half * d, 0⟩ : Cplx V)) (val := Cplx.toComplex val) (v := ((val d / 2 : ℝ) : ℂ)) ?_ ?_ ?_
    · exact e2
    · rw [← ofReal_sub, norm_real, Real.norm_eq_abs, ← sub_div, abs_div, abs_two]
      have := e1.1
      rw [hz, ← ofReal_sub, norm_real, Real.norm_eq_abs] at this
      linarith
    · rw [norm_real, Real.norm_eq_abs, abs_div, abs_two]
      have := ha.2
      linarith
    · rw [hz, ← ofReal_sub, norm_real, norm_real, Real.norm_eq_abs, Real.norm_eq_abs]
      have := hR.mul half d
      rw [hh] at this
      rw [show val d / 2 = 1 / 2 * val d by ring]
      simpa using this
  have hre : |(a.toComplex val).re - z.re| ≤ ‖a.toComplex val - z‖ := by simpa using Complex.abs_re_le_norm (a.toComplex val - z)
  have him : |(a.toComplex val).im - z.im| ≤ ‖a.toComplex val - z‖ := by simpa using Complex.abs_im_le_norm (a.toComplex val - z)
  have hr : |z.re| ≤ ‖z‖ := Complex.abs_re_le_norm z
  have hi : |z.im| ≤ ‖z‖ := Complex.abs_im_le_norm z
  constructor
  · refine key _ _ _ (hR.sub a.re a.im) ?_ ?_
    · have := abs_sub ((a.toComplex val).re - z.re) ((a.toComplex val).im - z.im)
      rw [show (a.toComplex val).re - z.re - ((a.toComplex val).im - z.im) = val a.re - val a.im - (z.re - z.im) by simp only [Cplx.toComplex]; ring] at this
      linarith
    · linarith [abs_sub z.re z.im]
  · refine key _ _ _ (hR.add a.re a.im) ?_ ?_
    · have := abs_add_le ((a.toComplex val).re - z.re) ((a.toComplex val).im - z.im)
      rw [show (a.toComplex val).re - z.re + ((a.toComplex val).im - z.im) = val a.re + val a.im - (z.re + z.im) by simp only [Cplx.toComplex]; ring] at this
      linarith
    · linarith [abs_add_le z.re z.im]

variable {T : Trig V} {t : ℕ} (hT : T.Accurate val u t L)
include hT

theorem sincos_near (N k : ℕ) (hk : k < N) (hN : N ≤ L) : Near (Cplx.toComplex val) u (2 * t) 1 (Rounded.sincos T N k) ⟨Real.sin (2 * Real.pi * k / N), Real.cos (2 * Real.pi * k / N)⟩ := by
  refine ⟨?_, ?_⟩
  · refine (Complex.norm_le_abs_re_add_abs_im _).trans ?_
    have h1 := hT.sin k N hk hN
    have h2 := hT.cos k N hk hN
    have h3 := bernoulli u H.nonneg (2 * t)
    push_cast at h3
    simp only [Rounded.sincos, Cplx.toComplex, Complex.sub_re, Complex.sub_im]
    linarith
  · rw [Complex.norm_def, Complex.normSq_mk, ← sq, ← sq, Real.sin_sq_add_cos_sq, Real.sqrt_one]

omit H hT in
theorem norm_half (z : ℂ) (h : ‖z‖ ≤ 1) : ‖((1 / 2 : ℝ) : ℂ) * (1 - z)‖ ≤ 1 ∧ ‖((1 / 2 : ℝ) : ℂ) * (1 + z)‖ ≤ 1 := by
  have e : ‖((1 / 2 : ℝ) : ℂ)‖ = 1 / 2 := by rw [norm_real]; norm_num
  constructor
  · rw [norm_mul, e]
    have := norm_sub_le (1 : ℂ) z
    rw [norm_one] at this
    linarith
  · rw [norm_mul, e]
    have := norm_add_le (1 : ℂ) z
    rw [norm_one] at this
    linarith

theorem halfA_near {one half : V} (ho : val one = 1) (hh : val half = 1 / 2) (hz : val 0 = 0) (N k : ℕ) (hk : k < N) (hN : N ≤ L) :
    ‖(Rounded.halfA T one half N k).toComplex val - FFT.halfA Trig.real N k‖ ≤ (1 + u) ^ (2 * t + 2) - 1 ∧ ‖FFT.halfA Trig.real N k‖ ≤ 1 ∧
    ‖(Rounded.halfB T one half N k).toComplex val - FFT.halfB Trig.real N k‖ ≤ (1 + u) ^ (2 * t + 2) - 1 ∧ ‖FFT.halfB Trig.real N k‖ ≤ 1 := by
  have h1 : Near (Cplx.toComplex val) u (2 * t) 1 (Cplx.ofReal one) 1 := by
    have : Cplx.toComplex val (Cplx.ofReal one) = 1 := by
      apply Complex.ext
      · simp [Cplx.ofReal, Cplx.toComplex, ho]
      · simp [Cplx.ofReal, Cplx.toComplex, hz]
    refine ⟨?_, by rw [norm_one]⟩
    rw [this, sub_self, norm_zero, mul_one]
    exact pow_nonneg' u H.nonneg _
  have h2 := sincos_near H hT N k hk hN
  have hA := ((h1.sub H h2).half H hh).1
  have hB := ((h1.add H h2).half H hh).1
  obtain ⟨n1, n2⟩ := norm_half _ h2.2
  have eA : FFT.halfA Trig.real N k = (1 - ⟨Real.sin (2 * Real.pi * k / N), Real.cos (2 * Real.pi * k / N)⟩) / 2 := by
    unfold FFT.halfA
    rw [Trig.real_exact.sin, Trig.real_exact.cos]
    push_cast; ring
  have eB : FFT.halfB Trig.real N k = (1 + ⟨Real.sin (2 * Real.pi * k / N), Real.cos (2 * Real.pi * k / N)⟩) / 2 := by
    unfold FFT.halfB
    rw [Trig.real_exact.sin, Trig.real_exact.cos]
    push_cast; ring
  have two : ((1 : ℝ) + 1) / 2 = 1 := by norm_num
  rw [two, mul_one] at hA hB
  have c : ∀ z : ℂ, ((1 / 2 : ℝ) : ℂ) * z = z / 2 := by intro z; push_cast; ring
  rw [c] at n1 n2
  rw [eA, eB]
  exact ⟨hA, n1, hB, n2⟩

end near

/-! ### The loop -/

section loop

variable {V : Type} [Zero V] [Add V] [Sub V] [Mul V] [Neg V] [Div V] [IntCast V]

/-- What the function does after the transform of half the size. -/
theorem Rounded.combine_ok (N : ℕ) (hN : 0 < N) (A B Z : ℕ → Cplx V) (v0 vN : Cplx V) (out o1 : List (Cplx V)) (ho : N + 1 ≤ out.length) (l1 : o1.length = out.length)
    (p1 : ∀ k, 0 < k → k < N → o1[k]? = some (Z k)) (p0 : o1[0]? = some v0) (pN : o1[N]? = some vN) (q1 : ∀ k, N < k → o1[k]? = out[k]?) :
    ∃ o2, (List.range (N / 2)).foldlM (Rounded.combine N ((List.range N).map A) ((List.range N).map B)) o1 = .ok o2 ∧ o2.length = out.length ∧
      (∀ k, 0 < k → k < N → o2[k]? = some (Z k * A k + (Z (N - k)).conj * B k)) ∧ o2[0]? = some v0 ∧ o2[N]? = some vN ∧ ∀ k, N < k → o2[k]? = out[k]? := by
  have rA : ∀ i < N, rd ((List.range N).map A) (i : Int) = .ok (A i) := by
    intro i hi
    apply rd_some
    rw [List.getElem?_map, List.getElem?_range hi]; rfl
  have rB : ∀ i < N, rd ((List.range N).map B) (i : Int) = .ok (B i) := by
    intro i hi
    apply rd_some
    rw [List.getElem?_map, List.getElem?_range hi]; rfl
  obtain ⟨o2, e2, l2, p2, q2, r2, s2, t2⟩ := foldlM_inv (fun i (b : List (Cplx V)) => b.length = out.length ∧
      (∀ k, 0 < k → k < N → (k ≤ i ∨ N ≤ k + i) → b[k]? = some (Z k * A k + (Z (N - k)).conj * B k)) ∧
      (∀ k, i < k → k + i < N → b[k]? = some (Z k)) ∧ b[0]? = some v0 ∧ b[N]? = some vN ∧ (∀ k, N < k → b[k]? = out[k]?))
    (Rounded.combine N ((List.range N).map A) ((List.range N).map B)) (N / 2) o1
      ⟨l1, fun k h0 h1 h2 => by omega, fun k h0 h1 => p1 k (by omega) (by omega), p0, pN, q1⟩ (by
      rintro a ha b ⟨g1, g2, g3, g4, g5, g6⟩
      have ha2 : 2 * (a + 1) ≤ N := by omega
      simp only [Rounded.combine, bind, Except.bind]
      rw [rd_some (g3 (a + 1) (by omega) (by omega)), rA (a + 1) (by omega), rd_some (g3 (N - (a + 1)) (by omega) (by omega)),
        rB (a + 1) (by omega), rA (N - (a + 1)) (by omega), rB (N - (a + 1)) (by omega)]
      simp only
      rw [wr_nat (by omega)]
      simp only
      refine ⟨_, wr_nat (by simp; omega), by simp [g1], ?_, ?_, ?_, ?_, ?_⟩
      · intro k h0 h1 h2
        rw [List.getElem?_set]
        by_cases c1 : a + 1 = k
        · rw [if_pos c1, if_pos (by simp; omega), ← c1]
        · rw [if_neg c1, List.getElem?_set]
          by_cases c2 : N - (a + 1) = k
          · rw [if_pos c2, if_pos (by omega), ← c2, show N - (N - (a + 1)) = a + 1 by omega]
          · rw [if_neg c2]
            exact g2 k h0 h1 (by omega)
      · intro k h0 h1
        rw [List.getElem?_set, if_neg (by omega), List.getElem?_set, if_neg (by omega)]
        exact g3 k (by omega) (by omega)
      · rw [List.getElem?_set, if_neg (by omega), List.getElem?_set, if_neg (by omega), g4]
      · rw [List.getElem?_set, if_neg (by omega), List.getElem?_set, if_neg (by omega), g5]
      · intro k hk
        rw [List.getElem?_set, if_neg (by omega), List.getElem?_set, if_neg (by omega), g6 k hk])
  exact ⟨o2, e2, l2, fun k h0 h1 => p2 k h0 h1 (by omega), r2, s2, t2⟩

end loop
end FFT

/-! ### The bins of a real input -/

/-- The first bin and the one in the middle. -/
theorem outer_bins (N : ℕ) (hN : 0 < N) (x : ℕ → ℝ) :
    dft (-1) (2 * N) (fun n => (x n : ℂ)) 0 = (((dft (-1) N (fun n => (⟨x (2 * n), x (2 * n + 1)⟩ : ℂ)) 0).re + (dft (-1) N (fun n => (⟨x (2 * n), x (2 * n + 1)⟩ : ℂ)) 0).im : ℝ) : ℂ) ∧
    dft (-1) (2 * N) (fun n => (x n : ℂ)) N = (((dft (-1) N (fun n => (⟨x (2 * n), x (2 * n + 1)⟩ : ℂ)) 0).re - (dft (-1) N (fun n => (⟨x (2 * n), x (2 * n + 1)⟩ : ℂ)) 0).im : ℝ) : ℂ) := by
  constructor
  · unfold Spec.dft
    simp only [Nat.mul_zero, Spec.unit_zero, mul_one]
    rw [Spec.sum_range_mul, Finset.sum_range_succ, Finset.sum_range_one, Complex.re_sum, Complex.im_sum]
    push_cast
    congr 1 <;> apply Finset.sum_congr rfl <;> intro n _
    · rw [show 0 + n * 2 = 2 * n by ring]
    · rw [show 1 + n * 2 = 2 * n + 1 by ring]
  · have hu : Spec.unit (-1) (2 * N) N = -1 := by
      have := Spec.unit_scale (-1) 2 N 1 hN
      rw [Nat.one_mul] at this
      rw [this, Spec.unit_neg]
      apply Complex.ext <;> simp
    unfold Spec.dft
    simp only [Nat.mul_zero, Spec.unit_zero, mul_one]
    rw [Spec.sum_range_mul, Finset.sum_range_succ, Finset.sum_range_one, Complex.re_sum, Complex.im_sum, sub_eq_add_neg]
    push_cast
    rw [← Finset.sum_neg_distrib]
    congr 1 <;> apply Finset.sum_congr rfl <;> intro n _
    · rw [show (0 + n * 2) * N = 2 * N * n by ring, Spec.unit_self, mul_one, show 0 + n * 2 = 2 * n by ring]
    · rw [show (1 + n * 2) * N = 2 * N * n + N by ring, Spec.unit_add, Spec.unit_self, hu, show 1 + n * 2 = 2 * n + 1 by ring]
      ring

theorem sum_pairs_le (N : ℕ) (x : ℕ → ℝ) : ∑ n ∈ Finset.range N, ‖(⟨x (2 * n), x (2 * n + 1)⟩ : ℂ)‖ ≤ ∑ n ∈ Finset.range (2 * N), |x n| := by
  induction N with
  | zero => simp
  | succ N ih =>
    rw [Finset.sum_range_succ, show 2 * (N + 1) = 2 * N + 1 + 1 by ring, Finset.sum_range_succ, Finset.sum_range_succ]
    have := Complex.norm_le_abs_re_add_abs_im (⟨x (2 * N), x (2 * N + 1)⟩ : ℂ)
    simp only at this
    linarith

section

variable {V : Type} [Zero V] [Add V] [Sub V] [Mul V] [Neg V] [Div V] [IntCast V] (val : V → ℝ) (u : ℝ)

/-- **C82** In any rounded arithmetic with relative errors up to `u`, and with constants that are off by at most `t` such units: the bins in between differ from those of the discrete
Fourier transform of the same numbers by at most `2 ((1 + u)^(E + 2 t + 6) - 1)` times the sum of the magnitudes of the inputs, and the halved first and last bin by
at most `(1 + u)^(E + 2) - 1` times it; `E` is what C67 allows for half the size. Nothing else is written. -/
theorem C82_half (hR : RoundedMul V val u) (hneg : ∀ a, val (-a) = -val a) (hu0 : 0 ≤ u) (hu : u ≤ 1 / 10) (one half : V) (h1 : val one = 1) (hh : val half = 1 / 2)
    (T : Trig V) (t L : ℕ) (hT : T.Accurate val u t L) (N : ℕ) (hN : 0 < N) (hL : 2 * N ≤ L) (hp : ∀ p, p.Prime → p ∣ N → p ≤ 31)
    (out : List (Cplx V)) (inp : List V) (ho : N + 1 ≤ out.length) (hi : 2 * N ≤ inp.length) :
    ∃ out', Rounded.halfComplex T one half (2 * N) out inp = .ok out' ∧ out'.length = out.length ∧
      (∀ k, 0 < k → k < N → ‖(out'.getD k 0).toComplex val - dft (-1) (2 * N) (fun n => ((val (inp.getD n 0) : ℝ) : ℂ)) k‖ ≤
        2 * ((1 + u) ^ (roundings t N + 2 * t + 6) - 1) * ∑ n ∈ Finset.range (2 * N), |val (inp.getD n 0)|) ∧
      (∀ k, k = 0 ∨ k = N → ‖(out'.getD k 0).toComplex val - 1 / 2 * dft (-1) (2 * N) (fun n => ((val (inp.getD n 0) : ℝ) : ℂ)) k‖ ≤
        ((1 + u) ^ (roundings t N + 2) - 1) * ∑ n ∈ Finset.range (2 * N), |val (inp.getD n 0)|) ∧
      (∀ k, N < k → out'[k]? = out[k]?) := by
  have H := roundedComplex hR hu0 hu
  have hdiv : 2 * N / 2 = N := by omega
  unfold Rounded.halfComplex
  simp only [hdiv]
  obtain ⟨o1, e1, l1, p1, q1⟩ := dit_near H hT (-1) (Or.inr rfl) N (by omega)
    ((List.range (inp.length / 2)).map fun n => (⟨inp.getD (2 * n) 0, inp.getD (2 * n + 1) 0⟩ : Cplx V)) (Rounded.factors T N)
    (by
      intro l hl
      refine ⟨⟨T.cos l N, -T.sin l N⟩, by unfold Rounded.factors; rw [List.getElem?_map, List.getElem?_range hl]; rfl, ?_⟩
      refine (Complex.norm_le_abs_re_add_abs_im _).trans ?_
      have h1 := hT.sin l N hl (by omega)
      have h2 := hT.cos l N hl (by omega)
      have h3 := bernoulli u hu0 (2 * t)
      have h4 : (1 + u) ^ (2 * t) ≤ (1 + u) ^ (2 * t + 2) := pow_le_pow_right₀ (by linarith) (by omega)
      push_cast at h3
      rw [Spec.unit_neg]
      simp only [Cplx.toComplex, Complex.sub_re, Complex.sub_im, hneg]
      rw [neg_sub_neg, abs_sub_comm (Real.sin _)]
      linarith)
    N N 1 out 0 0 (fun n => (⟨inp.getD (2 * n) 0, inp.getD (2 * n + 1) 0⟩ : Cplx V)) (le_refl _) ⟨hN, hp⟩
    (by norm_num) (by ring) (by omega) (by
      intro n hn
      rw [Nat.zero_add, Nat.mul_one, List.getElem?_map, List.getElem?_range (by omega)]
      rfl)
  rw [e1]
  simp only [Nat.zero_add] at p1 q1
  choose! Zh hZ hnear using p1
  generalize hx : (fun n => val (inp.getD n 0)) = x
  have hxx : ∀ n, val (inp.getD n 0) = x n := fun n => by rw [← hx]
  have hpair : ∀ n, Cplx.toComplex val ⟨inp.getD (2 * n) 0, inp.getD (2 * n + 1) 0⟩ = (⟨x (2 * n), x (2 * n + 1)⟩ : ℂ) := by
    intro n; rw [← hxx, ← hxx]; rfl
  simp only [hpair] at hnear
  simp only [hxx]
  have hnear' : ∀ k < N, Near (Cplx.toComplex val) u (roundings t N) (∑ n ∈ Finset.range (2 * N), |x n|) (Zh k) (dft (-1) N (fun n => (⟨x (2 * n), x (2 * n + 1)⟩ : ℂ)) k) :=
    fun k hk => (hnear k hk).mono hu0 (budget_le t N N hN) (sum_pairs_le N x)
  simp only [bind, Except.bind]
  have r0 : rd o1 0 = .ok (Zh 0) := rd_some (i := 0) (hZ 0 hN)
  rw [r0]
  simp only
  rw [wr_nat (by omega)]
  simp only
  have r1 : ∀ v, rd (o1.set N v) 0 = .ok (Zh 0) := by
    intro v
    apply rd_some (i := 0)
    rw [List.getElem?_set, if_neg (by omega), hZ 0 hN]
  rw [r1]
  simp only
  have w0 : ∀ (l : List (Cplx V)) v, 0 < l.length → wr l 0 v = .ok (l.set 0 v) := by
    intro l v h; exact wr_nat (i := 0) h
  rw [w0 _ _ (by simp; omega)]
  simp only
  obtain ⟨o2, e2, l2, p2, r2, s2, t2⟩ := Rounded.combine_ok N hN (Rounded.halfA T one half (2 * N)) (Rounded.halfB T one half (2 * N)) Zh ⟨half * ((Zh 0).re + (Zh 0).im), 0⟩
    ⟨half * ((Zh 0).re - (Zh 0).im), 0⟩ out ((o1.set N ⟨half * ((Zh 0).re - (Zh 0).im), 0⟩).set 0 ⟨half * ((Zh 0).re + (Zh 0).im), 0⟩) ho (by simp [l1])
    (by
      intro k h0 h1
      rw [List.getElem?_set, if_neg (by omega), List.getElem?_set, if_neg (by omega), hZ k (by omega)])
    (by rw [List.getElem?_set, if_pos rfl, if_pos (by simp; omega)])
    (by rw [List.getElem?_set, if_neg (by omega), List.getElem?_set, if_pos rfl, if_pos (by omega)])
    (by
      intro k hk
      rw [List.getElem?_set, if_neg (by omega), List.getElem?_set, if_neg (by omega), q1 k (by omega)])
  refine ⟨o2, e2, l2, ?_, ?_, t2⟩
  · intro k h0 hk
    rw [List.getD_eq_getElem?_getD, p2 k h0 hk, Option.getD_some]
    obtain ⟨a1, a2, b1, b2⟩ := halfA_near H hT h1 hh hR.zero (2 * N) k (by omega) hL
    have n1 := (hnear' k hk).mul_right H (2 * t + 2) a2 a1
    have n2 := ((hnear' (N - k) (by omega)).conj hneg).mul_right H (2 * t + 2) b2 b1
    have n3 := (n1.add H n2).1
    rw [half_bin Trig.real Trig.real_exact N x k h0 hk] at n3
    refine n3.trans (le_of_eq ?_)
    rw [show roundings t N + (2 * t + 2) + 3 + 1 = roundings t N + 2 * t + 6 by ring]
    ring
  · obtain ⟨b0, bN⟩ := outer_bins N hN x
    obtain ⟨n1, n2⟩ := (hnear' 0 hN).outer H hR hh
    rintro k (h | h) <;> subst h
    · rw [List.getD_eq_getElem?_getD, r2, Option.getD_some, b0]
      have := n2.1
      rw [ofReal_div] at this
      rw [one_div_mul_eq_div]
      exact_mod_cast this
    · rw [List.getD_eq_getElem?_getD, s2, Option.getD_some, bN]
      have := n1.1
      rw [ofReal_div] at this
      rw [one_div_mul_eq_div]
      exact_mod_cast this

end

end DSP
