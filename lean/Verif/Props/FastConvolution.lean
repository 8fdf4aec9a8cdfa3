import Verif.Props.FFTEnergy
import Verif.Props.Convolution

/-!
# C130: convolution by fft.hh in floating point
-/

namespace DSP

open FFT Spec Energy

namespace Energy

theorem rss_mul (N : ℕ) (w x : ℕ → ℂ) (c : ℝ) (hc : 0 ≤ c) (h : ∀ n < N, ‖w n‖ ≤ c) : rss N (fun n => w n * x n) ≤ c * rss N x := by
  refine rss_le_of_sq _ _ _ (mul_nonneg hc (rss_nonneg _ _)) ?_
  rw [mul_pow, rss_sq, Finset.mul_sum]
  refine Finset.sum_le_sum fun n hn => ?_
  have := h n (Finset.mem_range.mp hn)
  rw [norm_mul, mul_pow]
  gcongr

theorem rss_scaled (N : ℕ) (w x : ℕ → ℂ) (c : ℝ) (hc : 0 ≤ c) (h : ∀ n < N, ‖w n‖ ≤ c * ‖x n‖) : rss N w ≤ c * rss N x := by
  refine rss_le_of_sq _ _ _ (mul_nonneg hc (rss_nonneg _ _)) ?_
  rw [mul_pow, rss_sq, Finset.mul_sum]
  refine Finset.sum_le_sum fun n hn => ?_
  have := h n (Finset.mem_range.mp hn)
  rw [← mul_pow]
  gcongr

/-- Without overlap the circular convolution is the product of polynomials. -/
theorem circular_linear (N a b : ℕ) (x y : ℕ → ℂ) (ha : 0 < a) (hab : a + b ≤ N + 1) (hx : ∀ n, a ≤ n → x n = 0) (hy : ∀ n, b ≤ n → y n = 0) (n : ℕ) (hn : n < N) :
    circular N x y n = linear x y n := by
  simp only [circular, linear]
  rw [← Finset.sum_subset (Finset.range_subset_range.mpr (by omega : n + 1 ≤ N)) fun k hk hk' => ?_]
  · refine Finset.sum_congr rfl fun k hk => ?_
    rw [Finset.mem_range] at hk
    rw [show n + (N - k) = n - k + N by omega, Nat.add_mod_right, Nat.mod_eq_of_lt (by omega)]
  · rw [Finset.mem_range] at hk hk'
    by_cases c : a ≤ k
    · rw [hx k c, zero_mul]
    · rw [Nat.mod_eq_of_lt (by omega), hy _ (by omega), mul_zero]

end Energy

section

variable {V : Type} [Zero V] [Add V] [Sub V] [Mul V] [IntCast V] (val : V → ℝ) (u : ℝ)

/-- **C130** In any rounded arithmetic with relative errors up to `u`, and with constants that are off by at most `t` such units: the backward transform of the product, bin by bin, of two forward transforms is the
circular convolution of the two inputs times the number of bins, with errors whose root of the sum of squares is at most `(1 + u)^E - 1` times the number of bins, the sum of the magnitudes of the one input and the
root of the sum of the squares of the other; `E` is the roundings of `C67` once, those of `C129` twice and three for the products. -/
theorem C130_circular (hR : RoundedMul V val u) (hu0 : 0 ≤ u) (hu : u ≤ 1 / 10) (T : Trig V) (t L : ℕ) (hT : T.Accurate val u t L) (s : ℤ) (hs : s = 1 ∨ s = -1)
    (N : ℕ) (hN : 0 < N) (hL : N ≤ L) (hp : ∀ p, p.Prime → p ∣ N → p ≤ 31) (o1 o2 o3 x y : List (Cplx V)) (h1 : o1.length = N) (h2 : o2.length = N) (h3 : o3.length = N)
    (hx : x.length = N) (hy : y.length = N) :
    ∃ X Y Z : List (Cplx V), call T s N o1 x = .ok X ∧ call T s N o2 y = .ok Y ∧ call T (-s) N o3 (List.zipWith (· * ·) X Y) = .ok Z ∧
      rss N (fun n => (Z.getD n 0).toComplex val - N * circular N (fun n => (x.getD n 0).toComplex val) (fun n => (y.getD n 0).toComplex val) n) ≤
        ((1 + u) ^ (roundings t N + 2 * roundingsRms t N + 3) - 1) * (N * (∑ n ∈ Finset.range N, ‖(x.getD n 0).toComplex val‖) * rss N fun n => (y.getD n 0).toComplex val) := by
  have H := roundedComplex hR hu0 hu
  have hs' : -s = 1 ∨ -s = -1 := by omega
  obtain ⟨X, e1, l1, k1⟩ := C67_accurate val u hR hu0 hu T t L hT s hs N hN hL hp o1 x h1.ge hx.ge
  obtain ⟨Y, e2, l2, k2⟩ := C129_rms val u hR hu0 hu T t L hT s hs N hN hL hp o2 y h2.ge hy.ge
  have lz : (List.zipWith (· * ·) X Y).length = N := by simp [l1, l2]
  obtain ⟨Z, e3, l3, k3⟩ := C129_rms val u hR hu0 hu T t L hT (-s) hs' N hN hL hp o3 (List.zipWith (· * ·) X Y) h3.ge lz.ge
  rw [List.drop_of_length_le (by omega), List.append_nil] at e1 e2 e3
  refine ⟨X, Y, Z, e1, e2, e3, ?_⟩
  set x' := fun n => (x.getD n 0).toComplex val with hx'
  set y' := fun n => (y.getD n 0).toComplex val with hy'
  set A := (1 + u) ^ roundings t N with hA
  set E := (1 + u) ^ roundingsRms t N with hE
  set S := ∑ n ∈ Finset.range N, ‖(x.getD n 0).toComplex val‖ with hS
  have A1 : 0 ≤ A - 1 := pow_nonneg' u hu0 _
  have E1 : 0 ≤ E - 1 := pow_nonneg' u hu0 _
  have A0 : 0 ≤ A := by linarith
  have E0 : 0 ≤ E := by linarith
  have S0 : 0 ≤ S := Finset.sum_nonneg fun _ _ => norm_nonneg _
  have r0 := rss_nonneg N y'
  have sN : √(N : ℝ) * √(N : ℝ) = N := Real.mul_self_sqrt (by positivity)
  let X' : ℕ → ℂ := fun k => (X.getD k 0).toComplex val
  let Y' : ℕ → ℂ := fun k => (Y.getD k 0).toComplex val
  let P : ℕ → ℂ := fun k => ((List.zipWith (· * ·) X Y).getD k 0).toComplex val
  have hP : ∀ k < N, ‖P k - X' k * Y' k‖ ≤ 3 * u * ‖X' k * Y' k‖ := fun k hk => by
    have : (List.zipWith (· * ·) X Y).getD k 0 = X.getD k 0 * Y.getD k 0 := by
      simp only [List.getD_eq_getElem?_getD]
      rw [List.getElem?_eq_getElem (by omega), List.getElem?_eq_getElem (by omega), List.getElem?_eq_getElem (by omega)]
      simp
    show ‖((List.zipWith (· * ·) X Y).getD k 0).toComplex val - _‖ ≤ _
    rw [this]
    exact H.mul _ _
  have bX : ∀ k < N, ‖X' k‖ ≤ A * S := fun k hk => by
    have h := norm_add_le (X' k - dft s N x' k) (dft s N x' k)
    rw [sub_add_cancel] at h
    have h' := k1 k hk
    have h'' := norm_dft s N x' k
    calc _ ≤ (A - 1) * S + S := h.trans (add_le_add h' h'')
      _ = _ := by ring
  rw [rss_dft s hs] at k2
  have bY : rss N Y' ≤ E * (√N * rss N y') := by
    have := rss_add N Y' (dft s N y')
    rw [rss_dft s hs] at this
    linarith
  -- the products
  have d1 : rss N (fun k => P k - X' k * Y' k) ≤ 3 * u * (A * S * (E * (√N * rss N y'))) :=
    (rss_scaled N _ (fun k => X' k * Y' k) (3 * u) (by positivity) hP).trans (mul_le_mul_of_nonneg_left ((rss_mul N X' Y' (A * S) (by positivity) bX).trans (by gcongr)) (by positivity))
  have d2 : rss N (fun k => X' k * Y' k - X' k * dft s N y' k) ≤ A * S * ((E - 1) * (√N * rss N y')) := by
    rw [rss_congr N _ (fun k => X' k * (Y' k - dft s N y' k)) (fun k _ => by ring)]
    exact (rss_mul N X' _ (A * S) (by positivity) bX).trans (by gcongr)
  have d3 : rss N (fun k => X' k * dft s N y' k - dft s N x' k * dft s N y' k) ≤ (A - 1) * S * (√N * rss N y') := by
    rw [rss_congr N _ (fun k => (X' k - dft s N x' k) * dft s N y' k) (fun k _ => by ring), ← rss_dft s hs]
    exact rss_mul N _ _ ((A - 1) * S) (by positivity) k1
  have d4 : rss N (fun k => P k - dft s N x' k * dft s N y' k) ≤ (A * E * (1 + 3 * u) - 1) * (S * (√N * rss N y')) := by
    have f1 := rss_sub N P (fun k => X' k * Y' k) (fun k => dft s N x' k * dft s N y' k)
    have f2 := rss_sub N (fun k => X' k * Y' k) (fun k => X' k * dft s N y' k) (fun k => dft s N x' k * dft s N y' k)
    calc _ ≤ _ := f1.trans (add_le_add d1 (f2.trans (add_le_add d2 d3)))
      _ = _ := by ring
  have d5 : rss N P ≤ A * E * (1 + 3 * u) * (S * (√N * rss N y')) := by
    have f1 := rss_add N P (fun k => dft s N x' k * dft s N y' k)
    have f2 : rss N (fun k => dft s N x' k * dft s N y' k) ≤ S * (√N * rss N y') := by
      rw [← rss_dft s hs]
      exact rss_mul N _ _ S S0 fun k _ => norm_dft s N x' k
    linarith
  -- and back
  rw [rss_dft _ hs'] at k3
  have d6 : rss N (fun n => dft (-s) N P n - N * circular N x' y' n) ≤ √N * ((A * E * (1 + 3 * u) - 1) * (S * (√N * rss N y'))) := by
    rw [rss_congr N _ (dft (-s) N fun k => P k - dft s N x' k * dft s N y' k) (fun n hn => by
      rw [← dft_dft s hs N (circular N x' y') n hn, dft_sub]
      exact Spec.dft_congr _ _ _ _ _ fun k _ => by rw [circular_dft]), rss_dft _ hs']
    exact mul_le_mul_of_nonneg_left d4 (Real.sqrt_nonneg _)
  have d7 := rss_sub N (fun n => (Z.getD n 0).toComplex val) (dft (-s) N P) (fun n => N * circular N x' y' n)
  have hC : A * E * (1 + 3 * u) * E ≤ (1 + u) ^ (roundings t N + 2 * roundingsRms t N + 3) := by
    rw [pow_add, pow_add, two_mul, pow_add, ← hA, ← hE]
    have : 1 + 3 * u ≤ (1 + u) ^ 3 := by
      have := bernoulli u hu0 3
      push_cast at this
      linarith
    calc _ ≤ A * E * (1 + u) ^ 3 * E := by gcongr
      _ = _ := by ring
  calc _ ≤ _ := d7
    _ ≤ (E - 1) * (√N * (A * E * (1 + 3 * u) * (S * (√N * rss N y')))) + √N * ((A * E * (1 + 3 * u) - 1) * (S * (√N * rss N y'))) := add_le_add (k3.trans (by gcongr)) d6
    _ = (A * E * (1 + 3 * u) * E - 1) * (√N * √N * S * rss N y') := by ring
    _ ≤ _ := by rw [sN]; gcongr

/-- **C130** So filtering a block by way of the transform, with both lists padded with zeros, gives the samples that the filter itself would give, times the number of bins, up to rounding. -/
theorem C130_filter (hR : RoundedMul V val u) (hu0 : 0 ≤ u) (hu : u ≤ 1 / 10) (T : Trig V) (t L : ℕ) (hT : T.Accurate val u t L) (s : ℤ) (hs : s = 1 ∨ s = -1)
    (N : ℕ) (hN : 0 < N) (hL : N ≤ L) (hp : ∀ p, p.Prime → p ∣ N → p ≤ 31) (o1 o2 o3 x y : List (Cplx V)) (h1 : o1.length = N) (h2 : o2.length = N) (h3 : o3.length = N)
    (hxy : x.length + y.length ≤ N + 1) (hx : x ≠ []) (hy : y ≠ []) :
    ∃ X Y Z : List (Cplx V), call T s N o1 (x ++ List.replicate (N - x.length) 0) = .ok X ∧ call T s N o2 (y ++ List.replicate (N - y.length) 0) = .ok Y ∧
      call T (-s) N o3 (List.zipWith (· * ·) X Y) = .ok Z ∧
      rss N (fun n => (Z.getD n 0).toComplex val - N * linear (fun n => (x.getD n 0).toComplex val) (fun n => (y.getD n 0).toComplex val) n) ≤
        ((1 + u) ^ (roundings t N + 2 * roundingsRms t N + 3) - 1) * (N * (∑ n ∈ Finset.range N, ‖(x.getD n 0).toComplex val‖) * rss N fun n => (y.getD n 0).toComplex val) := by
  have lx := List.length_pos_of_ne_nil hx
  have ly := List.length_pos_of_ne_nil hy
  obtain ⟨X, Y, Z, e1, e2, e3, h⟩ := C130_circular val u hR hu0 hu T t L hT s hs N hN hL hp o1 o2 o3 (x ++ List.replicate (N - x.length) 0) (y ++ List.replicate (N - y.length) 0) h1 h2 h3 (by simp; omega) (by simp; omega)
  refine ⟨X, Y, Z, e1, e2, e3, ?_⟩
  have pad : ∀ (z : List (Cplx V)) (k : ℕ), (z ++ List.replicate (N - z.length) 0).getD k 0 = z.getD k 0 := fun z k => by
    rw [List.getD_eq_getElem?_getD, List.getD_eq_getElem?_getD]
    by_cases c : k < z.length
    · rw [List.getElem?_append_left c]
    · rw [List.getElem?_append_right (by omega), List.getElem?_eq_none (by omega : z.length ≤ k)]
      by_cases d : k - z.length < N - z.length
      · rw [List.getElem?_replicate, if_pos d]; rfl
      · rw [List.getElem?_replicate, if_neg d]
  have none : ∀ (z : List (Cplx V)) (k : ℕ), z.length ≤ k → (z.getD k 0).toComplex val = 0 := fun z k h => by
    rw [List.getD_eq_getElem?_getD, List.getElem?_eq_none h]
    exact Complex.ext hR.zero hR.zero
  simp only [pad] at h
  rwa [rss_congr N _ (fun n => (Z.getD n 0).toComplex val - N * linear (fun n => (x.getD n 0).toComplex val) (fun n => (y.getD n 0).toComplex val) n) (fun n hn => by
    rw [circular_linear N x.length y.length _ _ lx hxy (none x) (none y) n hn])] at h

end

/-- **C130** The code as it is, in floating point with `p` bits: every sample is off by at most `(440 log2(N) + 6) / 2^p` times the number of bins, the sum of the magnitudes of the one list and the root of the sum of
the squares of the other. -/
theorem C130_code (l p : ℕ) [NeZero p] (hp : 13 ≤ p) (hp' : p ≤ 53) (hl : p ≤ l) (s : ℤ) (hs : s = 1 ∨ s = -1) (N : ℕ) (hN : 0 < N) (hL : N ≤ 268435455)
    (hN' : ∀ q, q.Prime → q ∣ N → q ≤ 31) (o1 o2 o3 x y : List (Cplx (Binary p))) (h1 : o1.length = N) (h2 : o2.length = N) (h3 : o3.length = N)
    (hxy : x.length + y.length ≤ N + 1) (hx : x ≠ []) (hy : y ≠ []) :
    ∃ X Y Z : List (Cplx (Binary p)), call (Trig.binary l p) s N o1 (x ++ List.replicate (N - x.length) 0) = .ok X ∧ call (Trig.binary l p) s N o2 (y ++ List.replicate (N - y.length) 0) = .ok Y ∧
      call (Trig.binary l p) (-s) N o3 (List.zipWith (· * ·) X Y) = .ok Z ∧ ∀ n < N,
      ‖(Z.getD n 0).toComplex (fun a => (a.val : ℝ)) - N * linear (fun n => (x.getD n 0).toComplex fun a => (a.val : ℝ)) (fun n => (y.getD n 0).toComplex fun a => (a.val : ℝ)) n‖ ≤
        (440 * Real.logb 2 N + 6) / 2 ^ p * (N * (∑ n ∈ Finset.range N, ‖(x.getD n 0).toComplex fun a => (a.val : ℝ)‖) * rss N fun n => (y.getD n 0).toComplex fun a => (a.val : ℝ)) := by
  have hu : (1 : ℝ) / 2 ^ p ≤ 1 / 10 := by
    calc (1 : ℝ) / 2 ^ p ≤ 1 / 2 ^ 4 := by gcongr; norm_num; omega
      _ ≤ _ := by norm_num
  obtain ⟨X, Y, Z, e1, e2, e3, h⟩ := C130_filter _ _ (binary_roundedMul p) (by positivity) hu _ 9 _ (Trig.binary_accurate l p (by omega) hp' hl) s hs N hN hL hN' o1 o2 o3 x y h1 h2 h3 hxy hx hy
  refine ⟨X, Y, Z, e1, e2, e3, fun n hn => ?_⟩
  have h' := (norm_le_rss N (fun n => (Z.getD n 0).toComplex (fun a => (a.val : ℝ)) - N * linear (fun n => (x.getD n 0).toComplex fun a => (a.val : ℝ)) (fun n => (y.getD n 0).toComplex fun a => (a.val : ℝ)) n) n hn).trans h
  refine h'.trans (mul_le_mul_of_nonneg_right ?_ (mul_nonneg (mul_nonneg (by positivity) (Finset.sum_nonneg fun _ _ => norm_nonneg _)) (rss_nonneg _ _)))
  have b1 := DSP.roundings_bound N hN hL hN'
  have b2 := Energy.roundings_bound N hN hL hN'
  have b3 : (6163 : ℕ) ≤ 2 ^ p := (by norm_num : 6163 ≤ 2 ^ 13).trans (Nat.pow_le_pow_right (by norm_num) hp)
  have b4 : ((roundings 9 N + 2 * roundingsRms 9 N + 3 : ℕ) : ℝ) ≤ 2 ^ p := by
    exact_mod_cast (show roundings 9 N + 2 * roundingsRms 9 N + 3 ≤ 6163 by omega).trans b3
  have c := pow_sub_one_le (1 / 2 ^ p) (by positivity) (roundings 9 N + 2 * roundingsRms 9 N + 3) (by
    rw [mul_one_div, div_le_one (by positivity)]
    exact b4)
  refine c.trans ?_
  have g1 := DSP.roundings_log N hN hN'
  have g2 := Energy.roundings_log N hN hN'
  rw [mul_one_div]
  push_cast
  have : 2 * ((roundings 9 N : ℝ) + 2 * (roundingsRms 9 N : ℝ) + 3) ≤ 440 * Real.logb 2 N + 6 := by linarith
  gcongr

/-- Double precision: a filter of 513 coefficients and a block of 512 samples. -/
example (x y : List (Cplx (Binary 53))) (hx : x.length = 513) (hy : y.length = 512) (o : List (Cplx (Binary 53))) (ho : o.length = 1024) :
    ∃ X Y Z, call (Trig.binary 64 53) (-1) 1024 o (x ++ List.replicate (1024 - x.length) 0) = .ok X ∧ call (Trig.binary 64 53) (-1) 1024 o (y ++ List.replicate (1024 - y.length) 0) = .ok Y ∧
      call (Trig.binary 64 53) (- -1) 1024 o (List.zipWith (· * ·) X Y) = .ok Z ∧ ∀ n < 1024,
      ‖(Z.getD n 0).toComplex (fun a => (a.val : ℝ)) - (1024 : ℕ) * linear (fun n => (x.getD n 0).toComplex fun a => (a.val : ℝ)) (fun n => (y.getD n 0).toComplex fun a => (a.val : ℝ)) n‖ ≤
        (440 * Real.logb 2 (1024 : ℕ) + 6) / 2 ^ 53 * ((1024 : ℕ) * (∑ n ∈ Finset.range 1024, ‖(x.getD n 0).toComplex fun a => (a.val : ℝ)‖) * rss 1024 fun n => (y.getD n 0).toComplex fun a => (a.val : ℝ)) :=
  C130_code 64 53 (by norm_num) (by norm_num) (by norm_num) (-1) (Or.inr rfl) 1024 (by norm_num) (by norm_num) (by
    intro q hq hd
    have := (Nat.prime_dvd_prime_iff_eq hq Nat.prime_two).mp (hq.dvd_of_dvd_pow (show q ∣ 2 ^ 10 from hd))
    omega) o o o x y ho ho ho (by omega) (by rintro rfl; simp at hx) (by rintro rfl; simp at hy)

end DSP
