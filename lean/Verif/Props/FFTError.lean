import Verif.Props.FFT
import Verif.Props.KahanError

/-!
# C67: the rounding errors of fft.hh
-/

namespace DSP

open FFT Spec

/-- The number a machine complex number stands for. -/
def Cplx.toComplex {V : Type} (val : V → ℝ) (a : Cplx V) : ℂ := ⟨val a.re, val a.im⟩

namespace FFT

variable {V : Type} [Zero V] [Add V] [Sub V] [Mul V] [IntCast V] {val : V → ℝ} {u : ℝ}

theorem norm_le_of_parts (z w : ℂ) (c : ℝ) (hc : 0 ≤ c) (h1 : |z.re| ≤ c * |w.re|) (h2 : |z.im| ≤ c * |w.im|) : ‖z‖ ≤ c * ‖w‖ := by
  rw [← abs_of_nonneg (norm_nonneg z), ← abs_of_nonneg (mul_nonneg hc (norm_nonneg w)), ← sq_le_sq, mul_pow, ← Complex.normSq_eq_norm_sq, ← Complex.normSq_eq_norm_sq,
    Complex.normSq_apply, Complex.normSq_apply]
  have a1 := mul_self_le_mul_self (abs_nonneg _) h1
  have a2 := mul_self_le_mul_self (abs_nonneg _) h2
  rw [abs_mul_abs_self] at a1 a2
  have e1 : c * |w.re| * (c * |w.re|) = c ^ 2 * (w.re * w.re) := by rw [← abs_mul_abs_self w.re]; ring
  have e2 : c * |w.im| * (c * |w.im|) = c ^ 2 * (w.im * w.im) := by rw [← abs_mul_abs_self w.im]; ring
  linarith

/-- A sum of two products. -/
theorem two_products (a b c s v w : ℝ) (u : ℝ) (hu0 : 0 ≤ u) (ha : |v - a| ≤ u * |a|) (hb : |w - b| ≤ u * |b|) (hs : |s - (v + w)| ≤ u * |v + w|) (hc : c = a + b) :
    |s - c| ≤ (2 * u + u ^ 2) * (|a| + |b|) := by
  have h1 : |v + w| ≤ (1 + u) * (|a| + |b|) := by
    calc |v + w| = |(v - a) + (w - b) + (a + b)| := by ring_nf
      _ ≤ |v - a| + |w - b| + (|a| + |b|) := (abs_add_le _ _).trans (add_le_add (abs_add_le _ _) (abs_add_le _ _))
      _ ≤ u * |a| + u * |b| + (|a| + |b|) := by gcongr
      _ = _ := by ring
  calc |s - c| = |(s - (v + w)) + ((v - a) + (w - b))| := by rw [hc]; ring_nf
    _ ≤ |s - (v + w)| + (|v - a| + |w - b|) := (abs_add_le _ _).trans (add_le_add le_rfl (abs_add_le _ _))
    _ ≤ u * ((1 + u) * (|a| + |b|)) + (u * |a| + u * |b|) := by gcongr; exact hs.trans (by gcongr)
    _ = _ := by ring

/-- Complex numbers made of rounded values are rounded complex numbers. -/
theorem roundedComplex (hR : RoundedMul V val u) (hu0 : 0 ≤ u) (hu : u ≤ 1 / 10) : RoundedComplex (V := V) (A := Cplx V) val (Cplx.toComplex val) u where
  nonneg := hu0
  make _ _ := rfl
  zero := hR.zero
  sign s c hs := by
    have := hR.mul (s : V) c
    rcases hs with rfl | rfl
    · rw [hR.one] at this; simpa using this
    · rw [hR.neg_one] at this; simpa using this
  add a b := norm_le_of_parts _ _ u hu0 (hR.add _ _) (hR.add _ _)
  sub a b := norm_le_of_parts _ _ u hu0 (hR.sub _ _) (hR.sub _ _)
  turn a b := by
    have : ‖a.toComplex val - b.toComplex val‖ = ‖-Complex.I * (a.toComplex val - b.toComplex val)‖ := by rw [norm_mul]; simp
    rw [this]
    refine norm_le_of_parts _ _ u hu0 ?_ ?_
    · have := hR.sub a.im b.im
      rw [sub_eq_add_neg, neg_sub] at this
      simpa [Cplx.toComplex, Parts.make, Parts.re, Parts.im] using this
    · have := hR.sub b.re a.re
      rw [sub_eq_add_neg, neg_sub] at this
      simpa [Cplx.toComplex, Parts.make, Parts.re, Parts.im] using this
  cross a b := by
    refine norm_le_of_parts _ _ u hu0 ?_ ?_
    · have := hR.add a.re b.im
      simpa [Cplx.toComplex, Parts.make, Parts.re, Parts.im] using this
    · have := hR.sub a.im b.re
      simpa [Cplx.toComplex, Parts.make, Parts.re, Parts.im] using this
  smul c a := by
    refine norm_le_of_parts _ _ u hu0 ?_ ?_
    · have := hR.mul c a.re
      have e : (c • a).re = c * a.re := rfl
      simpa [Cplx.toComplex, e] using this
    · have := hR.mul c a.im
      have e : (c • a).im = c * a.im := rfl
      simpa [Cplx.toComplex, e] using this
  mul a b := by
    have h1 := two_products (val a.re * val b.re) (-(val a.im * val b.im)) (val a.re * val b.re - val a.im * val b.im) _ (val (a.re * b.re)) (-val (a.im * b.im)) u hu0
      (hR.mul _ _) (by rw [abs_neg, ← abs_neg]; have := hR.mul a.im b.im; convert this using 2; ring) (by rw [← sub_eq_add_neg]; exact hR.sub _ _) (by ring)
    have h2 := two_products (val a.re * val b.im) (val a.im * val b.re) (val a.re * val b.im + val a.im * val b.re) _ (val (a.re * b.im)) (val (a.im * b.re)) u hu0
      (hR.mul _ _) (hR.mul _ _) (hR.add _ _) rfl
    rw [abs_neg] at h1
    have e : ‖(a * b).toComplex val - a.toComplex val * b.toComplex val‖ ^ 2 ≤ (3 * u * ‖a.toComplex val * b.toComplex val‖) ^ 2 := by
      rw [← Complex.normSq_eq_norm_sq, mul_pow, ← Complex.normSq_eq_norm_sq, Complex.normSq_mul, Complex.normSq_apply, Complex.normSq_apply, Complex.normSq_apply]
      have f1 := mul_self_le_mul_self (abs_nonneg _) h1
      have f2 := mul_self_le_mul_self (abs_nonneg _) h2
      rw [abs_mul_abs_self] at f1 f2
      have g1 : ((a * b).toComplex val - a.toComplex val * b.toComplex val).re = val (a.re * b.re - a.im * b.im) - (val a.re * val b.re - val a.im * val b.im) := by
        simp only [Complex.sub_re, Complex.mul_re]; rfl
      have g2 : ((a * b).toComplex val - a.toComplex val * b.toComplex val).im = val (a.re * b.im + a.im * b.re) - (val a.re * val b.im + val a.im * val b.re) := by
        simp only [Complex.sub_im, Complex.mul_im]; rfl
      rw [g1, g2]
      refine (add_le_add f1 f2).trans ?_
      show _ ≤ (3 * u) ^ 2 * ((val a.re * val a.re + val a.im * val a.im) * (val b.re * val b.re + val b.im * val b.im))
      rw [abs_mul, abs_mul, abs_mul, abs_mul, ← abs_mul_abs_self (val a.re), ← abs_mul_abs_self (val a.im), ← abs_mul_abs_self (val b.re), ← abs_mul_abs_self (val b.im)]
      generalize |val a.re| = p
      generalize |val a.im| = q
      generalize |val b.re| = r
      generalize |val b.im| = s
      have k : (p * r + q * s) * (p * r + q * s) + (p * s + q * r) * (p * s + q * r) ≤ 2 * ((p * p + q * q) * (r * r + s * s)) := by
        nlinarith [mul_self_nonneg (p * r - q * s), mul_self_nonneg (p * s - q * r)]
      have k2 : 0 ≤ (p * p + q * q) * (r * r + s * s) := mul_nonneg (add_nonneg (mul_self_nonneg _) (mul_self_nonneg _)) (add_nonneg (mul_self_nonneg _) (mul_self_nonneg _))
      have k3 : (2 * u + u ^ 2) ^ 2 * 2 ≤ (3 * u) ^ 2 := by
        have : (2 + u) ^ 2 * 2 ≤ 9 := by nlinarith
        nlinarith [mul_self_nonneg u]
      calc _ = (2 * u + u ^ 2) ^ 2 * ((p * r + q * s) * (p * r + q * s) + (p * s + q * r) * (p * s + q * r)) := by ring
        _ ≤ (2 * u + u ^ 2) ^ 2 * (2 * ((p * p + q * q) * (r * r + s * s))) := by gcongr
        _ = (2 * u + u ^ 2) ^ 2 * 2 * ((p * p + q * q) * (r * r + s * s)) := by ring
        _ ≤ _ := by gcongr
    exact (sq_le_sq₀ (norm_nonneg _) (by positivity)).mp e

end FFT

/-- The number of roundings that `C67` allows for a transform of size `N`: some for every prime factor, counted with multiplicity. -/
def Spec.roundings (t N : ℕ) : ℕ := (N.primeFactorsList.map fun p => if p = 2 then 2 * t + 7 else p + 4 * t + 10).sum

section

variable {V : Type} [Zero V] [Add V] [Sub V] [Mul V] [IntCast V] (val : V → ℝ) (u : ℝ)

/-- **C67** In any rounded arithmetic with relative errors up to `u`, and with constants that are off by at most `t` such units, every bin of the computed transform differs from that of
the exact transform of the same numbers by at most `(1 + u)^E - 1` times the sum of the magnitudes of the inputs, where `E` is the sum over the prime factors of the size of `2 t + 7` for
each two and `p + 4 t + 10` for each odd `p`: the errors grow like the logarithm of the size. -/
theorem C67_accurate (hR : RoundedMul V val u) (hu0 : 0 ≤ u) (hu : u ≤ 1 / 10) (T : Trig V) (t L : ℕ) (hT : T.Accurate val u t L) (s : ℤ) (hs : s = 1 ∨ s = -1)
    (N : ℕ) (hN : 0 < N) (hL : N ≤ L) (hp : ∀ p, p.Prime → p ∣ N → p ≤ 31) (out inp : List (Cplx V)) (ho : N ≤ out.length) (hi : N ≤ inp.length) :
    ∃ X : List (Cplx V), call T s N out inp = .ok (X ++ out.drop N) ∧ X.length = N ∧ ∀ k < N,
      ‖(X.getD k 0).toComplex val - dft s N (fun n => (inp.getD n 0).toComplex val) k‖ ≤
        ((1 + u) ^ roundings t N - 1) * ∑ n ∈ Finset.range N, ‖(inp.getD n 0).toComplex val‖ := by
  have H := roundedComplex hR hu0 hu
  obtain ⟨out', e, l, h1, h2⟩ := dit_near H hT s hs N hL inp (factors T s N) (by
      intro l hl
      refine ⟨_, ?_, factor_near H hT s hs N l hl hL⟩
      unfold factors
      rw [List.getElem?_map, List.getElem?_range hl]
      rfl) N N 1 out 0 0 (fun n => inp.getD n 0) (le_refl _) ⟨hN, hp⟩ (by norm_num) (by ring) (by omega) (by
      intro n hn
      rw [Nat.zero_add, Nat.mul_one, List.getD_eq_getElem?_getD, List.getElem?_eq_getElem (by omega)]
      rfl)
  refine ⟨out'.take N, ?_, by simp [l, ho], ?_⟩
  · unfold call
    rw [e]
    congr 1
    rw [← List.take_append_drop N out']
    congr 1
    · simp
    · apply List.ext_getElem?
      intro j
      rw [List.getElem?_drop, List.getElem?_drop]
      exact h2 _ (by omega)
  · intro k hk
    obtain ⟨r, e, h⟩ := h1 k hk
    rw [Nat.zero_add] at e
    have : (out'.take N).getD k 0 = r := by
      rw [List.getD_eq_getElem?_getD, List.getElem?_take_of_lt hk, e]
      rfl
    rw [this]
    exact (h.mono hu0 (budget_le t N N hN) le_rfl).1

/-- **C67** Forward and backward transform give the input back, times the size, with errors of the same kind. -/
theorem C67_round_trip (hR : RoundedMul V val u) (hu0 : 0 ≤ u) (hu : u ≤ 1 / 10) (T : Trig V) (t L : ℕ) (hT : T.Accurate val u t L)
    (N : ℕ) (hN : 0 < N) (hL : N ≤ L) (hp : ∀ p, p.Prime → p ∣ N → p ≤ 31) (out tmp inp : List (Cplx V)) (ho : N ≤ out.length) (ht : N ≤ tmp.length) (hi : N ≤ inp.length) :
    ∃ X Y : List (Cplx V), call T (-1) N tmp inp = .ok X ∧ call T 1 N out X = .ok Y ∧ ∀ n < N,
      ‖(Y.getD n 0).toComplex val - N * (inp.getD n 0).toComplex val‖ ≤
        ((1 + u) ^ (2 * roundings t N) - 1) * (N * ∑ n ∈ Finset.range N, ‖(inp.getD n 0).toComplex val‖) := by
  obtain ⟨X, e1, l1, h1⟩ := C67_accurate val u hR hu0 hu T t L hT (-1) (Or.inr rfl) N hN hL hp tmp inp ht hi
  obtain ⟨Y, e2, l2, h2⟩ := C67_accurate val u hR hu0 hu T t L hT 1 (Or.inl rfl) N hN hL hp out (X ++ tmp.drop N) ho (by simp [l1])
  refine ⟨_, _, e1, e2, ?_⟩
  intro n hn
  have hX : ∀ k < N, (X ++ tmp.drop N).getD k 0 = X.getD k 0 := by
    intro k hk
    rw [List.getD_eq_getElem?_getD, List.getD_eq_getElem?_getD, List.getElem?_append_left (by omega)]
  have hY : (Y ++ out.drop N).getD n 0 = Y.getD n 0 := by
    rw [List.getD_eq_getElem?_getD, List.getD_eq_getElem?_getD, List.getElem?_append_left (by omega)]
  rw [hY]
  set x := fun n => (inp.getD n 0).toComplex val with hx
  set E := (1 + u) ^ roundings t N with hE
  set S := ∑ n ∈ Finset.range N, ‖(inp.getD n 0).toComplex val‖ with hS
  have hE1 : 0 ≤ E - 1 := pow_nonneg' u hu0 _
  have hS0 : 0 ≤ S := Finset.sum_nonneg fun _ _ => norm_nonneg _
  have key := h2 n hn
  rw [Spec.dft_congr 1 N _ (fun k => (X.getD k 0).toComplex val) n (fun k hk => by rw [hX k hk]),
    Finset.sum_congr rfl (fun k hk => by rw [hX k (Finset.mem_range.mp hk)])] at key
  have b1 : ∑ k ∈ Finset.range N, ‖(X.getD k 0).toComplex val - dft (-1) N x k‖ ≤ N * ((E - 1) * S) := by
    refine (Finset.sum_le_sum fun k hk => h1 k (Finset.mem_range.mp hk)).trans ?_
    rw [Finset.sum_const, Finset.card_range, nsmul_eq_mul]
  have b2 : ∑ k ∈ Finset.range N, ‖(X.getD k 0).toComplex val‖ ≤ N * (E * S) := by
    calc _ ≤ ∑ k ∈ Finset.range N, (‖(X.getD k 0).toComplex val - dft (-1) N x k‖ + ‖dft (-1) N x k‖) := Finset.sum_le_sum fun k _ => by
          have := norm_add_le ((X.getD k 0).toComplex val - dft (-1) N x k) (dft (-1) N x k)
          rwa [sub_add_cancel] at this
      _ ≤ N * ((E - 1) * S) + N * S := by
          rw [Finset.sum_add_distrib]
          refine add_le_add b1 ?_
          refine (Finset.sum_le_sum fun k _ => norm_dft (-1) N x k).trans ?_
          rw [Finset.sum_const, Finset.card_range, nsmul_eq_mul]
      _ = _ := by ring
  have b3 : ‖dft 1 N (fun k => (X.getD k 0).toComplex val) n - dft 1 N (dft (-1) N x) n‖ ≤ N * ((E - 1) * S) := by
    rw [dft_sub]
    exact (norm_dft _ _ _ _).trans b1
  have b4 : dft 1 N (dft (-1) N x) n = N * x n := by
    have := dft_dft (-1) (Or.inr rfl) N x n hn
    rwa [neg_neg] at this
  rw [b4] at b3
  calc _ = ‖((Y.getD n 0).toComplex val - dft 1 N (fun k => (X.getD k 0).toComplex val) n) + (dft 1 N (fun k => (X.getD k 0).toComplex val) n - N * x n)‖ := by
        congr 1; ring
    _ ≤ _ + _ := norm_add_le _ _
    _ ≤ (E - 1) * (N * (E * S)) + N * ((E - 1) * S) := add_le_add (key.trans (by gcongr)) b3
    _ = _ := by rw [two_mul, pow_add, ← hE]; ring

end

/-! ### Binary floating point -/

/-- The powers of `1 + u`, for small exponents. -/
theorem pow_sub_one_le (u : ℝ) (hu : 0 ≤ u) (E : ℕ) (h : E * u ≤ 1) : (1 + u) ^ E - 1 ≤ 2 * E * u := by
  have h0 : 0 ≤ E * u := by positivity
  have h1 : (1 + u) ^ E ≤ Real.exp (E * u) := by
    rw [Real.exp_nat_mul]
    exact pow_le_pow_left₀ (by positivity) (by linarith [Real.add_one_le_exp u]) E
  have h2 := (abs_le.mp (Real.abs_exp_sub_one_sub_id_le (x := E * u) (by rwa [abs_of_nonneg h0]))).2
  nlinarith

/-- **C67** In binary floating point with `p` bits: an error of at most `2 E` times `2^-p` times the sum of the magnitudes. -/
theorem C67_binary (p : ℕ) [NeZero p] (hp : 4 ≤ p) (T : Trig (Binary p)) (t L : ℕ) (hT : T.Accurate (fun a => (a.val : ℝ)) (1 / 2 ^ p) t L) (s : ℤ) (hs : s = 1 ∨ s = -1)
    (N : ℕ) (hN : 0 < N) (hL : N ≤ L) (hp' : ∀ q, q.Prime → q ∣ N → q ≤ 31) (hE : roundings t N ≤ 2 ^ p) (out inp : List (Cplx (Binary p)))
    (ho : N ≤ out.length) (hi : N ≤ inp.length) :
    ∃ X : List (Cplx (Binary p)), call T s N out inp = .ok (X ++ out.drop N) ∧ X.length = N ∧ ∀ k < N,
      ‖(X.getD k 0).toComplex (fun a => (a.val : ℝ)) - dft s N (fun n => (inp.getD n 0).toComplex fun a => (a.val : ℝ)) k‖ ≤
        2 * roundings t N / 2 ^ p * ∑ n ∈ Finset.range N, ‖(inp.getD n 0).toComplex fun a => (a.val : ℝ)‖ := by
  have hu : (1 : ℝ) / 2 ^ p ≤ 1 / 10 := by
    calc (1 : ℝ) / 2 ^ p ≤ 1 / 2 ^ 4 := by gcongr; norm_num
      _ ≤ _ := by norm_num
  obtain ⟨X, e, l, h⟩ := C67_accurate _ _ (binary_roundedMul p) (by positivity) hu T t L hT s hs N hN hL hp' out inp ho hi
  refine ⟨X, e, l, fun k hk => (h k hk).trans ?_⟩
  have hb := pow_sub_one_le (1 / 2 ^ p) (by positivity) (roundings t N) (by
    rw [mul_one_div, div_le_one (by positivity)]
    exact_mod_cast hE)
  rw [mul_one_div] at hb
  gcongr

/-- Any number of magnitude at most one is approximated to two units. -/
theorem exists_binary (p : ℕ) [NeZero p] (hp : 1 ≤ p) (c : ℝ) (hc : |c| ≤ 1) : ∃ b : Binary p, |(b.val : ℝ) - c| ≤ (2 : ℕ) * (1 / 2 ^ p) := by
  have u0 : (0 : ℝ) < 1 / 2 ^ p := by positivity
  have u1 : (1 : ℝ) / 2 ^ p ≤ 1 / 2 ^ 1 := by gcongr; norm_num
  generalize hu : (1 : ℝ) / 2 ^ p = u at *
  obtain ⟨q, h1, h2⟩ := exists_rat_btwn (show c - u / 2 < c + u / 2 by linarith)
  refine ⟨⟨Binary.round p q, Binary.round_representable p hp q⟩, ?_⟩
  have h3 : |((Binary.round p q : ℚ) : ℝ) - q| ≤ u * |(q : ℝ)| := by
    have := Binary.round_error p q
    rw [← hu, one_div_mul_eq_div]
    exact_mod_cast this
  have h4 : |(q : ℝ) - c| ≤ u / 2 := by rw [abs_le]; constructor <;> linarith
  have h5 : |(q : ℝ)| ≤ 1 + u / 2 := by
    calc |(q : ℝ)| = |(q - c) + c| := by ring_nf
      _ ≤ _ := abs_add_le _ _
      _ ≤ _ := by linarith
  calc _ = |(((Binary.round p q : ℚ) : ℝ) - q) + (q - c)| := by ring_nf
    _ ≤ _ := abs_add_le _ _
    _ ≤ u * (1 + u / 2) + u / 2 := add_le_add (h3.trans (by gcongr)) h4
    _ ≤ _ := by push_cast; nlinarith

theorem exists_trig (p : ℕ) [NeZero p] (L : ℕ) : ∃ T : Trig (Binary p), T.Accurate (fun a => (a.val : ℝ)) (1 / 2 ^ p) 2 L := by
  have hp : 1 ≤ p := Nat.pos_of_ne_zero (NeZero.ne p)
  choose f hf using fun n N : ℕ => exists_binary p hp (Real.cos (2 * Real.pi * n / N)) (Real.abs_cos_le_one _)
  choose g hg using fun n N : ℕ => exists_binary p hp (Real.sin (2 * Real.pi * n / N)) (Real.abs_sin_le_one _)
  obtain ⟨c, hc⟩ := exists_binary p hp (1 / √2) (by
    rw [abs_of_nonneg (by positivity), div_le_one (by positivity)]
    exact Real.one_le_sqrt.mpr (by norm_num))
  exact ⟨⟨f, g, c⟩, fun n N _ _ => hf n N, fun n N _ _ => hg n N, hc⟩

/-- Single precision, 1024 bins: 220 units for constants that are off by at most two. -/
example : ∃ T : Trig (Binary 24), ∀ inp : List (Cplx (Binary 24)), inp.length = 1024 → ∃ X, call T (-1) 1024 (List.replicate 1024 0) inp = .ok X ∧ ∀ k < 1024,
    ‖(X.getD k 0).toComplex (fun a => (a.val : ℝ)) - dft (-1) 1024 (fun n => (inp.getD n 0).toComplex fun a => (a.val : ℝ)) k‖ ≤
      220 / 2 ^ 24 * ∑ n ∈ Finset.range 1024, ‖(inp.getD n 0).toComplex fun a => (a.val : ℝ)‖ := by
  obtain ⟨T, hT⟩ := exists_trig 24 1024
  refine ⟨T, fun inp h => ?_⟩
  have e : roundings 2 1024 = 110 := by
    unfold roundings
    rw [show 1024 = 2 ^ 10 by norm_num, Nat.Prime.primeFactorsList_pow (by norm_num)]
    rfl
  obtain ⟨X, e1, l, hX⟩ := C67_binary 24 (by norm_num) T 2 1024 hT (-1) (Or.inr rfl) 1024 (by norm_num) le_rfl (by
    intro q hq hd
    have := (Nat.prime_dvd_prime_iff_eq hq Nat.prime_two).mp (hq.dvd_of_dvd_pow (show q ∣ 2 ^ 10 from hd))
    omega) (by rw [e]; norm_num) (List.replicate 1024 0) inp (by rw [List.length_replicate]) h.ge
  refine ⟨X, ?_, ?_⟩
  · rw [e1, List.drop_eq_nil_of_le (by rw [List.length_replicate]), List.append_nil]
  · rw [e] at hX
    norm_num at hX ⊢
    exact hX

end DSP
