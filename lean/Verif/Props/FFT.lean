import Verif.Lemmas.FFT
import Mathlib.RingTheory.RootsOfUnity.Complex
import Mathlib.Algebra.Order.BigOperators.Ring.Finset
import Mathlib.Tactic.NormNum.Prime

/-!
# C31, C32, C33: fft.hh
-/

namespace DSP

open FFT

theorem factors_eq (T : Trig ℝ) (hT : T.Exact) (s : ℤ) (hs : s = 1 ∨ s = -1) (N : ℕ) :
    ∀ l < N, (factors T s N)[l]? = some (Spec.unit s N l) := by
  intro l hl
  unfold factors
  rw [List.getElem?_map, List.getElem?_range hl]
  simp only [Option.map_some, Option.some.injEq]
  rw [hT.cos, hT.sin]
  rcases hs with h | h <;> subst h
  · rw [Spec.unit_one]; simp [Parts.make]
  · rw [Spec.unit_neg]; simp [Parts.make]

theorem C31_dft' (T : Trig ℝ) (hT : T.Exact) (s : ℤ) (hs : s = 1 ∨ s = -1) (N : ℕ) (hN : Smooth N)
    (out inp : List ℂ) (ho : N ≤ out.length) (x : ℕ → ℂ) (hx : ∀ n < N, inp[n]? = some (x n)) :
    call T s N out inp = .ok ((List.range N).map (Spec.dft s N x) ++ out.drop N) := by
  unfold call
  obtain ⟨out', e, l, h1, h2⟩ := dit_ok T hT s hs N inp (factors T s N) (factors_eq T hT s hs N) N N 1 out 0 0 x (le_refl _) hN
    (by norm_num) (by ring) (by omega) (by intro n hn; rw [Nat.zero_add, Nat.mul_one]; exact hx n hn)
  rw [e]
  congr 1
  apply List.ext_getElem?
  intro k
  by_cases hk : k < N
  · have := h1 k hk
    rw [Nat.zero_add] at this
    rw [this, List.getElem?_append_left (by simpa using hk), List.getElem?_map, List.getElem?_range hk]
    rfl
  · rw [h2 k (by omega), List.getElem?_append_right (by simpa using hk), List.getElem?_drop]
    congr 1
    simp
    omega

/-- **C31** For every size without prime factors above 31, both signs and every input, the transform writes the bins of the discrete
Fourier transform and nothing else. -/
theorem C31_dft (T : Trig ℝ) (hT : T.Exact) (s : ℤ) (hs : s = 1 ∨ s = -1) (N : ℕ) (hN : 0 < N) (hp : ∀ p, p.Prime → p ∣ N → p ≤ 31)
    (out inp : List ℂ) (ho : N ≤ out.length) (hi : N ≤ inp.length) :
    call T s N out inp = .ok ((List.range N).map (Spec.dft s N fun n => inp.getD n 0) ++ out.drop N) := by
  apply C31_dft' T hT s hs N ⟨hN, hp⟩ out inp ho
  intro n hn
  rw [List.getD_eq_getElem?_getD, List.getElem?_eq_getElem (by omega)]
  rfl

theorem smooth_12 : ∀ p, p.Prime → p ∣ 12 → p ≤ 31 := fun p _ h => by have := Nat.le_of_dvd (by norm_num) h; omega

/-- Size 12 is computed by the radices 3 and 4. -/
example : split 12 = 3 ∧ split 4 = 4 ∧
    call Trig.real (-1) 12 (List.replicate 12 0) ((List.range 12).map fun (n : ℕ) => (n : ℂ)) =
      .ok ((List.range 12).map (Spec.dft (-1) 12 fun n => ((List.range 12).map fun (n : ℕ) => (n : ℂ)).getD n 0)) := by
  refine ⟨by decide +kernel, by decide +kernel, ?_⟩
  rw [C31_dft _ Trig.real_exact (-1) (Or.inr rfl) 12 (by norm_num) smooth_12 _ _ (by simp) (by simp)]
  simp

/-- A size with every kind of butterfly in it. -/
example : ∀ p, p.Prime → p ∣ 2 ^ 6 * 3 * 5 * 7 * 11 * 13 * 17 * 19 * 23 * 29 * 31 → p ≤ 31 := by
  intro p hp h
  have : p ∈ (2 ^ 6 * 3 * 5 * 7 * 11 * 13 * 17 * 19 * 23 * 29 * 31 : ℕ).primeFactorsList :=
    (Nat.mem_primeFactorsList (by norm_num)).mpr ⟨hp, h⟩
  rw [hp.dvd_mul, hp.dvd_mul, hp.dvd_mul, hp.dvd_mul, hp.dvd_mul, hp.dvd_mul, hp.dvd_mul, hp.dvd_mul, hp.dvd_mul, hp.dvd_mul] at h
  rcases h with ((((((((((h | h) | h) | h) | h) | h) | h) | h) | h) | h) | h)
  · have := Nat.le_of_dvd (by norm_num) (hp.dvd_of_dvd_pow h); omega
  all_goals exact (Nat.le_of_dvd (by norm_num) h).trans (by norm_num)

/-! ### C32 -/

theorem unit_ne_one (s : ℤ) (hs : s = 1 ∨ s = -1) (N n m : ℕ) (hn : n < N) (hm : m < N) (h : n ≠ m) :
    ∑ k ∈ Finset.range N, Spec.unit s N (n * k) * Spec.unit (-s) N (k * m) = 0 := by
  -- one root of unity to the power k
  have key : ∀ a b : ℕ, a < N → b < a → ∀ s : ℤ, (s = 1 ∨ s = -1) → ∑ k ∈ Finset.range N, Spec.unit s N ((a - b) * k) = 0 := by
    intro a b ha hb s hs
    have hN : N ≠ 0 := by omega
    have hprim := Complex.isPrimitiveRoot_exp N hN
    have h1 : ∀ k, Spec.unit 1 N k = Complex.exp (2 * Real.pi * Complex.I / N) ^ k := by
      intro k
      unfold Spec.unit
      rw [← Complex.exp_nat_mul]
      congr 1
      push_cast
      ring
    have hz : ∑ k ∈ Finset.range N, Spec.unit 1 N ((a - b) * k) = 0 := by
      have h2 : Complex.exp (2 * Real.pi * Complex.I / N) ^ (a - b) ≠ 1 := hprim.pow_ne_one_of_pos_of_lt (by omega) (by omega)
      have h3 := mul_neg_geom_sum (Complex.exp (2 * Real.pi * Complex.I / N) ^ (a - b)) N
      rw [← pow_mul, mul_comm (a - b), pow_mul, hprim.pow_eq_one, one_pow, sub_self] at h3
      have h4 := (mul_eq_zero.mp h3).resolve_left (sub_ne_zero.mpr (Ne.symm h2))
      rw [← h4]
      apply Finset.sum_congr rfl
      intro k _
      rw [h1, pow_mul]
    rcases hs with h | h <;> subst h
    · exact hz
    · simp only [Spec.unit_neg_conj, ← map_sum]
      rw [hz, map_zero]
  rcases Nat.lt_or_gt_of_ne h with h | h
  · rw [← key m n hm h (-s) (by omega)]
    apply Finset.sum_congr rfl
    intro k _
    have e : k * m = (m - n) * k + n * k := by
      rw [← Nat.add_mul, Nat.sub_add_cancel h.le, Nat.mul_comm]
    rw [e, Spec.unit_add]
    have := Spec.unit_mul_neg s N (n * k)
    linear_combination (Spec.unit (-s) N ((m - n) * k)) * this
  · rw [← key n m hn h s hs]
    apply Finset.sum_congr rfl
    intro k _
    have e : n * k = (n - m) * k + k * m := by
      rw [Nat.mul_comm k m, ← Nat.add_mul, Nat.sub_add_cancel h.le]
    rw [e, Spec.unit_add]
    have := Spec.unit_mul_neg s N (k * m)
    linear_combination (Spec.unit s N ((n - m) * k)) * this

theorem dft_dft (s : ℤ) (hs : s = 1 ∨ s = -1) (N : ℕ) (x : ℕ → ℂ) (m : ℕ) (hm : m < N) :
    Spec.dft (-s) N (Spec.dft s N x) m = N * x m := by
  unfold Spec.dft
  simp only [Finset.sum_mul]
  rw [Finset.sum_comm]
  have : ∀ n ∈ Finset.range N, ∑ k ∈ Finset.range N, x n * Spec.unit s N (n * k) * Spec.unit (-s) N (k * m) =
      if n = m then N * x m else 0 := by
    intro n hn
    by_cases h : n = m
    · subst h
      rw [if_pos rfl]
      have : ∀ k ∈ Finset.range N, x n * Spec.unit s N (n * k) * Spec.unit (-s) N (k * n) = x n := by
        intro k _
        rw [Nat.mul_comm k n, mul_assoc, Spec.unit_mul_neg, mul_one]
      rw [Finset.sum_congr rfl this]
      simp
    · rw [if_neg h]
      simp only [mul_assoc]
      rw [← Finset.mul_sum, unit_ne_one s hs N n m (Finset.mem_range.mp hn) hm h, mul_zero]
  rw [Finset.sum_congr rfl this, Finset.sum_ite_eq' (Finset.range N) m, if_pos (Finset.mem_range.mpr hm)]

/-- **C32** The backward transform of the forward transform (or the other way around) is the input times the number of bins. -/
theorem C32_inverse (T : Trig ℝ) (hT : T.Exact) (s : ℤ) (hs : s = 1 ∨ s = -1) (N : ℕ) (hN : 0 < N) (hp : ∀ p, p.Prime → p ∣ N → p ≤ 31)
    (out1 out2 inp : List ℂ) (h1 : out1.length = N) (h2 : out2.length = N) (hi : inp.length = N) :
    (call T s N out1 inp).bind (call T (-s) N out2) = .ok (inp.map ((N : ℂ) * ·)) := by
  rw [C31_dft T hT s hs N hN hp out1 inp (by omega) (by omega)]
  simp only [Except.bind]
  rw [C31_dft' T hT (-s) (by omega) N ⟨hN, hp⟩ out2 _ (by omega) (Spec.dft s N fun n => inp.getD n 0) (by
    intro n hn
    rw [List.getElem?_append_left (by simpa using hn), List.getElem?_map, List.getElem?_range hn]
    rfl)]
  rw [← h2, List.drop_length, List.append_nil, h2]
  congr 1
  apply List.ext_getElem
  · simp [hi]
  · intro k hk1 hk2
    have hk : k < N := by simpa using hk1
    rw [List.getElem_map, List.getElem_map, List.getElem_range, dft_dft s hs N _ k hk, List.getD_eq_getElem?_getD,
      List.getElem?_eq_getElem (by omega)]
    rfl

example : (call Trig.real (-1) 12 (List.replicate 12 0) ((List.range 12).map fun (n : ℕ) => (n : ℂ))).bind (call Trig.real 1 12 (List.replicate 12 0)) =
    .ok (((List.range 12).map fun (n : ℕ) => (n : ℂ)).map (((12 : ℕ) : ℂ) * ·)) :=
  C32_inverse _ Trig.real_exact (-1) (Or.inr rfl) 12 (by norm_num) smooth_12 _ _ _ (by simp) (by simp) (by simp)

/-- **C32** Parseval: the energy of the bins is the energy of the input times the number of bins. -/
theorem C32_parseval (T : Trig ℝ) (hT : T.Exact) (s : ℤ) (hs : s = 1 ∨ s = -1) (N : ℕ) (hN : 0 < N) (hp : ∀ p, p.Prime → p ∣ N → p ≤ 31)
    (out inp : List ℂ) (h1 : out.length = N) (hi : inp.length = N) :
    ∃ X, call T s N out inp = .ok X ∧ (X.map Complex.normSq).sum = N * (inp.map Complex.normSq).sum := by
  refine ⟨_, C31_dft T hT s hs N hN hp out inp (by omega) (by omega), ?_⟩
  rw [← h1, List.drop_length, List.append_nil, h1]
  have e : inp = (List.range N).map fun n => inp.getD n 0 := by
    apply List.ext_getElem
    · simp [hi]
    · intro k hk1 hk2
      rw [List.getElem_map, List.getElem_range, List.getD_eq_getElem?_getD, List.getElem?_eq_getElem hk1]
      rfl
  conv_rhs => rw [e]
  generalize (fun n => inp.getD n 0) = x
  rw [List.map_map, List.map_map, Spec.list_sum, Spec.list_sum]
  simp only [Function.comp]
  apply Complex.ofReal_injective
  push_cast
  -- as a double sum
  have h3 : ∀ k ∈ Finset.range N, ((Complex.normSq (Spec.dft s N x k) : ℝ) : ℂ) =
      ∑ n ∈ Finset.range N, (starRingEnd ℂ) (x n) * (Spec.dft s N x k * Spec.unit (-s) N (k * n)) := by
    intro k _
    rw [Complex.normSq_eq_conj_mul_self]
    conv_lhs => unfold Spec.dft
    rw [map_sum, Finset.sum_mul]
    apply Finset.sum_congr rfl
    intro n _
    rw [map_mul, ← Spec.unit_neg_conj, Nat.mul_comm k n]
    unfold Spec.dft
    ring
  rw [Finset.sum_congr rfl h3, Finset.sum_comm, Finset.mul_sum]
  apply Finset.sum_congr rfl
  intro n hn
  rw [← Finset.mul_sum]
  have h4 := dft_dft s hs N x n (Finset.mem_range.mp hn)
  unfold Spec.dft at h4 ⊢
  rw [h4, Complex.normSq_eq_conj_mul_self]
  ring

example : ∃ X, call Trig.real 1 12 (List.replicate 12 0) ((List.range 12).map fun (n : ℕ) => (n : ℂ)) = .ok X ∧
    (X.map Complex.normSq).sum = (12 : ℕ) * (((List.range 12).map fun (n : ℕ) => (n : ℂ)).map Complex.normSq).sum :=
  C32_parseval _ Trig.real_exact 1 (Or.inl rfl) 12 (by norm_num) smooth_12 _ _ (by simp) (by simp)

/-- **C32** Linearity. -/
theorem C32_linear (T : Trig ℝ) (hT : T.Exact) (s : ℤ) (hs : s = 1 ∨ s = -1) (N : ℕ) (hN : 0 < N) (hp : ∀ p, p.Prime → p ∣ N → p ≤ 31)
    (c d : ℂ) (out x y : List ℂ) (h1 : out.length = N) (hx : x.length = N) (hy : y.length = N) :
    ∃ X Y, call T s N out x = .ok X ∧ call T s N out y = .ok Y ∧
      call T s N out (List.zipWith (fun a b => c * a + d * b) x y) = .ok (List.zipWith (fun a b => c * a + d * b) X Y) := by
  refine ⟨_, _, C31_dft T hT s hs N hN hp out x (by omega) (by omega), C31_dft T hT s hs N hN hp out y (by omega) (by omega), ?_⟩
  rw [C31_dft T hT s hs N hN hp out _ (by omega) (by simp [hx, hy])]
  rw [← h1, List.drop_length, List.append_nil, List.append_nil, List.append_nil, h1]
  congr 1
  apply List.ext_getElem
  · simp
  · intro k hk1 hk2
    simp only [List.getElem_map, List.getElem_zipWith, List.getElem_range]
    unfold Spec.dft
    rw [Finset.mul_sum, Finset.mul_sum, ← Finset.sum_add_distrib]
    apply Finset.sum_congr rfl
    intro n hn
    have hn := Finset.mem_range.mp hn
    have e : (List.zipWith (fun a b => c * a + d * b) x y).getD n 0 = c * x.getD n 0 + d * y.getD n 0 := by
      simp only [List.getD_eq_getElem?_getD]
      rw [List.getElem?_eq_getElem (by simp [hx, hy, hn]), List.getElem?_eq_getElem (by omega), List.getElem?_eq_getElem (by omega)]
      simp
    beta_reduce
    rw [e]
    ring

example : ∃ X Y, call Trig.real 1 2 [0, 0] [1, 2] = .ok X ∧ call Trig.real 1 2 [0, 0] [5, Complex.I] = .ok Y ∧
    call Trig.real 1 2 [0, 0] (List.zipWith (fun a b => 3 * a + 7 * b) [1, 2] [5, Complex.I]) = .ok (List.zipWith (fun a b => 3 * a + 7 * b) X Y) :=
  C32_linear _ Trig.real_exact 1 (Or.inl rfl) 2 (by norm_num) (fun p _ h => by have := Nat.le_of_dvd (by norm_num) h; omega) 3 7 _ _ _ rfl rfl rfl

/-! ### C33 -/

/-- **C33** The radix chosen for `N` divides `N`, and it is one that has a butterfly unless it is 1. -/
theorem C33_radix (N : ℕ) : split N ∣ N ∧ (split N = 1 ∨ split N ∈ [2, 3, 4, 5, 7, 8, 11, 13, 17, 19, 23, 29, 31]) := by
  rcases split_cases N with h | ⟨h1, h2⟩
  · rw [h]; exact ⟨one_dvd _, Or.inl rfl⟩
  · exact ⟨h2, Or.inr h1⟩

example : split 1024 = 2 ∧ split 512 = 8 ∧ split 64 = 8 ∧ split 37 = 1 := by decide +kernel

/-- The recursion reaches the missing template exactly when a prime above 31 is left. -/
theorem dit_diverge (T : Trig ℝ) (s : ℤ) (inp z : List ℂ) (fuel : ℕ) : ∀ (B S : ℕ) (out : List ℂ) (o i : ℕ),
    0 < B → (∃ p, p.Prime ∧ p ∣ B ∧ 31 < p) → dit T s fuel B S out o inp i z = .error .diverge := by
  induction fuel with
  | zero => intros; rfl
  | succ fuel ih =>
    rintro B S out o i hB ⟨p, hp, hd, hlt⟩
    have hpB := Nat.le_of_dvd hB hd
    unfold dit
    simp only
    by_cases h1 : split B = 1
    · rw [if_pos h1, if_neg (by omega)]
    · rw [if_neg h1]
      obtain ⟨hr, hdv⟩ := (split_cases B).resolve_left h1
      have hle : 2 ≤ split B ∧ split B ≤ 31 := by
        revert hr
        generalize split B = R
        simp only [radices, List.mem_cons, List.not_mem_nil, or_false]
        omega
      rw [if_neg (by omega)]
      obtain ⟨Q, hQ⟩ := hdv
      have hdq : p ∣ Q := by
        rw [hQ] at hd
        rcases (hp.dvd_mul).mp hd with h | h
        · have := Nat.le_of_dvd (by omega) h; omega
        · exact h
      have hQpos : 0 < Q := by
        rcases Nat.eq_zero_or_pos Q with h | h
        · rw [h] at hQ; omega
        · exact h
      have hdiv : B / split B = Q := by
        rw [Nat.div_eq_iff_eq_mul_right (by omega) ⟨Q, hQ⟩]; exact hQ
      rw [hdiv]
      obtain ⟨n, hn⟩ : ∃ n, split B = n + 1 := ⟨split B - 1, by omega⟩
      have : (List.range (split B)).foldlM
          (fun out a => dit T s fuel Q (split B * S) out (o + a * Q) inp (i + a * S) z) out = .error .diverge := by
        conv_lhs => arg 3; rw [hn]
        rw [List.range_succ_eq_map, List.foldlM_cons, ih Q (split B * S) out _ _ hQpos ⟨p, hp, hdq, hlt⟩]
        rfl
      rw [this]
      rfl

/-- **C33** A transform of size `N` exists exactly if no prime factor of `N` exceeds 31; otherwise the template recursion ends
at the empty primary template, which does not compile. -/
theorem C33_exists (T : Trig ℝ) (hT : T.Exact) (s : ℤ) (hs : s = 1 ∨ s = -1) (N : ℕ) (hN : 0 < N)
    (out inp : List ℂ) (ho : N ≤ out.length) (hi : N ≤ inp.length) :
    ((∃ X, call T s N out inp = .ok X) ↔ ∀ p, p.Prime → p ∣ N → p ≤ 31) ∧
    ((∃ X, call T s N out inp = .ok X) ∨ call T s N out inp = .error .diverge) := by
  by_cases h : ∀ p, p.Prime → p ∣ N → p ≤ 31
  · have := C31_dft T hT s hs N hN h out inp ho hi
    exact ⟨⟨fun _ => h, fun _ => ⟨_, this⟩⟩, Or.inl ⟨_, this⟩⟩
  · have h' := h
    push Not at h'
    have := dit_diverge T s inp (factors T s N) N N 1 out 0 0 hN h'
    refine ⟨⟨?_, fun g => absurd g h⟩, Or.inr this⟩
    rintro ⟨X, hX⟩
    unfold call at hX
    rw [this] at hX
    cases hX

example : call Trig.real 1 74 (List.replicate 74 (0 : ℂ)) (List.replicate 74 0) = .error .diverge :=
  ((C33_exists Trig.real Trig.real_exact 1 (Or.inl rfl) 74 (by norm_num) _ _ (by simp) (by simp)).2).resolve_left (by
    rw [(C33_exists Trig.real Trig.real_exact 1 (Or.inl rfl) 74 (by norm_num) _ _ (by simp) (by simp)).1]
    intro h
    have := h 37 (by norm_num) (by norm_num)
    omega)

/-- **C33** On positive `int`s the three predicates recognise the powers of two, four and eight. -/
theorem C33_powers (N : ℕ) (h0 : 0 < N) (h1 : N < 2 ^ 31) :
    (pow2 N = true ↔ ∃ k, N = 2 ^ k) ∧ (pow4 N = true ↔ ∃ k, N = 4 ^ k) ∧ (pow8 N = true ↔ ∃ k, N = 8 ^ k) := by
  have e2 : pow2 N = true ↔ ∃ k, N = 2 ^ k := by
    unfold pow2
    rw [beq_iff_eq]
    exact Nat.and_sub_one_eq_zero_iff_isPowerOfTwo h0.ne'
  refine ⟨e2, ?_, ?_⟩
  · unfold pow4
    rw [Bool.and_eq_true, e2]
    constructor
    · rintro ⟨⟨k, rfl⟩, h⟩
      have hk : k < 31 := (Nat.pow_lt_pow_iff_right (by norm_num)).mp h1
      have : k % 2 = 0 := by
        clear e2 h0 h1
        interval_cases k <;> first | rfl | (exfalso; revert h; decide)
      refine ⟨k / 2, ?_⟩
      rw [show 4 = 2 ^ 2 by norm_num, ← pow_mul]
      congr 1
      omega
    · rintro ⟨k, rfl⟩
      rw [show 4 = 2 ^ 2 by norm_num, ← pow_mul] at h1 ⊢
      refine ⟨⟨_, rfl⟩, ?_⟩
      have hk : k < 16 := by
        have := (Nat.pow_lt_pow_iff_right (by norm_num)).mp h1
        omega
      clear e2 h0 h1
      interval_cases k <;> decide
  · unfold pow8
    rw [Bool.and_eq_true, e2]
    constructor
    · rintro ⟨⟨k, rfl⟩, h⟩
      have hk : k < 31 := (Nat.pow_lt_pow_iff_right (by norm_num)).mp h1
      have : k % 3 = 0 := by
        clear e2 h0 h1
        interval_cases k <;> first | rfl | (exfalso; revert h; decide)
      refine ⟨k / 3, ?_⟩
      rw [show 8 = 2 ^ 3 by norm_num, ← pow_mul]
      congr 1
      omega
    · rintro ⟨k, rfl⟩
      rw [show 8 = 2 ^ 3 by norm_num, ← pow_mul] at h1 ⊢
      refine ⟨⟨_, rfl⟩, ?_⟩
      have hk : k < 11 := by
        have := (Nat.pow_lt_pow_iff_right (by norm_num)).mp h1
        omega
      clear e2 h0 h1
      interval_cases k <;> decide

example : pow2 4096 = true ∧ pow4 4096 = true ∧ pow8 4096 = true ∧ pow8 2048 = false ∧ pow2 96 = false := by decide +kernel

end DSP
