import Verif.Props.Fresh
import Mathlib.Algebra.Order.Chebyshev

/-!
# C129: the mean square of the rounding errors of fft.hh
-/

namespace DSP

open FFT Spec

namespace Energy

/-! ### Sums of squares -/

theorem parseval (s : ℤ) (hs : s = 1 ∨ s = -1) (N : ℕ) (x : ℕ → ℂ) : ∑ k ∈ Finset.range N, ‖Spec.dft s N x k‖ ^ 2 = N * ∑ n ∈ Finset.range N, ‖x n‖ ^ 2 := by
  apply Complex.ofReal_injective
  push_cast
  have e : ∀ z : ℂ, (‖z‖ : ℂ) ^ 2 = z * (starRingEnd ℂ) z := fun z => by rw [Complex.mul_conj, Complex.normSq_eq_norm_sq]; push_cast; rfl
  simp only [e]
  have e1 : ∀ k, (starRingEnd ℂ) (Spec.dft s N x k) = ∑ n ∈ Finset.range N, (starRingEnd ℂ) (x n) * Spec.unit (-s) N (k * n) := fun k => by
    unfold Spec.dft
    rw [map_sum]
    refine Finset.sum_congr rfl fun n _ => ?_
    rw [map_mul, unit_neg_conj, Nat.mul_comm]
  simp only [e1]
  simp_rw [Finset.mul_sum]
  rw [Finset.sum_comm]
  refine Finset.sum_congr rfl fun n hn => ?_
  have h := dft_dft s hs N x n (Finset.mem_range.mp hn)
  calc _ = (starRingEnd ℂ) (x n) * Spec.dft (-s) N (Spec.dft s N x) n := by
        conv_rhs => unfold Spec.dft
        rw [Finset.mul_sum]
        refine Finset.sum_congr rfl fun k _ => ?_
        show Spec.dft s N x k * _ = _ * (Spec.dft s N x k * _)
        ring
    _ = _ := by rw [h]; ring

/-- The triangle inequality for roots of sums of squares. -/
theorem triangle (N : ℕ) (f g h : ℕ → ℝ) (a b M : ℝ) (ha : 0 ≤ a) (hb : 0 ≤ b) (hM : 0 ≤ M) (h0 : ∀ k < N, 0 ≤ f k) (h1 : ∀ k < N, f k ≤ g k + h k)
    (hg : ∑ k ∈ Finset.range N, g k ^ 2 ≤ a ^ 2 * M) (hh : ∑ k ∈ Finset.range N, h k ^ 2 ≤ b ^ 2 * M) : ∑ k ∈ Finset.range N, f k ^ 2 ≤ (a + b) ^ 2 * M := by
  have cs := Finset.sum_mul_sq_le_sq_mul_sq (Finset.range N) g h
  have hm : ∑ k ∈ Finset.range N, g k * h k ≤ a * b * M := by
    refine abs_le_of_sq_le_sq' ?_ (by positivity) |>.2
    refine cs.trans ?_
    calc _ ≤ a ^ 2 * M * (b ^ 2 * M) := mul_le_mul hg hh (Finset.sum_nonneg fun _ _ => sq_nonneg _) (by positivity)
      _ = _ := by ring
  calc _ ≤ ∑ k ∈ Finset.range N, (g k + h k) ^ 2 := Finset.sum_le_sum fun k hk => by
        have := h0 k (Finset.mem_range.mp hk)
        have := h1 k (Finset.mem_range.mp hk)
        gcongr
    _ = ∑ k ∈ Finset.range N, g k ^ 2 + 2 * ∑ k ∈ Finset.range N, g k * h k + ∑ k ∈ Finset.range N, h k ^ 2 := by
        rw [Finset.mul_sum, ← Finset.sum_add_distrib, ← Finset.sum_add_distrib]
        exact Finset.sum_congr rfl fun k _ => by ring
    _ ≤ a ^ 2 * M + 2 * (a * b * M) + b ^ 2 * M := by gcongr
    _ = _ := by ring

theorem square_sum (R : ℕ) (f : ℕ → ℝ) : (∑ j ∈ Finset.range R, f j) ^ 2 ≤ R * ∑ j ∈ Finset.range R, f j ^ 2 := by
  have := sq_sum_le_card_mul_sum_sq (s := Finset.range R) (f := f)
  rwa [Finset.card_range] at this

/-! ### The budget -/

/-- A number whose square is at least the radix. -/
def root (R : ℕ) : ℕ := if R = 4 then 2 else Nat.sqrt R + 1

theorem le_root (R : ℕ) : R ≤ root R * root R := by
  unfold root
  split_ifs with h
  · omega
  · exact (Nat.lt_succ_sqrt R).le

/-- The roundings that count for the mean square. -/
def budget (t : ℕ) : ℕ → ℕ → ℕ
  | 0, _ => 0
  | fuel + 1, B => if split B = 1 then 0 else if split B = B then root B * cost t B else budget t fuel (B / split B) + root (split B) * (2 * t + 5 + cost t (split B))

/-- What a prime factor adds. -/
def weight (t p : ℕ) : ℕ := if p = 2 then 4 * t + 20 else (Nat.sqrt p + 1) * (p + 4 * t + 10)

theorem cost_le (t R : ℕ) (hR : R ∈ radices) : root R * (2 * t + 5 + cost t R) ≤ (R.primeFactorsList.map (weight t)).sum := by
  simp only [radices, List.mem_cons, List.not_mem_nil, or_false] at hR
  have hp : ∀ p, p.Prime → p ≠ 2 → p ≠ 4 → p ≠ 8 → root p * (2 * t + 5 + cost t p) ≤ (p.primeFactorsList.map (weight t)).sum := by
    intro p h1 h2 h4 h8
    rw [Nat.primeFactorsList_prime h1, List.map_singleton, List.sum_singleton]
    unfold weight root cost
    rw [if_neg h2, if_neg h4, if_neg h2, if_neg h4, if_neg h8]
    exact Nat.mul_le_mul_left _ (by omega)
  rcases hR with h | h | h | h | h | h | h | h | h | h | h | h | h <;> subst h
  · rw [Nat.primeFactorsList_prime (by norm_num), List.map_singleton, List.sum_singleton]
    norm_num [weight, root, cost]
    omega
  · exact hp 3 (by norm_num) (by norm_num) (by norm_num) (by norm_num)
  · rw [show 4 = 2 ^ 2 by norm_num, Nat.Prime.primeFactorsList_pow (by norm_num)]
    simp [cost, weight, root]
    omega
  · exact hp 5 (by norm_num) (by norm_num) (by norm_num) (by norm_num)
  · exact hp 7 (by norm_num) (by norm_num) (by norm_num) (by norm_num)
  · rw [show 8 = 2 ^ 3 by norm_num, Nat.Prime.primeFactorsList_pow (by norm_num)]
    have : Nat.sqrt 8 = 2 := by decide +kernel
    simp [cost, weight, root, this]
    omega
  · exact hp 11 (by norm_num) (by norm_num) (by norm_num) (by norm_num)
  · exact hp 13 (by norm_num) (by norm_num) (by norm_num) (by norm_num)
  · exact hp 17 (by norm_num) (by norm_num) (by norm_num) (by norm_num)
  · exact hp 19 (by norm_num) (by norm_num) (by norm_num) (by norm_num)
  · exact hp 23 (by norm_num) (by norm_num) (by norm_num) (by norm_num)
  · exact hp 29 (by norm_num) (by norm_num) (by norm_num) (by norm_num)
  · exact hp 31 (by norm_num) (by norm_num) (by norm_num) (by norm_num)

theorem budget_le (t fuel B : ℕ) (hB : 0 < B) : budget t fuel B ≤ (B.primeFactorsList.map (weight t)).sum := by
  induction fuel generalizing B with
  | zero => exact Nat.zero_le _
  | succ fuel ih =>
    unfold budget
    split_ifs with h1 h2
    · exact Nat.zero_le _
    · have := (split_cases B).resolve_left h1
      rw [h2] at this
      exact (Nat.mul_le_mul_left _ (by omega)).trans (cost_le t B this.1)
    · obtain ⟨hR, Q, hQ⟩ := (split_cases B).resolve_left h1
      generalize split B = R at *
      subst hQ
      have hRpos : 0 < R := Nat.pos_of_ne_zero (by rintro rfl; simp at hB)
      have hQpos : 0 < Q := Nat.pos_of_ne_zero (by rintro rfl; simp at hB)
      rw [Nat.mul_div_cancel_left _ hRpos, ((Nat.perm_primeFactorsList_mul hRpos.ne' hQpos.ne').map _).sum_eq, List.map_append, List.sum_append]
      have := cost_le t R hR
      have := ih Q hQpos
      omega

/-- `1 + √R ((1 + u)^c - 1) ≤ (1 + u)^(root R * c)` -/
theorem root_pow (u : ℝ) (hu : 0 ≤ u) (R c : ℕ) : √R * ((1 + u) ^ c - 1) ≤ (1 + u) ^ (root R * c) - 1 := by
  have h0 := pow_nonneg' u hu c
  have h1 : √(R : ℝ) ≤ root R := by
    rw [Real.sqrt_le_left (by positivity), sq]
    exact_mod_cast le_root R
  have h2 := bernoulli _ h0 (root R)
  rw [add_sub_cancel, ← pow_mul, Nat.mul_comm] at h2
  exact (mul_le_mul_of_nonneg_right h1 h0).trans h2

/-! ### The recursion -/

section

variable {V A : Type} [Parts V A] [Zero V] [Add V] [Sub V] [Mul V] [IntCast V] [Zero A] [Add A] [Sub A] [Mul A] [SMul V A]
variable {valV : V → ℝ} {val : A → ℂ} {u : ℝ} (H : RoundedComplex valV val u) {T : Trig V} {t L : ℕ} (hT : T.Accurate valV u t L)
include H hT

/-- One step: the error of the sub-transforms and that of the butterflies. -/
theorem step (s : ℤ) (hs : s = 1 ∨ s = -1) (R Q : ℕ) (hR : R ∈ radices) (hRL : R ≤ L) (hRpos : 0 < R) (hQ : 0 < Q) (x : ℕ → ℂ) (v y : ℕ → ℕ → A) (r : ℕ → A) (E c : ℕ)
    (hv : ∀ j < R, ∑ k ∈ Finset.range Q, ‖val (v j k) - Spec.dft s Q (fun m => x (j + m * R)) k‖ ^ 2 ≤ ((1 + u) ^ E - 1) ^ 2 * (Q * ∑ m ∈ Finset.range Q, ‖x (j + m * R)‖ ^ 2))
    (hy : ∀ k < Q, ∀ j < R, Near val u c ‖val (v j k)‖ (y j k) (Spec.unit s (R * Q) (k * j) * val (v j k)))
    (hr : ∀ k < Q, ∀ a < R, (FFT.dft T s R fun j => y j k)[a]? = some (r (k + a * Q))) :
    ∑ k ∈ Finset.range (R * Q), ‖val (r k) - Spec.dft s (R * Q) x k‖ ^ 2 ≤ ((1 + u) ^ (E + root R * (c + cost t R)) - 1) ^ 2 * ((R * Q : ℕ) * ∑ n ∈ Finset.range (R * Q), ‖x n‖ ^ 2) := by
  have u0 := H.nonneg
  set e := (1 + u) ^ E - 1 with he
  have e0 : 0 ≤ e := pow_nonneg' u u0 E
  set d := (1 + u) ^ (c + cost t R) - 1 with hd
  have d0 : 0 ≤ d := pow_nonneg' u u0 _
  set M := ∑ n ∈ Finset.range (R * Q), ‖x n‖ ^ 2 with hM
  have M0 : 0 ≤ M := Finset.sum_nonneg fun _ _ => sq_nonneg _
  have hMs : M = ∑ j ∈ Finset.range R, ∑ m ∈ Finset.range Q, ‖x (j + m * R)‖ ^ 2 := sum_range_mul _ R Q
  let W : ℕ → ℕ → ℂ := fun j k => Spec.dft s Q (fun m => x (j + m * R)) k
  -- the sizes of the computed parts
  have hsize : ∑ j ∈ Finset.range R, ∑ k ∈ Finset.range Q, ‖val (v j k)‖ ^ 2 ≤ (e + 1) ^ 2 * (Q * M) := by
    rw [hMs, Finset.mul_sum, Finset.mul_sum]
    refine Finset.sum_le_sum fun j hj => ?_
    refine triangle Q _ (fun k => ‖val (v j k) - W j k‖) (fun k => ‖W j k‖) e 1 _ e0 (by norm_num) (by positivity) (fun _ _ => norm_nonneg _) (fun k _ => ?_) (hv j (Finset.mem_range.mp hj)) ?_
    · have := norm_add_le (val (v j k) - W j k) (W j k)
      rwa [sub_add_cancel] at this
    · rw [parseval s hs, one_pow, one_mul]
  have herr : ∑ j ∈ Finset.range R, ∑ k ∈ Finset.range Q, ‖val (v j k) - W j k‖ ^ 2 ≤ e ^ 2 * (Q * M) := by
    rw [hMs, Finset.mul_sum, Finset.mul_sum]
    exact Finset.sum_le_sum fun j hj => hv j (Finset.mem_range.mp hj)
  have split : ∀ f : ℕ → ℝ, ∑ k ∈ Finset.range (R * Q), f k = ∑ k ∈ Finset.range Q, ∑ a ∈ Finset.range R, f (k + a * Q) := fun f => by
    rw [Nat.mul_comm R Q]
    exact sum_range_mul f Q R
  have e3 : ∀ k < Q, ∀ a, (k + a * Q) % Q = k := fun k hk a => by rw [Nat.add_mul_mod_self_right, Nat.mod_eq_of_lt hk]
  have e4 : ∀ k < Q, ∀ a, (k + a * Q) / Q = a := fun k hk a => by rw [Nat.add_mul_div_right _ _ hQ, Nat.div_eq_of_lt hk, Nat.zero_add]
  have key : ∑ k ∈ Finset.range (R * Q), ‖val (r k) - Spec.dft s (R * Q) x k‖ ^ 2 ≤ (√R * d * (e + 1) + e) ^ 2 * ((R * Q : ℕ) * M) := by
    refine triangle (R * Q) _ (fun k => d * ∑ j ∈ Finset.range R, ‖val (v j (k % Q))‖)
      (fun k => ‖Spec.dft s R (fun j => Spec.unit s (R * Q) (k % Q * j) * (val (v j (k % Q)) - W j (k % Q))) (k / Q)‖) (√R * d * (e + 1)) e _ (by positivity) e0 (by positivity)
      (fun _ _ => norm_nonneg _) (fun k hk => ?_) ?_ ?_
    · have hk0 : k % Q < Q := Nat.mod_lt _ hQ
      have ha : k / Q < R := by rw [Nat.div_lt_iff_lt_mul hQ]; exact hk
      have ek : k % Q + k / Q * Q = k := Nat.mod_add_div' k Q
      obtain ⟨r', h1, h2⟩ := dft_near H hT s hs R hR hRL (fun j => y j (k % Q)) (fun j => Spec.unit s (R * Q) (k % Q * j) * val (v j (k % Q))) (fun j => ‖val (v j (k % Q))‖)
        (fun j hj => hy _ hk0 j hj) _ ha
      rw [hr _ hk0 _ ha, ek] at h1
      obtain rfl := Option.some.inj h1
      have h3 := dft_split s R Q hRpos hQ x (k / Q) (k % Q)
      rw [ek] at h3
      rw [h3]
      have h4 := dft_sub s R (fun j => Spec.unit s (R * Q) (k % Q * j) * val (v j (k % Q))) (fun j => Spec.unit s (R * Q) (k % Q * j) * W j (k % Q)) (k / Q)
      simp only [← mul_sub] at h4
      rw [← h4]
      refine le_trans ?_ (add_le_add h2.1 le_rfl)
      refine le_trans (le_of_eq ?_) (norm_add_le _ _)
      congr 1
      ring
    · rw [split]
      calc _ = ∑ k ∈ Finset.range Q, R * (d ^ 2 * (∑ j ∈ Finset.range R, ‖val (v j k)‖) ^ 2) := Finset.sum_congr rfl fun k hk => by
            have hk := Finset.mem_range.mp hk
            rw [Finset.sum_congr rfl fun a _ => by rw [e3 k hk a], Finset.sum_const, Finset.card_range, nsmul_eq_mul, mul_pow]
        _ ≤ ∑ k ∈ Finset.range Q, R * (d ^ 2 * (R * ∑ j ∈ Finset.range R, ‖val (v j k)‖ ^ 2)) := Finset.sum_le_sum fun k _ => by
            gcongr
            exact square_sum R _
        _ = R * (d ^ 2 * R) * ∑ j ∈ Finset.range R, ∑ k ∈ Finset.range Q, ‖val (v j k)‖ ^ 2 := by
            rw [Finset.sum_comm (s := Finset.range R), Finset.mul_sum]
            exact Finset.sum_congr rfl fun k _ => by ring
        _ ≤ R * (d ^ 2 * R) * ((e + 1) ^ 2 * (Q * M)) := by gcongr
        _ = _ := by
            rw [mul_pow, mul_pow, Real.sq_sqrt (by positivity)]
            push_cast
            ring
    · rw [split]
      calc _ = ∑ k ∈ Finset.range Q, R * ∑ j ∈ Finset.range R, ‖val (v j k) - W j k‖ ^ 2 := Finset.sum_congr rfl fun k hk => by
            have hk := Finset.mem_range.mp hk
            rw [Finset.sum_congr rfl fun a _ => by rw [e3 k hk a, e4 k hk a], parseval s hs]
            congr 1
            exact Finset.sum_congr rfl fun j _ => by rw [norm_mul, norm_unit, one_mul]
        _ = R * ∑ j ∈ Finset.range R, ∑ k ∈ Finset.range Q, ‖val (v j k) - W j k‖ ^ 2 := by
            rw [Finset.sum_comm (s := Finset.range R), Finset.mul_sum]
        _ ≤ R * (e ^ 2 * (Q * M)) := by gcongr
        _ = _ := by push_cast; ring
  refine key.trans ?_
  have hroot := root_pow u u0 R (c + cost t R)
  rw [← hd] at hroot
  have hle : √R * d * (e + 1) + e ≤ (1 + u) ^ (E + root R * (c + cost t R)) - 1 := by
    have : √R * d * (e + 1) ≤ ((1 + u) ^ (root R * (c + cost t R)) - 1) * (e + 1) := by gcongr
    rw [pow_add]
    have e' : (1 + u) ^ E = e + 1 := by rw [he]; ring
    rw [e']
    linarith
  have h0 : 0 ≤ √R * d * (e + 1) + e := by positivity
  gcongr

theorem bin_error (s : ℤ) (hs : s = 1 ∨ s = -1) (N : ℕ) (hN : N ≤ L) (z : List A)
    (hz : ∀ l < N, ‖val (z.getD l 0) - Spec.unit s N l‖ ≤ (1 + u) ^ (2 * t + 2) - 1) (fuel : ℕ) : ∀ (B : ℕ) (x : ℕ → A), B ≤ fuel → Smooth B → B ∣ N → 0 < N →
    ∑ k ∈ Finset.range B, ‖val (bin T s N z fuel B x k) - Spec.dft s B (fun n => val (x n)) k‖ ^ 2 ≤
      ((1 + u) ^ budget t fuel B - 1) ^ 2 * (B * ∑ n ∈ Finset.range B, ‖val (x n)‖ ^ 2) := by
  have u0 := H.nonneg
  induction fuel with
  | zero => intro B x hf hB; have := hB.1; omega
  | succ fuel ih =>
    intro B x hf hB hd hNpos
    have hBpos := hB.1
    have hBL : B ≤ L := (Nat.le_of_dvd hNpos hd).trans hN
    unfold bin budget
    simp only
    by_cases h1 : split B = 1
    · have hB1 := hB.split_one h1
      subst hB1
      simp [h1, Spec.dft, Spec.unit_zero]
    · simp only [if_neg h1]
      have hsp := (split_cases B).resolve_left h1
      by_cases h2 : split B = B
      · simp only [if_pos h2]
        have hR : B ∈ radices := h2 ▸ hsp.1
        have := step H hT s hs B 1 hR hBL hBpos one_pos (fun n => val (x n)) (fun j _ => x j) (fun j _ => x j) (fun k => (FFT.dft T s B x).getD k 0) 0 0 (by
            intro j hj
            simp [Spec.dft, Spec.unit_zero]) (by
            intro k hk j hj
            obtain rfl : k = 0 := by omega
            rw [Nat.zero_mul, Spec.unit_zero, one_mul]
            exact ⟨by simp, le_rfl⟩) (by
            intro k hk a ha
            obtain rfl : k = 0 := by omega
            rw [Nat.zero_add, Nat.mul_one, List.getD_eq_getElem?_getD, List.getElem?_eq_getElem (by rw [dft_length T s B hR]; exact ha)]
            rfl)
        simpa using this
      · simp only [if_neg h2]
        obtain ⟨Q, hQ⟩ := hsp.2
        have hR := hsp.1
        generalize split B = R at *
        subst hQ
        have hRpos : 0 < R := Nat.pos_of_ne_zero (by rintro rfl; simp at hBpos)
        have hQpos : 0 < Q := Nat.pos_of_ne_zero (by rintro rfl; simp at hBpos)
        have hQlt : Q < R * Q := by
          have : 2 ≤ R := by omega
          nlinarith
        have hdiv : R * Q / R = Q := Nat.mul_div_cancel_left _ hRpos
        rw [hdiv]
        obtain ⟨S, hS⟩ := hd
        have hSpos : 0 < S := Nat.pos_of_ne_zero (by rintro rfl; omega)
        have hNS : N / (R * Q) = S := by rw [hS]; exact Nat.mul_div_cancel_left _ hBpos
        rw [hNS]
        have := step H hT s hs R Q hR ((Nat.le_mul_of_pos_right R hQpos).trans hBL) hRpos hQpos (fun n => val (x n)) (fun j k => bin T s N z fuel Q (fun m => x (j + m * R)) k)
          (fun j k => if j = 0 then bin T s N z fuel Q (fun m => x (0 + m * R)) k else z.getD (k * (j * S)) 0 * bin T s N z fuel Q (fun m => x (j + m * R)) k)
          (fun k => (FFT.dft T s R fun a => if a = 0 then bin T s N z fuel Q (fun m => x (0 + m * R)) (k % Q) else
            z.getD (k % Q * (a * S)) 0 * bin T s N z fuel Q (fun m => x (a + m * R)) (k % Q)).getD (k / Q) 0) (budget t fuel Q) (2 * t + 5)
          (fun j hj => ih Q (fun m => x (j + m * R)) (by omega) (hB.of_dvd (Dvd.intro_left R rfl)) ⟨R * S, by rw [hS]; ring⟩ hNpos)
          (by
            intro k hk j hj
            by_cases hj0 : j = 0
            · subst hj0
              rw [if_pos rfl, Nat.mul_zero, Spec.unit_zero, one_mul]
              refine ⟨?_, le_rfl⟩
              rw [sub_self, norm_zero]
              exact mul_nonneg (pow_nonneg' u u0 _) (norm_nonneg _)
            · rw [if_neg hj0]
              have hlt : k * (j * S) < N := by
                rw [hS, ← Nat.mul_assoc]
                apply Nat.mul_lt_mul_of_pos_right _ hSpos
                calc k * j ≤ k * R := Nat.mul_le_mul_left _ hj.le
                  _ < Q * R := Nat.mul_lt_mul_of_pos_right hk hRpos
                  _ = R * Q := Nat.mul_comm _ _
              have hw := hz _ hlt
              rw [show Spec.unit s N (k * (j * S)) = Spec.unit s (R * Q) (k * j) by rw [hS, ← Nat.mul_assoc, Spec.unit_scale s _ _ _ hSpos]] at hw
              have hn : Near val u 0 ‖val (bin T s N z fuel Q (fun m => x (j + m * R)) k)‖ (bin T s N z fuel Q (fun m => x (j + m * R)) k) (val (bin T s N z fuel Q (fun m => x (j + m * R)) k)) :=
                ⟨by simp, le_rfl⟩
              exact (hn.mul H _ (norm_unit _ _ _).le hw).mono u0 (by omega) le_rfl)
          (by
            intro k hk a ha
            have e3 : (k + a * Q) % Q = k := by rw [Nat.add_mul_mod_self_right, Nat.mod_eq_of_lt hk]
            have e4 : (k + a * Q) / Q = a := by rw [Nat.add_mul_div_right _ _ hQpos, Nat.div_eq_of_lt hk, Nat.zero_add]
            simp only [e3, e4]
            rw [List.getD_eq_getElem?_getD, List.getElem?_eq_getElem (by rw [dft_length T s R hR]; exact ha)]
            rfl)
        exact this

end

end Energy

/-- The number of roundings that `C129` allows for a transform of size `N`: some for every prime factor, counted with multiplicity. -/
def Spec.roundingsRms (t N : ℕ) : ℕ := (N.primeFactorsList.map fun p => if p = 2 then 4 * t + 20 else (Nat.sqrt p + 1) * (p + 4 * t + 10)).sum

/-- The root of the sum of the squares of the first `N` numbers. -/
noncomputable def Spec.rss (N : ℕ) (x : ℕ → ℂ) : ℝ := √(∑ n ∈ Finset.range N, ‖x n‖ ^ 2)

namespace Energy

theorem rss_nonneg (N : ℕ) (x : ℕ → ℂ) : 0 ≤ rss N x := Real.sqrt_nonneg _

theorem rss_sq (N : ℕ) (x : ℕ → ℂ) : rss N x ^ 2 = ∑ n ∈ Finset.range N, ‖x n‖ ^ 2 := Real.sq_sqrt (Finset.sum_nonneg fun _ _ => sq_nonneg _)

theorem rss_congr (N : ℕ) (x y : ℕ → ℂ) (h : ∀ n < N, x n = y n) : rss N x = rss N y := by
  unfold rss
  rw [Finset.sum_congr rfl fun n hn => by rw [h n (Finset.mem_range.mp hn)]]

theorem rss_le (N : ℕ) (x y z : ℕ → ℂ) (h : ∀ n < N, ‖x n‖ ≤ ‖y n‖ + ‖z n‖) : rss N x ≤ rss N y + rss N z := by
  have := triangle N (fun n => ‖x n‖) (fun n => ‖y n‖) (fun n => ‖z n‖) (rss N y) (rss N z) 1 (rss_nonneg _ _) (rss_nonneg _ _) (by norm_num) (fun _ _ => norm_nonneg _) h
    (by rw [rss_sq, mul_one]) (by rw [rss_sq, mul_one])
  rw [mul_one] at this
  exact Real.sqrt_le_iff.mpr ⟨add_nonneg (rss_nonneg _ _) (rss_nonneg _ _), this⟩

theorem rss_sub (N : ℕ) (x y z : ℕ → ℂ) : rss N (fun n => x n - z n) ≤ rss N (fun n => x n - y n) + rss N (fun n => y n - z n) :=
  rss_le N _ _ _ fun n _ => by
    have := norm_add_le (x n - y n) (y n - z n)
    rwa [sub_add_sub_cancel] at this

theorem rss_add (N : ℕ) (x y : ℕ → ℂ) : rss N x ≤ rss N (fun n => x n - y n) + rss N y :=
  rss_le N _ _ _ fun n _ => by
    have := norm_add_le (x n - y n) (y n)
    rwa [sub_add_cancel] at this

theorem rss_dft (s : ℤ) (hs : s = 1 ∨ s = -1) (N : ℕ) (x : ℕ → ℂ) : rss N (Spec.dft s N x) = √N * rss N x := by
  unfold rss
  rw [parseval s hs, Real.sqrt_mul (by positivity)]

theorem rss_le_of_sq (N : ℕ) (x : ℕ → ℂ) (c : ℝ) (hc : 0 ≤ c) (h : ∑ n ∈ Finset.range N, ‖x n‖ ^ 2 ≤ c ^ 2) : rss N x ≤ c := Real.sqrt_le_iff.mpr ⟨hc, h⟩

theorem norm_le_rss (N : ℕ) (x : ℕ → ℂ) (n : ℕ) (h : n < N) : ‖x n‖ ≤ rss N x :=
  Real.le_sqrt_of_sq_le (Finset.single_le_sum (f := fun n => ‖x n‖ ^ 2) (fun _ _ => sq_nonneg _) (Finset.mem_range.mpr h))

end Energy

open Energy

section

variable {V : Type} [Zero V] [Add V] [Sub V] [Mul V] [IntCast V] (val : V → ℝ) (u : ℝ)

/-- **C129** In any rounded arithmetic with relative errors up to `u`, and with constants that are off by at most `t` such units, the mean square of the errors of the bins is small compared to the mean square of the
bins themselves: the ratio of the roots is at most `(1 + u)^E - 1`, where `E` is the sum over the prime factors of the size of `4 t + 20` for each two and `(⌊√p⌋ + 1) (p + 4 t + 10)` for each odd `p`. Unlike that
of `C67`, this bound does not compare the errors with the sum of the magnitudes of the inputs, which may be larger by the root of the size. -/
theorem C129_rms (hR : RoundedMul V val u) (hu0 : 0 ≤ u) (hu : u ≤ 1 / 10) (T : Trig V) (t L : ℕ) (hT : T.Accurate val u t L) (s : ℤ) (hs : s = 1 ∨ s = -1)
    (N : ℕ) (hN : 0 < N) (hL : N ≤ L) (hp : ∀ p, p.Prime → p ∣ N → p ≤ 31) (out inp : List (Cplx V)) (ho : N ≤ out.length) (hi : N ≤ inp.length) :
    ∃ X : List (Cplx V), call T s N out inp = .ok (X ++ out.drop N) ∧ X.length = N ∧
      rss N (fun k => (X.getD k 0).toComplex val - dft s N (fun n => (inp.getD n 0).toComplex val) k) ≤
        ((1 + u) ^ roundingsRms t N - 1) * rss N (dft s N fun n => (inp.getD n 0).toComplex val) := by
  have H := roundedComplex hR hu0 hu
  obtain ⟨X, e, l, h⟩ := call_of_bins T s N out inp ho (fun k r => r = bin T s N (factors T s N) N N (fun n => inp.getD n 0) k)
    (dit_bin T s N hN hp out inp (factors T s N) ho (by simp [factors]) _ (fun n hn => by
      rw [List.getD_eq_getElem?_getD, List.getElem?_eq_getElem (by omega)]
      rfl))
  refine ⟨X, e, l, ?_⟩
  have key := bin_error H hT s hs N hL (factors T s N) (fun l hl => by
      have := factor_near H hT s hs N l hl hL
      unfold factors
      rw [List.getD_eq_getElem?_getD, List.getElem?_map, List.getElem?_range hl]
      exact this) N N (fun n => inp.getD n 0) le_rfl ⟨hN, hp⟩ dvd_rfl hN
  rw [rss_dft s hs]
  refine rss_le_of_sq _ _ _ (mul_nonneg (pow_nonneg' u hu0 _) (mul_nonneg (Real.sqrt_nonneg _) (rss_nonneg _ _))) ?_
  rw [Finset.sum_congr rfl fun k hk => by rw [h k (Finset.mem_range.mp hk)]]
  refine key.trans ?_
  have h1 : (1 + u) ^ Energy.budget t N N - 1 ≤ (1 + u) ^ roundingsRms t N - 1 := sub_le_sub_right (pow_le_pow_right₀ (by linarith) (Energy.budget_le t N N hN)) 1
  have h0 := pow_nonneg' u hu0 (Energy.budget t N N)
  rw [mul_pow, mul_pow, Real.sq_sqrt (by positivity), rss_sq]
  gcongr

/-- **C129** So the energy of the computed bins is the number of bins times that of the inputs, up to rounding. -/
theorem C129_energy (hR : RoundedMul V val u) (hu0 : 0 ≤ u) (hu : u ≤ 1 / 10) (T : Trig V) (t L : ℕ) (hT : T.Accurate val u t L) (s : ℤ) (hs : s = 1 ∨ s = -1)
    (N : ℕ) (hN : 0 < N) (hL : N ≤ L) (hp : ∀ p, p.Prime → p ∣ N → p ≤ 31) (out inp : List (Cplx V)) (ho : N ≤ out.length) (hi : N ≤ inp.length) :
    ∃ X : List (Cplx V), call T s N out inp = .ok (X ++ out.drop N) ∧ X.length = N ∧
      |rss N (fun k => (X.getD k 0).toComplex val) - √N * rss N (fun n => (inp.getD n 0).toComplex val)| ≤
        ((1 + u) ^ roundingsRms t N - 1) * (√N * rss N (fun n => (inp.getD n 0).toComplex val)) := by
  obtain ⟨X, e, l, h⟩ := C129_rms val u hR hu0 hu T t L hT s hs N hN hL hp out inp ho hi
  refine ⟨X, e, l, ?_⟩
  rw [← rss_dft s hs]
  refine le_trans ?_ h
  rw [abs_le]
  constructor
  · have := rss_le N (dft s N fun n => (inp.getD n 0).toComplex val) (fun k => (X.getD k 0).toComplex val - dft s N (fun n => (inp.getD n 0).toComplex val) k) (fun k => (X.getD k 0).toComplex val)
      (fun k _ => by
        have := norm_sub_le ((X.getD k 0).toComplex val) ((X.getD k 0).toComplex val - dft s N (fun n => (inp.getD n 0).toComplex val) k)
        rw [sub_sub_cancel] at this
        linarith)
    linarith
  · have := rss_add N (fun k => (X.getD k 0).toComplex val) (dft s N fun n => (inp.getD n 0).toComplex val)
    linarith

/-- **C129** Forward and backward transform give the input back, times the size: the error is small compared to the input as a whole. -/
theorem C129_round_trip (hR : RoundedMul V val u) (hu0 : 0 ≤ u) (hu : u ≤ 1 / 10) (T : Trig V) (t L : ℕ) (hT : T.Accurate val u t L) (s : ℤ) (hs : s = 1 ∨ s = -1)
    (N : ℕ) (hN : 0 < N) (hL : N ≤ L) (hp : ∀ p, p.Prime → p ∣ N → p ≤ 31) (out tmp inp : List (Cplx V)) (ho : N ≤ out.length) (ht : N ≤ tmp.length) (hi : N ≤ inp.length) :
    ∃ X Y : List (Cplx V), call T s N tmp inp = .ok X ∧ call T (-s) N out X = .ok Y ∧
      rss N (fun n => (Y.getD n 0).toComplex val - N * (inp.getD n 0).toComplex val) ≤ ((1 + u) ^ (2 * roundingsRms t N) - 1) * (N * rss N fun n => (inp.getD n 0).toComplex val) := by
  obtain ⟨X, e1, l1, h1⟩ := C129_rms val u hR hu0 hu T t L hT s hs N hN hL hp tmp inp ht hi
  obtain ⟨Y, e2, l2, h2⟩ := C129_rms val u hR hu0 hu T t L hT (-s) (by omega) N hN hL hp out (X ++ tmp.drop N) ho (by simp [l1])
  refine ⟨_, _, e1, e2, ?_⟩
  have hX : ∀ k < N, (X ++ tmp.drop N).getD k 0 = X.getD k 0 := by
    intro k hk
    rw [List.getD_eq_getElem?_getD, List.getD_eq_getElem?_getD, List.getElem?_append_left (by omega)]
  have hY : ∀ k < N, (Y ++ out.drop N).getD k 0 = Y.getD k 0 := by
    intro k hk
    rw [List.getD_eq_getElem?_getD, List.getD_eq_getElem?_getD, List.getElem?_append_left (by omega)]
  set x := fun n => (inp.getD n 0).toComplex val with hx
  set x' := fun k => (X.getD k 0).toComplex val with hx'
  have hs' : -s = 1 ∨ -s = -1 := by omega
  have c1 : ∀ k, dft (-s) N (fun n => ((X ++ tmp.drop N).getD n 0).toComplex val) k = dft (-s) N x' k := fun k => Spec.dft_congr (-s) N _ _ k fun n hn => by rw [hX n hn]
  rw [rss_congr N _ (fun k => (Y.getD k 0).toComplex val - dft (-s) N x' k) (fun k _ => by rw [c1 k]), rss_congr N _ (dft (-s) N x') (fun k _ => c1 k), rss_dft _ hs'] at h2
  rw [rss_congr N _ (fun n => (Y.getD n 0).toComplex val - N * x n) (fun n hn => by rw [hY n hn])]
  set E := (1 + u) ^ roundingsRms t N with hE
  have hE1 : 0 ≤ E - 1 := pow_nonneg' u hu0 _
  rw [rss_dft s hs] at h1
  have sN : √(N : ℝ) * √(N : ℝ) = N := Real.mul_self_sqrt (by positivity)
  have h3 : rss N (fun n => dft (-s) N x' n - N * x n) ≤ √N * ((E - 1) * (√N * rss N x)) := by
    rw [rss_congr N _ (dft (-s) N fun k => x' k - dft s N x k) (fun n hn => by rw [← dft_dft s hs N x n hn, dft_sub]), rss_dft _ hs']
    exact mul_le_mul_of_nonneg_left h1 (Real.sqrt_nonneg _)
  have h4 : rss N x' ≤ E * (√N * rss N x) := by
    have := rss_add N x' (dft s N x)
    rw [rss_dft s hs] at this
    linarith
  have h5 := rss_sub N (fun n => (Y.getD n 0).toComplex val) (dft (-s) N x') (fun n => N * x n)
  calc _ ≤ _ := h5
    _ ≤ (E - 1) * (√N * (E * (√N * rss N x))) + √N * ((E - 1) * (√N * rss N x)) := add_le_add (h2.trans (by gcongr)) h3
    _ = (E - 1) * (E + 1) * (√N * √N * rss N x) := by ring
    _ = _ := by rw [sN, two_mul, pow_add, ← hE]; ring

end

/-! ### Binary floating point -/

namespace Energy

theorem roundings_le (N : ℕ) (hN : 0 < N) (hp : ∀ p, p.Prime → p ∣ N → p ≤ 31) : 2 ^ roundingsRms 9 N ≤ N ^ 94 := by
  have key : ∀ l : List ℕ, (∀ p ∈ l, p.Prime ∧ p ≤ 31) → 2 ^ (l.map fun p => if p = 2 then 4 * 9 + 20 else (Nat.sqrt p + 1) * (p + 4 * 9 + 10)).sum ≤ l.prod ^ 94 := by
    intro l
    induction l with
    | nil => intro _; simp
    | cons p l ih =>
      intro h
      rw [List.map_cons, List.sum_cons, List.prod_cons, pow_add, mul_pow]
      refine Nat.mul_le_mul ?_ (ih fun q hq => h q (List.mem_cons_of_mem _ hq))
      obtain ⟨h1, h2⟩ := h p (List.mem_cons_self)
      have := h1.two_le
      have all : ∀ p ∈ [2, 3, 5, 7, 11, 13, 17, 19, 23, 29, 31], 2 ^ (if p = 2 then 4 * 9 + 20 else (Nat.sqrt p + 1) * (p + 4 * 9 + 10)) ≤ p ^ 94 := by decide +kernel
      refine all p ?_
      clear all ih h
      interval_cases p <;> first | decide | (exfalso; revert h1; decide)
  have := key N.primeFactorsList fun p h => ⟨Nat.prime_of_mem_primeFactorsList h, hp p (Nat.prime_of_mem_primeFactorsList h) (Nat.dvd_of_mem_primeFactorsList h)⟩
  rwa [Nat.prod_primeFactorsList hN.ne'] at this

theorem roundings_log (N : ℕ) (hN : 0 < N) (hp : ∀ p, p.Prime → p ∣ N → p ≤ 31) : (roundingsRms 9 N : ℝ) ≤ 94 * Real.logb 2 N := by
  have h : (2 : ℝ) ^ roundingsRms 9 N ≤ (N : ℝ) ^ 94 := by exact_mod_cast roundings_le N hN hp
  have h' := (Real.logb_le_logb (by norm_num : (1 : ℝ) < 2) (by positivity) (by positivity)).mpr h
  rw [Real.logb_pow, Real.logb_pow, Real.logb_self_eq_one (by norm_num)] at h'
  simpa using h'

theorem roundings_bound (N : ℕ) (hN : 0 < N) (hL : N ≤ 268435455) (hp : ∀ p, p.Prime → p ∣ N → p ≤ 31) : roundingsRms 9 N ≤ 2632 := by
  have h := roundings_le N hN hp
  have h2 : N ^ 94 ≤ (2 ^ 28) ^ 94 := Nat.pow_le_pow_left (by omega) 94
  rw [← pow_mul] at h2
  have h3 := (Nat.pow_le_pow_iff_right (by norm_num : 1 < 2)).mp (h.trans h2)
  omega

/-- The units in the last place that a power of `1 + 2^-p` stands for. -/
theorem units (p N c : ℕ) (hN : 0 < N) (hL : N ≤ 268435455) (hp : ∀ q, q.Prime → q ∣ N → q ≤ 31) (hb : c * 2632 ≤ 2 ^ p) :
    (1 + (1 : ℝ) / 2 ^ p) ^ (c * roundingsRms 9 N) - 1 ≤ 188 * c * Real.logb 2 N / 2 ^ p := by
  have h1 : ((c * roundingsRms 9 N : ℕ) : ℝ) ≤ 2 ^ p := by
    exact_mod_cast (Nat.mul_le_mul_left c (roundings_bound N hN hL hp)).trans hb
  have h2 := pow_sub_one_le (1 / 2 ^ p) (by positivity) (c * roundingsRms 9 N) (by
    rw [mul_one_div, div_le_one (by positivity)]
    exact h1)
  refine h2.trans ?_
  have h3 := roundings_log N hN hp
  rw [mul_one_div]
  push_cast
  have : 2 * ((c : ℝ) * (roundingsRms 9 N : ℝ)) ≤ 188 * c * Real.logb 2 N := by nlinarith [Nat.cast_nonneg (α := ℝ) c]
  gcongr

end Energy

/-- **C129** The code as it is, in floating point with `p` bits: relative to the bins as a whole, the errors are at most `188 log2(N) / 2^p`. -/
theorem C129_code (l p : ℕ) [NeZero p] (hp : 12 ≤ p) (hp' : p ≤ 53) (hl : p ≤ l) (s : ℤ) (hs : s = 1 ∨ s = -1) (N : ℕ) (hN : 0 < N) (hL : N ≤ 268435455)
    (hN' : ∀ q, q.Prime → q ∣ N → q ≤ 31) (out inp : List (Cplx (Binary p))) (ho : N ≤ out.length) (hi : N ≤ inp.length) :
    ∃ X : List (Cplx (Binary p)), call (Trig.binary l p) s N out inp = .ok (X ++ out.drop N) ∧ X.length = N ∧
      rss N (fun k => (X.getD k 0).toComplex (fun a => (a.val : ℝ)) - dft s N (fun n => (inp.getD n 0).toComplex fun a => (a.val : ℝ)) k) ≤
        188 * Real.logb 2 N / 2 ^ p * rss N (dft s N fun n => (inp.getD n 0).toComplex fun a => (a.val : ℝ)) := by
  have hu : (1 : ℝ) / 2 ^ p ≤ 1 / 10 := by
    calc (1 : ℝ) / 2 ^ p ≤ 1 / 2 ^ 4 := by gcongr; norm_num; omega
      _ ≤ _ := by norm_num
  obtain ⟨X, e, hX, h⟩ := C129_rms _ _ (binary_roundedMul p) (by positivity) hu _ 9 _ (Trig.binary_accurate l p (by omega) hp' hl) s hs N hN hL hN' out inp ho hi
  refine ⟨X, e, hX, h.trans ?_⟩
  have := units p N 1 hN hL hN' ((by norm_num : 1 * 2632 ≤ 2 ^ 12).trans (Nat.pow_le_pow_right (by norm_num) hp))
  rw [one_mul, Nat.cast_one, mul_one] at this
  exact mul_le_mul_of_nonneg_right this (rss_nonneg _ _)

/-- **C129** And those of going forth and back at most `376 log2(N) / 2^p`, relative to the input as a whole. -/
theorem C129_code_round_trip (l p : ℕ) [NeZero p] (hp : 13 ≤ p) (hp' : p ≤ 53) (hl : p ≤ l) (s : ℤ) (hs : s = 1 ∨ s = -1) (N : ℕ) (hN : 0 < N) (hL : N ≤ 268435455)
    (hN' : ∀ q, q.Prime → q ∣ N → q ≤ 31) (out tmp inp : List (Cplx (Binary p))) (ho : N ≤ out.length) (ht : N ≤ tmp.length) (hi : N ≤ inp.length) :
    ∃ X Y : List (Cplx (Binary p)), call (Trig.binary l p) s N tmp inp = .ok X ∧ call (Trig.binary l p) (-s) N out X = .ok Y ∧
      rss N (fun n => (Y.getD n 0).toComplex (fun a => (a.val : ℝ)) - N * (inp.getD n 0).toComplex (fun a => (a.val : ℝ))) ≤
        376 * Real.logb 2 N / 2 ^ p * (N * rss N fun n => (inp.getD n 0).toComplex fun a => (a.val : ℝ)) := by
  have hu : (1 : ℝ) / 2 ^ p ≤ 1 / 10 := by
    calc (1 : ℝ) / 2 ^ p ≤ 1 / 2 ^ 4 := by gcongr; norm_num; omega
      _ ≤ _ := by norm_num
  obtain ⟨X, Y, e1, e2, h⟩ := C129_round_trip _ _ (binary_roundedMul p) (by positivity) hu _ 9 _ (Trig.binary_accurate l p (by omega) hp' hl) s hs N hN hL hN' out tmp inp ho ht hi
  refine ⟨X, Y, e1, e2, h.trans ?_⟩
  have := units p N 2 hN hL hN' ((by norm_num : 2 * 2632 ≤ 2 ^ 13).trans (Nat.pow_le_pow_right (by norm_num) hp))
  refine mul_le_mul_of_nonneg_right (this.trans (le_of_eq ?_)) (mul_nonneg (by positivity) (rss_nonneg _ _))
  push_cast
  ring

/-- Single precision, 1024 bins: forth and back, the signal as a whole is kept to four parts in ten thousand. -/
example (inp : List (Cplx (Binary 24))) (h : inp.length = 1024) : ∃ X Y, call (Trig.binary 64 24) (-1) 1024 (List.replicate 1024 0) inp = .ok X ∧
    call (Trig.binary 64 24) 1 1024 (List.replicate 1024 0) X = .ok Y ∧
    rss 1024 (fun n => (Y.getD n 0).toComplex (fun a => (a.val : ℝ)) - 1024 * (inp.getD n 0).toComplex (fun a => (a.val : ℝ))) ≤
      4 / 10000 * (1024 * rss 1024 fun n => (inp.getD n 0).toComplex fun a => (a.val : ℝ)) := by
  obtain ⟨X, Y, e1, e2, hX⟩ := C129_code_round_trip 64 24 (by norm_num) (by norm_num) (by norm_num) (-1) (Or.inr rfl) 1024 (by norm_num) (by norm_num) (by
    intro q hq hd
    have := (Nat.prime_dvd_prime_iff_eq hq Nat.prime_two).mp (hq.dvd_of_dvd_pow (show q ∣ 2 ^ 10 from hd))
    omega) (List.replicate 1024 0) (List.replicate 1024 0) inp (by rw [List.length_replicate]) (by rw [List.length_replicate]) h.ge
  refine ⟨X, Y, e1, e2, ?_⟩
  have e : Real.logb 2 ((1024 : ℕ) : ℝ) = 10 := by
    rw [show ((1024 : ℕ) : ℝ) = 2 ^ 10 by norm_num, Real.logb_pow, Real.logb_self_eq_one (by norm_num)]
    norm_num
  rw [e] at hX
  push_cast at hX
  refine hX.trans (mul_le_mul_of_nonneg_right (by norm_num) (mul_nonneg (by norm_num) (rss_nonneg _ _)))

end DSP
