import Verif.Lemmas.NearFFT
import Verif.Lemmas.Base
import Mathlib.Data.Nat.Factors
import Mathlib.Tactic.NormNum.Prime
import Mathlib.Algebra.BigOperators.Group.List.Basic

/-!
# The decimation in time recursion
-/

namespace DSP
namespace FFT

theorem foldlM_inv {β : Type} (P : ℕ → β → Prop) (f : β → ℕ → M β) (n : ℕ) (b : β) (h0 : P 0 b)
    (h : ∀ a < n, ∀ b, P a b → ∃ b', f b a = .ok b' ∧ P (a + 1) b') : ∃ b', (List.range n).foldlM f b = .ok b' ∧ P n b' := by
  induction n with
  | zero => exact ⟨b, rfl, h0⟩
  | succ n ih =>
    obtain ⟨b', e, hb⟩ := ih (fun a ha => h a (by omega))
    obtain ⟨b'', e2, hb2⟩ := h n (by omega) b' hb
    refine ⟨b'', ?_, hb2⟩
    rw [List.range_succ, List.foldlM_append, e]
    simp [List.foldlM_cons, bind, Except.bind, e2, pure, Except.pure]

theorem mapM_ok {β γ : Type} (f : β → M γ) (g : β → γ) (l : List β) (h : ∀ a ∈ l, f a = .ok (g a)) : l.mapM f = .ok (l.map g) := by
  induction l with
  | nil => rfl
  | cons a l ih =>
    rw [List.mapM_cons, h a (by simp), ih (fun b hb => h b (by simp [hb]))]
    rfl

theorem rd_some {a : List α} {i : ℕ} {v : α} (h : a[i]? = some v) : rd a (i : Int) = .ok v := by
  unfold rd
  rw [if_pos (by omega), Int.toNat_natCast, h]

theorem getD_map_range {A : Type} (f : ℕ → A) (n a : ℕ) (d : A) (h : a < n) : ((List.range n).map f).getD a d = f a := by
  simp [List.getD, h]

theorem store_ok {A : Type} [Zero A] (out : List A) (o step : ℕ) (hs : 0 < step) (y : List A) (hlen : ∀ a < y.length, o + a * step < out.length) :
    ∃ out', store out o step y = .ok out' ∧ out'.length = out.length ∧
      (∀ a < y.length, out'[o + a * step]? = y[a]?) ∧ (∀ j, (∀ a < y.length, j ≠ o + a * step) → out'[j]? = out[j]?) := by
  unfold store
  obtain ⟨b', e, h1, h2, h3⟩ := foldlM_inv (fun a (b : List A) => b.length = out.length ∧
      (∀ a' < a, b[o + a' * step]? = y[a']?) ∧ (∀ j, (∀ a' < a, j ≠ o + a' * step) → b[j]? = out[j]?))
    (fun out a => wr out ((o + a * step : ℕ) : Int) (y.getD a 0)) y.length out ⟨rfl, by simp, by simp⟩ (by
      rintro a ha b ⟨h1, h2, h3⟩
      refine ⟨_, wr_nat (by rw [h1]; exact hlen a ha), by simp [h1], ?_, ?_⟩
      · intro a' ha'
        rw [List.getElem?_set]
        by_cases e : a' = a
        · subst e
          rw [if_pos rfl, if_pos (by rw [h1]; exact hlen a' ha), List.getD_eq_getElem?_getD, List.getElem?_eq_getElem ha]
          rfl
        · rw [if_neg, h2 a' (by omega)]
          intro h
          exact e (Nat.eq_of_mul_eq_mul_right hs (by omega)).symm
      · intro j hj
        rw [List.getElem?_set, if_neg (fun h => hj a (by omega) h.symm)]
        exact h3 j (fun a' ha' => hj a' (by omega)))
  exact ⟨b', e, h1, h2, h3⟩

/-! ### The size dispatch -/

theorem split_cases (N : ℕ) : split N = 1 ∨ (split N ∈ radices ∧ split N ∣ N) := by
  unfold split
  by_cases h31 : N % 31 = 0
  · rw [if_pos h31]; exact Or.inr ⟨by decide, Nat.dvd_of_mod_eq_zero h31⟩
  rw [if_neg h31]
  by_cases h29 : N % 29 = 0
  · rw [if_pos h29]; exact Or.inr ⟨by decide, Nat.dvd_of_mod_eq_zero h29⟩
  rw [if_neg h29]
  by_cases h23 : N % 23 = 0
  · rw [if_pos h23]; exact Or.inr ⟨by decide, Nat.dvd_of_mod_eq_zero h23⟩
  rw [if_neg h23]
  by_cases h19 : N % 19 = 0
  · rw [if_pos h19]; exact Or.inr ⟨by decide, Nat.dvd_of_mod_eq_zero h19⟩
  rw [if_neg h19]
  by_cases h17 : N % 17 = 0
  · rw [if_pos h17]; exact Or.inr ⟨by decide, Nat.dvd_of_mod_eq_zero h17⟩
  rw [if_neg h17]
  by_cases h13 : N % 13 = 0
  · rw [if_pos h13]; exact Or.inr ⟨by decide, Nat.dvd_of_mod_eq_zero h13⟩
  rw [if_neg h13]
  by_cases h11 : N % 11 = 0
  · rw [if_pos h11]; exact Or.inr ⟨by decide, Nat.dvd_of_mod_eq_zero h11⟩
  rw [if_neg h11]
  by_cases h7 : N % 7 = 0
  · rw [if_pos h7]; exact Or.inr ⟨by decide, Nat.dvd_of_mod_eq_zero h7⟩
  rw [if_neg h7]
  by_cases h5 : N % 5 = 0
  · rw [if_pos h5]; exact Or.inr ⟨by decide, Nat.dvd_of_mod_eq_zero h5⟩
  rw [if_neg h5]
  by_cases h3 : N % 3 = 0
  · rw [if_pos h3]; exact Or.inr ⟨by decide, Nat.dvd_of_mod_eq_zero h3⟩
  rw [if_neg h3]
  by_cases h8 : N % 8 = 0 ∧ pow8 N = true
  · rw [if_pos h8]; exact Or.inr ⟨by decide, Nat.dvd_of_mod_eq_zero h8.1⟩
  rw [if_neg h8]
  by_cases h8' : N % 8 = 0 ∧ pow8 (N / 2) = true
  · rw [if_pos h8']; exact Or.inr ⟨by decide, by omega⟩
  rw [if_neg h8']
  by_cases h4 : N % 4 = 0 ∧ pow4 N = true
  · rw [if_pos h4]; exact Or.inr ⟨by decide, Nat.dvd_of_mod_eq_zero h4.1⟩
  rw [if_neg h4]
  by_cases h2 : N % 2 = 0
  · rw [if_pos h2]; exact Or.inr ⟨by decide, Nat.dvd_of_mod_eq_zero h2⟩
  rw [if_neg h2]
  exact Or.inl rfl

theorem split_one (N : ℕ) (h : split N = 1) (p : ℕ) (hp : p.Prime) (hd : p ∣ N) : 31 < p := by
  by_contra hlt
  have hlt : p ≤ 31 := by omega
  unfold split at h
  by_cases h31 : N % 31 = 0
  · rw [if_pos h31] at h; omega
  rw [if_neg h31] at h
  by_cases h29 : N % 29 = 0
  · rw [if_pos h29] at h; omega
  rw [if_neg h29] at h
  by_cases h23 : N % 23 = 0
  · rw [if_pos h23] at h; omega
  rw [if_neg h23] at h
  by_cases h19 : N % 19 = 0
  · rw [if_pos h19] at h; omega
  rw [if_neg h19] at h
  by_cases h17 : N % 17 = 0
  · rw [if_pos h17] at h; omega
  rw [if_neg h17] at h
  by_cases h13 : N % 13 = 0
  · rw [if_pos h13] at h; omega
  rw [if_neg h13] at h
  by_cases h11 : N % 11 = 0
  · rw [if_pos h11] at h; omega
  rw [if_neg h11] at h
  by_cases h7 : N % 7 = 0
  · rw [if_pos h7] at h; omega
  rw [if_neg h7] at h
  by_cases h5 : N % 5 = 0
  · rw [if_pos h5] at h; omega
  rw [if_neg h5] at h
  by_cases h3 : N % 3 = 0
  · rw [if_pos h3] at h; omega
  rw [if_neg h3] at h
  by_cases h8 : N % 8 = 0 ∧ pow8 N = true
  · rw [if_pos h8] at h; omega
  rw [if_neg h8] at h
  by_cases h8' : N % 8 = 0 ∧ pow8 (N / 2) = true
  · rw [if_pos h8'] at h; omega
  rw [if_neg h8'] at h
  by_cases h4 : N % 4 = 0 ∧ pow4 N = true
  · rw [if_pos h4] at h; omega
  rw [if_neg h4] at h
  by_cases h2 : N % 2 = 0
  · rw [if_pos h2] at h; omega
  rw [if_neg h2] at h
  clear h h8 h8' h4
  have := hp.two_le
  have hm := Nat.mod_eq_zero_of_dvd hd
  interval_cases p <;> omega

/-- `N` has no prime factor above 31. -/
def Smooth (N : ℕ) : Prop := 0 < N ∧ ∀ p, p.Prime → p ∣ N → p ≤ 31

theorem Smooth.of_dvd {N Q : ℕ} (h : Smooth N) (hd : Q ∣ N) : Smooth Q :=
  ⟨Nat.pos_of_dvd_of_pos hd h.1, fun p hp h1 => h.2 p hp (h1.trans hd)⟩

theorem Smooth.split_one {N : ℕ} (h : Smooth N) (hs : split N = 1) : N = 1 := by
  by_contra hne
  obtain ⟨p, hp, hd⟩ := Nat.exists_prime_and_dvd hne
  have := FFT.split_one N hs p hp hd
  have := h.2 p hp hd
  omega

/-! ### The recursion -/

/-- The roundings on the way through the recursion of `dit`: those of the butterflies and of the multiplications by the factors. -/
def budget (t : ℕ) : ℕ → ℕ → ℕ
  | 0, _ => 0
  | fuel + 1, B => if split B = 1 then 0 else if split B = B then cost t B else budget t fuel (B / split B) + (2 * t + 5) + cost t (split B)

/-- A bound of the budget by the prime factors of the size. -/
def weight (t p : ℕ) : ℕ := if p = 2 then 2 * t + 7 else p + 4 * t + 10

theorem cost_le (t R : ℕ) (hR : R ∈ radices) : 2 * t + 5 + cost t R ≤ (R.primeFactorsList.map (weight t)).sum := by
  simp only [radices, List.mem_cons, List.not_mem_nil, or_false] at hR
  have hp : ∀ p, p.Prime → 2 * t + 5 + cost t p ≤ weight t p → 2 * t + 5 + cost t p ≤ (p.primeFactorsList.map (weight t)).sum := by
    intro p h1 h2
    rw [Nat.primeFactorsList_prime h1, List.map_singleton, List.sum_singleton]
    exact h2
  rcases hR with h | h | h | h | h | h | h | h | h | h | h | h | h <;> subst h
  · exact hp 2 (by norm_num) (by simp [cost, weight])
  · exact hp 3 (by norm_num) (by simp [cost, weight]; omega)
  · rw [show 4 = 2 ^ 2 by norm_num, Nat.Prime.primeFactorsList_pow (by norm_num)]
    simp [cost, weight]
  · exact hp 5 (by norm_num) (by simp [cost, weight]; omega)
  · exact hp 7 (by norm_num) (by simp [cost, weight]; omega)
  · rw [show 8 = 2 ^ 3 by norm_num, Nat.Prime.primeFactorsList_pow (by norm_num)]
    simp [cost, weight]
    omega
  · exact hp 11 (by norm_num) (by simp [cost, weight]; omega)
  · exact hp 13 (by norm_num) (by simp [cost, weight]; omega)
  · exact hp 17 (by norm_num) (by simp [cost, weight]; omega)
  · exact hp 19 (by norm_num) (by simp [cost, weight]; omega)
  · exact hp 23 (by norm_num) (by simp [cost, weight]; omega)
  · exact hp 29 (by norm_num) (by simp [cost, weight]; omega)
  · exact hp 31 (by norm_num) (by simp [cost, weight]; omega)

theorem budget_le (t fuel B : ℕ) (hB : 0 < B) : budget t fuel B ≤ (B.primeFactorsList.map (weight t)).sum := by
  induction fuel generalizing B with
  | zero => exact Nat.zero_le _
  | succ fuel ih =>
    unfold budget
    split_ifs with h1 h2
    · exact Nat.zero_le _
    · have := (split_cases B).resolve_left h1
      rw [h2] at this
      have := cost_le t B this.1
      omega
    · obtain ⟨hR, Q, hQ⟩ := (split_cases B).resolve_left h1
      generalize split B = R at *
      subst hQ
      have hRpos : 0 < R := Nat.pos_of_ne_zero (by rintro rfl; simp at hB)
      have hQpos : 0 < Q := Nat.pos_of_ne_zero (by rintro rfl; simp at hB)
      rw [Nat.mul_div_cancel_left _ hRpos, ((Nat.perm_primeFactorsList_mul hRpos.ne' hQpos.ne').map _).sum_eq, List.map_append, List.sum_append]
      have := cost_le t R hR
      have := ih Q hQpos
      omega

section

variable {V A : Type} [Parts V A] [Zero V] [Add V] [Sub V] [Mul V] [IntCast V] [Zero A] [Add A] [Sub A] [Mul A] [SMul V A]
variable {valV : V → ℝ} {val : A → ℂ} {u : ℝ} (H : RoundedComplex valV val u) {T : Trig V} {t L : ℕ} (hT : T.Accurate valV u t L)
include H hT

theorem dit_near (s : ℤ) (hs : s = 1 ∨ s = -1) (N : ℕ) (hN : N ≤ L) (inp z : List A)
    (hz : ∀ l < N, ∃ w, z[l]? = some w ∧ ‖val w - Spec.unit s N l‖ ≤ (1 + u) ^ (2 * t + 2) - 1) (fuel : ℕ) : ∀ (B S : ℕ) (out : List A) (o i : ℕ) (x : ℕ → A),
    B ≤ fuel → Smooth B → 0 < S → B * S = N → o + B ≤ out.length → (∀ n < B, inp[i + n * S]? = some (x n)) →
    ∃ out', dit T s fuel B S out o inp i z = .ok out' ∧ out'.length = out.length ∧
      (∀ k < B, ∃ r, out'[o + k]? = some r ∧ Near val u (budget t fuel B) (∑ n ∈ Finset.range B, ‖val (x n)‖) r (Spec.dft s B (fun n => val (x n)) k)) ∧
      (∀ j, (j < o ∨ o + B ≤ j) → out'[j]? = out[j]?) := by
  have u0 := H.nonneg
  induction fuel with
  | zero => intro B S out o i x hf hB; have := hB.1; omega
  | succ fuel ih =>
    intro B S out o i x hf hB hS hBS hlen hin
    have hBpos := hB.1
    have hBL : B ≤ L := (Nat.le_of_dvd (hBS ▸ Nat.mul_pos hBpos hS) (Dvd.intro S hBS)).trans hN
    unfold dit budget
    simp only
    by_cases h1 : split B = 1
    · have hB1 := hB.split_one h1
      rw [if_pos h1, if_pos hB1, if_pos h1]
      subst hB1
      have := hin 0 (by omega)
      rw [Nat.zero_mul, Nat.add_zero] at this
      rw [rd_some this]
      simp only [bind, Except.bind]
      refine ⟨_, wr_nat (by omega), by simp, ?_, ?_⟩
      · intro k hk
        have : k = 0 := by omega
        subst this
        refine ⟨x 0, by rw [Nat.add_zero, List.getElem?_set, if_pos rfl, if_pos (by omega)], ?_⟩
        simp [Near, Spec.dft, Spec.unit_zero]
      · intro j hj
        rw [List.getElem?_set, if_neg (by omega)]
    · rw [if_neg h1, if_neg h1]
      have hsp := (split_cases B).resolve_left h1
      by_cases h2 : split B = B
      · rw [if_pos h2, if_pos h2]
        have hR : B ∈ radices := h2 ▸ hsp.1
        rw [h2, mapM_ok _ x _ (fun a ha => rd_some (hin a (List.mem_range.mp ha)))]
        simp only [bind, Except.bind]
        have hl := dft_length T s B hR fun a => ((List.range B).map x).getD a 0
        obtain ⟨out', e, l, h3, h4⟩ := store_ok out o 1 (by norm_num) (dft T s B fun a => ((List.range B).map x).getD a 0) (fun a ha => by omega)
        rw [hl] at h3 h4
        refine ⟨out', e, l, ?_, ?_⟩
        · intro k hk
          have := h3 k hk
          rw [Nat.mul_one] at this
          rw [this]
          have := dft_near H hT (K := 0) s hs B hR hBL (fun a => ((List.range B).map x).getD a 0) (fun n => val (x n)) (fun n => ‖val (x n)‖) (by
            intro j hj
            simp only [getD_map_range x B j 0 hj]
            exact ⟨by simp, le_rfl⟩) k hk
          rw [Nat.zero_add] at this
          exact this
        · intro j hj
          exact h4 j (fun a ha => by omega)
      · rw [if_neg h2, if_neg h2]
        obtain ⟨Q, hQ⟩ := hsp.2
        have hR := hsp.1
        generalize split B = R at *
        subst hQ
        have hRpos : 0 < R := Nat.pos_of_ne_zero (by rintro rfl; simp at hBpos)
        have hQpos : 0 < Q := Nat.pos_of_ne_zero (by rintro rfl; simp at hBpos)
        have hQlt : Q < R * Q := by
          have : 2 ≤ R := by omega
          nlinarith
        have hdiv : R * Q / R = Q := Nat.mul_div_cancel_left _ hRpos
        rw [hdiv]
        -- the sub-transforms
        obtain ⟨out1, e1, l1, p1, q1⟩ := foldlM_inv (fun a (b : List A) => b.length = out.length ∧
            (∀ a' < a, ∀ k < Q, ∃ r, b[o + a' * Q + k]? = some r ∧
              Near val u (budget t fuel Q) (∑ m ∈ Finset.range Q, ‖val (x (a' + m * R))‖) r (Spec.dft s Q (fun m => val (x (a' + m * R))) k)) ∧
            (∀ j, (j < o ∨ o + a * Q ≤ j) → b[j]? = out[j]?))
          (fun out a => dit T s fuel Q (R * S) out (o + a * Q) inp (i + a * S) z) R out ⟨rfl, by simp, by simp⟩ (by
            rintro a ha b ⟨g1, g2, g3⟩
            have haQ : a * Q + Q ≤ R * Q := by
              have : (a + 1) * Q ≤ R * Q := Nat.mul_le_mul_right Q ha
              rwa [Nat.add_mul, Nat.one_mul] at this
            obtain ⟨b', e, m1, m2, m3⟩ := ih Q (R * S) b (o + a * Q) (i + a * S) (fun m => x (a + m * R)) (by omega)
              (hB.of_dvd (Dvd.intro_left R rfl)) (Nat.mul_pos hRpos hS) (by rw [← hBS]; ring) (by rw [g1]; omega) (by
                intro m hm
                have : a + m * R < R * Q := by
                  have : (m + 1) * R ≤ Q * R := Nat.mul_le_mul_right R hm
                  rw [Nat.add_mul, Nat.one_mul, Nat.mul_comm Q] at this
                  omega
                have := hin _ this
                rw [← this]
                congr 1
                ring)
            refine ⟨b', e, by rw [m1, g1], ?_, ?_⟩
            · intro a' ha' k hk
              by_cases e' : a' = a
              · subst e'; exact m2 k hk
              · have : a' * Q + Q ≤ a * Q := by
                  have : (a' + 1) * Q ≤ a * Q := Nat.mul_le_mul_right Q (by omega)
                  rwa [Nat.add_mul, Nat.one_mul] at this
                rw [m3 _ (by omega)]
                exact g2 a' (by omega) k hk
            · intro j hj
              rw [Nat.add_mul, Nat.one_mul] at hj
              rw [m3 j (by omega), g3 j (by omega)])
        -- the butterflies
        obtain ⟨out2, e2, l2, p2, q2, r2⟩ := foldlM_inv (fun k0 (b : List A) => b.length = out.length ∧
            (∀ k < k0, ∀ a < R, ∃ r, b[o + k + a * Q]? = some r ∧
              Near val u (budget t fuel Q + (2 * t + 5) + cost t R) (∑ n ∈ Finset.range (R * Q), ‖val (x n)‖) r (Spec.dft s (R * Q) (fun n => val (x n)) (k + a * Q))) ∧
            (∀ k < Q, k0 ≤ k → ∀ a < R, b[o + k + a * Q]? = out1[o + k + a * Q]?) ∧
            (∀ j, (j < o ∨ o + R * Q ≤ j) → b[j]? = out1[j]?))
          (fun out k0 => do
            let xs ← (List.range R).mapM fun a => do
              let v ← rd out ((o + k0 + a * Q : Nat) : Int)
              if a = 0 then return v else
              let w ← rd z ((k0 * (a * S) : Nat) : Int)
              return w * v
            store out (o + k0) Q (dft T s R fun a => xs.getD a 0)) Q out1 ⟨l1, by simp, by simp, by simp⟩ (by
            rintro k0 hk0 b ⟨g1, g2, g3, g4⟩
            have hr : ∀ a, ∃ r, a < R → (do
                let v ← rd b ((o + k0 + a * Q : Nat) : Int)
                if a = 0 then return v else
                let w ← rd z ((k0 * (a * S) : Nat) : Int)
                return w * v : M A) = .ok r ∧ Near val u (budget t fuel Q + (2 * t + 5)) (∑ m ∈ Finset.range Q, ‖val (x (a + m * R))‖) r
                  (Spec.unit s (R * Q) (k0 * a) * Spec.dft s Q (fun m => val (x (a + m * R))) k0) := by
              intro a
              by_cases ha : a < R
              swap
              · exact ⟨0, fun h => absurd h ha⟩
              obtain ⟨r, e, hn⟩ := p1 a ha k0 hk0
              have h5 : b[o + k0 + a * Q]? = some r := by
                rw [g3 k0 hk0 (le_refl _) a ha, ← e]
                congr 1
                ring
              rw [rd_some h5]
              simp only [bind, Except.bind]
              by_cases ha0 : a = 0
              · rw [if_pos ha0]
                subst ha0
                rw [Nat.mul_zero, Spec.unit_zero, one_mul]
                exact ⟨r, fun _ => ⟨rfl, hn.mono u0 (by omega) le_rfl⟩⟩
              · rw [if_neg ha0]
                have hlt : k0 * (a * S) < N := by
                  rw [← hBS, ← Nat.mul_assoc]
                  apply Nat.mul_lt_mul_of_pos_right _ hS
                  calc k0 * a ≤ k0 * R := Nat.mul_le_mul_left _ ha.le
                    _ < Q * R := Nat.mul_lt_mul_of_pos_right hk0 hRpos
                    _ = R * Q := Nat.mul_comm _ _
                obtain ⟨w, ew, hw⟩ := hz _ hlt
                rw [rd_some ew]
                simp only [pure, Except.pure]
                rw [← hBS, ← Nat.mul_assoc, Spec.unit_scale s _ _ _ hS] at hw
                exact ⟨w * r, fun _ => ⟨rfl, (hn.mul H _ (norm_unit _ _ _).le hw).mono u0 (by omega) le_rfl⟩⟩
            choose y hy using hr
            rw [mapM_ok _ y _ (fun a ha => (hy a (List.mem_range.mp ha)).1)]
            simp only [bind, Except.bind]
            have hidx : ∀ k < Q, ∀ a < R, k + a * Q < R * Q := by
              intro k hk a ha
              have : (a + 1) * Q ≤ R * Q := Nat.mul_le_mul_right Q ha
              rw [Nat.add_mul, Nat.one_mul] at this
              omega
            have hl := dft_length T s R hR fun a => ((List.range R).map y).getD a 0
            obtain ⟨b', e, m1, m2, m3⟩ := store_ok b (o + k0) Q hQpos (dft T s R fun a => ((List.range R).map y).getD a 0) (fun a ha => by
                have := hidx k0 hk0 a (hl ▸ ha)
                rw [g1]; omega)
            rw [hl] at m2 m3
            have hne : ∀ k < Q, k ≠ k0 → ∀ a' < R, ∀ a < R, o + k + a' * Q ≠ o + k0 + a * Q := by
              intro k hk hkk a' _ a _ h
              apply hkk
              have h' : (k + a' * Q) % Q = (k0 + a * Q) % Q := by
                congr 1; omega
              rwa [Nat.add_mul_mod_self_right, Nat.add_mul_mod_self_right, Nat.mod_eq_of_lt hk, Nat.mod_eq_of_lt hk0] at h'
            refine ⟨b', e, by rw [m1, g1], ?_, ?_, ?_⟩
            · intro k hk a ha
              by_cases hkk : k = k0
              · subst hkk
                rw [m2 a ha, Spec.dft_split s R Q hRpos hQpos, Spec.sum_range_mul]
                exact dft_near H hT s hs R hR ((Nat.le_mul_of_pos_right R hQpos).trans hBL) _ _ _ (by
                  intro j hj
                  simp only [getD_map_range y R j 0 hj]
                  exact (hy j hj).2) a ha
              · rw [m3 _ (fun a' ha' => hne k (by omega) hkk a ha a' ha')]
                exact g2 k (by omega) a ha
            · intro k hk hk' a ha
              rw [m3 _ (fun a' ha' => hne k hk (by omega) a ha a' ha')]
              exact g3 k hk (by omega) a ha
            · intro j hj
              rw [m3 j (fun a' ha' => by have := hidx k0 hk0 a' ha'; omega)]
              exact g4 j hj)
        refine ⟨out2, ?_, l2, ?_, ?_⟩
        · simp only [e1, bind, Except.bind]
          exact e2
        · intro k hk
          have := p2 (k % Q) (Nat.mod_lt _ hQpos) (k / Q) (by
            rw [Nat.div_lt_iff_lt_mul hQpos]; exact hk)
          rw [Nat.add_assoc, Nat.mod_add_div'] at this
          exact this
        · intro j hj
          rw [r2 j hj, q1 j hj]

end

/-- Exact arithmetic. -/
theorem roundedComplex_exact : RoundedComplex (V := ℝ) (A := ℂ) id id 0 where
  nonneg := le_rfl
  make _ _ := rfl
  zero := rfl
  sign s c _ := by simp
  add a b := by simp
  sub a b := by simp
  turn a b := by
    rw [zero_mul]
    exact (twiddle_eq a b ▸ by simp : ‖twiddle a b - -Complex.I * (a - b)‖ ≤ 0)
  cross a b := by
    have : (Parts.make (Parts.re a + Parts.im b) (Parts.im a - Parts.re b) : ℂ) = a - Complex.I * b := by
      apply Complex.ext <;> simp [Parts.make, Parts.re, Parts.im]
    simp [this]
  smul c a := by simp
  mul a b := by simp

theorem Trig.Exact.accurate {T : Trig ℝ} (hT : T.Exact) (L : ℕ) : T.Accurate id 0 0 L :=
  ⟨fun n N _ _ => by simp [hT.cos], fun n N _ _ => by simp [hT.sin], by simp [hT.invSqrtTwo]⟩

theorem dit_ok (T : Trig ℝ) (hT : T.Exact) (s : ℤ) (hs : s = 1 ∨ s = -1) (N : ℕ) (inp z : List ℂ)
    (hz : ∀ l < N, z[l]? = some (Spec.unit s N l)) (fuel : ℕ) (B S : ℕ) (out : List ℂ) (o i : ℕ) (x : ℕ → ℂ)
    (hf : B ≤ fuel) (hB : Smooth B) (hS : 0 < S) (hBS : B * S = N) (hlen : o + B ≤ out.length) (hin : ∀ n < B, inp[i + n * S]? = some (x n)) :
    ∃ out', dit T s fuel B S out o inp i z = .ok out' ∧ out'.length = out.length ∧
      (∀ k < B, out'[o + k]? = some (Spec.dft s B x k)) ∧ (∀ j, (j < o ∨ o + B ≤ j) → out'[j]? = out[j]?) := by
  obtain ⟨out', e, l, h1, h2⟩ := dit_near roundedComplex_exact (hT.accurate N) s hs N le_rfl inp z
    (fun l hl => ⟨_, hz l hl, by simp⟩) fuel B S out o i x hf hB hS hBS hlen hin
  refine ⟨out', e, l, ?_, h2⟩
  intro k hk
  obtain ⟨r, e, h⟩ := h1 k hk
  have := h.1
  rw [add_zero, one_pow, sub_self, zero_mul] at this
  have : r = Spec.dft s B x k := sub_eq_zero.mp (norm_le_zero_iff.mp this)
  rw [e, this]

end FFT
end DSP
