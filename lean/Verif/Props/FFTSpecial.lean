import Verif.Lemmas.RangeFFT
import Verif.Model.FFTIeee
import Verif.Props.FFTBinary
import Verif.Lemmas.Ieee
import Verif.Props.FFTError
import Verif.Props.Silence
import Verif.Props.DemodSpecial

/-!
# C114: the fast Fourier transform at the limits of floating point

Complex numbers are those of complex.hh. (`std::complex` may give an infinity where complex.hh gives a NaN; neither is finite.)
-/

namespace DSP

open FFT Spec

/-- Both parts are finite. -/
def Spec.FiniteParts {F : Format} (z : Cplx (Ieee F)) : Prop := z.re.Finite ∧ z.im.Finite

namespace FFT

variable {F : Format}

section spread

variable {a b : Cplx (Ieee F)}

theorem fin_add (h : FiniteParts (a + b)) : FiniteParts a ∧ FiniteParts b :=
  ⟨not_imp_not.mp (Sample.add_left (F := F) a b) h, not_imp_not.mp (Sample.add_right (F := F) a b) h⟩

theorem fin_sub (h : FiniteParts (a - b)) : FiniteParts a ∧ FiniteParts b :=
  ⟨not_imp_not.mp (Sample.sub_left (F := F) a b) h, not_imp_not.mp (Sample.sub_right (F := F) a b) h⟩

theorem fin_smul {c : Ieee F} (h : FiniteParts (c • a)) : FiniteParts a := not_imp_not.mp (Sample.smul (F := F) c a) h

theorem of_add {a b : Ieee F} (h : (a + b).Finite) : a.Finite ∧ b.Finite := ⟨not_imp_not.mp (Ieee.add_bad_left a b) h, not_imp_not.mp (Ieee.add_bad_right a b) h⟩
theorem of_sub {a b : Ieee F} (h : (a - b).Finite) : a.Finite ∧ b.Finite := ⟨not_imp_not.mp (Ieee.sub_bad_left a b) h, not_imp_not.mp (Ieee.sub_bad_right a b) h⟩
theorem of_mul {a b : Ieee F} (h : (a * b).Finite) : a.Finite ∧ b.Finite := ⟨not_imp_not.mp (Ieee.mul_bad_left a b) h, not_imp_not.mp (Ieee.mul_bad_right a b) h⟩

theorem fin_mul (h : FiniteParts (a * b)) : FiniteParts b := by
  have h1 : (a.re * b.re - a.im * b.im).Finite := h.1
  exact ⟨(of_mul (of_sub h1).1).2, (of_mul (of_sub h1).2).2⟩

theorem fin_twiddle (h : FiniteParts (twiddle a b)) : FiniteParts a ∧ FiniteParts b := by
  have h1 : (a.im - b.im).Finite := h.1
  have h2 : (b.re - a.re).Finite := h.2
  exact ⟨⟨(of_sub h2).2, (of_sub h1).1⟩, (of_sub h2).1, (of_sub h1).2⟩

theorem fin_fiddle (h : FiniteParts (fiddle a b)) : FiniteParts a ∧ FiniteParts b := by
  have h1 : ((a - b).re + (a + b).im).Finite := h.1
  have h2 : ((a - b).im - (a + b).re).Finite := h.2
  exact fin_add ⟨(of_sub h2).2, (of_add h1).2⟩

theorem fin_foldl {β : Type} (f : Cplx (Ieee F) → β → Cplx (Ieee F)) (Q : β → Prop) (hf : ∀ s x, FiniteParts (f s x) → FiniteParts s ∧ Q x) (l : List β) (s : Cplx (Ieee F))
    (h : FiniteParts (l.foldl f s)) : FiniteParts s ∧ ∀ x ∈ l, Q x := by
  induction l generalizing s with
  | nil => exact ⟨h, by simp⟩
  | cons x l ih =>
    obtain ⟨h1, h2⟩ := ih (f s x) h
    obtain ⟨h3, h4⟩ := hf s x h1
    refine ⟨h3, ?_⟩
    intro y hy
    rcases List.mem_cons.mp hy with rfl | hy
    · exact h4
    · exact h2 y hy

theorem oddDft_fin (T : Trig (Ieee F)) (h : ℕ) (h0 : 0 < h) (ctab : List (List Nat)) (stab : List (List Int)) (x : ℕ → Cplx (Ieee F)) (k : ℕ) (r : Cplx (Ieee F))
    (hr : (oddDft T (2 * h + 1) ctab stab x)[k]? = some r) (hf : FiniteParts r) : ∀ j < 2 * h + 1, FiniteParts (x j) := by
  have hh : (2 * h + 1 - 1) / 2 = h := by omega
  -- from the pairs to all
  have pairs : FiniteParts (x 0) → (∀ j, 1 ≤ j → j ≤ h → FiniteParts (x j) ∧ FiniteParts (x (2 * h + 1 - j))) → ∀ j < 2 * h + 1, FiniteParts (x j) := by
    intro g0 g j hj
    by_cases j0 : j = 0
    · rw [j0]; exact g0
    · by_cases jh : j ≤ h
      · exact (g j (by omega) jh).1
      · have := (g (2 * h + 1 - j) (by omega) (by omega)).2
        rwa [show 2 * h + 1 - (2 * h + 1 - j) = j by omega] at this
  have csum : ∀ k, FiniteParts ((List.range (h - 1)).foldl (fun sum j => sum + FFT.cx T ((ctab.getD (k - 1) []).getD (j + 2 - 1) 0) (2 * h + 1) (x (j + 2) + x (2 * h + 1 - (j + 2))))
        (FFT.cx T ((ctab.getD (k - 1) []).getD (1 - 1) 0) (2 * h + 1) (x 1 + x (2 * h + 1 - 1)))) →
      ∀ j, 1 ≤ j → j ≤ h → FiniteParts (x j) ∧ FiniteParts (x (2 * h + 1 - j)) := by
    intro k hk j j1 jh
    obtain ⟨e1, e2⟩ := fin_foldl _ (fun j => FiniteParts (x (j + 2)) ∧ FiniteParts (x (2 * h + 1 - (j + 2)))) (fun s j hs => ⟨(fin_add hs).1, fin_add (fin_smul (fin_add hs).2)⟩) _ _ hk
    by_cases j1' : j = 1
    · rw [j1']; exact fin_add (fin_smul e1)
    · have := e2 (j - 2) (List.mem_range.mpr (by omega))
      rwa [show j - 2 + 2 = j by omega] at this
  unfold oddDft at hr
  simp only [hh, List.getElem?_map, Option.map_eq_some_iff] at hr
  obtain ⟨k', hk', hr⟩ := hr
  subst hr
  split_ifs at hf with c0 c1
  · obtain ⟨e1, e2⟩ := fin_foldl _ (fun j => FiniteParts (x (j + 1)) ∧ FiniteParts (x (2 * h + 1 - (j + 1)))) (fun s j hs => ⟨(fin_add hs).1, fin_add (fin_add hs).2⟩) _ _ hf
    refine pairs e1 fun j j1 jh => ?_
    have := e2 (j - 1) (List.mem_range.mpr (by omega))
    rwa [show j - 1 + 1 = j by omega] at this
  · have := fin_add (fin_sub hf).1
    exact pairs this.1 (csum _ this.2)
  · have := fin_add (fin_add hf).1
    exact pairs this.1 (csum _ this.2)

theorem dft2_fin (x : ℕ → Cplx (Ieee F)) (k : ℕ) (r : Cplx (Ieee F)) (hr : (dft2 x)[k]? = some r) (hf : FiniteParts r) : ∀ j < 2, FiniteParts (x j) := by
  have key : FiniteParts (x 0) ∧ FiniteParts (x 1) := by
    match k, hr with
    | 0, hr => obtain rfl : x 0 + x 1 = r := Option.some.inj hr; exact fin_add hf
    | 1, hr => obtain rfl : x 0 - x 1 = r := Option.some.inj hr; exact fin_sub hf
    | k + 2, hr => exact absurd hr (by simp [dft2])
  intro j hj
  interval_cases j
  · exact key.1
  · exact key.2

theorem dft4_fin (x : ℕ → Cplx (Ieee F)) (k : ℕ) (r : Cplx (Ieee F)) (hr : (dft4 x)[k]? = some r) (hf : FiniteParts r) : ∀ j < 4, FiniteParts (x j) := by
  have key : (FiniteParts (x 0) ∧ FiniteParts (x 2)) ∧ FiniteParts (x 1) ∧ FiniteParts (x 3) := by
    match k, hr with
    | 0, hr => obtain rfl : x 0 + x 2 + (x 1 + x 3) = r := Option.some.inj hr; exact ⟨fin_add (fin_add hf).1, fin_add (fin_add hf).2⟩
    | 1, hr => obtain rfl : x 0 - x 2 - twiddle (x 1) (x 3) = r := Option.some.inj hr; exact ⟨fin_sub (fin_sub hf).1, fin_twiddle (fin_sub hf).2⟩
    | 2, hr => obtain rfl : x 0 + x 2 - (x 1 + x 3) = r := Option.some.inj hr; exact ⟨fin_add (fin_sub hf).1, fin_add (fin_sub hf).2⟩
    | 3, hr => obtain rfl : x 0 - x 2 + twiddle (x 1) (x 3) = r := Option.some.inj hr; exact ⟨fin_sub (fin_add hf).1, fin_twiddle (fin_add hf).2⟩
    | k + 4, hr => exact absurd hr (by simp [dft4])
  obtain ⟨⟨h0, h2⟩, h1, h3⟩ := key
  intro j hj
  interval_cases j <;> assumption

theorem dft8_fin (T : Trig (Ieee F)) (x : ℕ → Cplx (Ieee F)) (k : ℕ) (r : Cplx (Ieee F)) (hr : (dft8 T x)[k]? = some r) (hf : FiniteParts r) : ∀ j < 8, FiniteParts (x j) := by
  have even : ∀ a b c d e f g h : Cplx (Ieee F), FiniteParts (a + b + (c + d) + (e + f + (g + h))) ∨ FiniteParts (a + b + (c + d) - (e + f + (g + h))) ∨
      FiniteParts (a + b - (c + d) - twiddle (e + f) (g + h)) ∨ FiniteParts (a + b - (c + d) + twiddle (e + f) (g + h)) →
      ((FiniteParts a ∧ FiniteParts b) ∧ FiniteParts c ∧ FiniteParts d) ∧ (FiniteParts e ∧ FiniteParts f) ∧ FiniteParts g ∧ FiniteParts h := by
    rintro a b c d e f g h (H | H | H | H)
    · have H1 := fin_add (fin_add H).1
      have H2 := fin_add (fin_add H).2
      exact ⟨⟨fin_add H1.1, fin_add H1.2⟩, fin_add H2.1, fin_add H2.2⟩
    · have H1 := fin_add (fin_sub H).1
      have H2 := fin_add (fin_sub H).2
      exact ⟨⟨fin_add H1.1, fin_add H1.2⟩, fin_add H2.1, fin_add H2.2⟩
    · have H1 := fin_sub (fin_sub H).1
      have H2 := fin_twiddle (fin_sub H).2
      exact ⟨⟨fin_add H1.1, fin_add H1.2⟩, fin_add H2.1, fin_add H2.2⟩
    · have H1 := fin_sub (fin_add H).1
      have H2 := fin_twiddle (fin_add H).2
      exact ⟨⟨fin_add H1.1, fin_add H1.2⟩, fin_add H2.1, fin_add H2.2⟩
  have odd : ∀ a b c d e f g h : Cplx (Ieee F), FiniteParts (a - b - twiddle c d - rsqrt2 T (fiddle (e - f) (g - h))) ∨ FiniteParts (a - b - twiddle c d + rsqrt2 T (fiddle (e - f) (g - h))) ∨
      FiniteParts (a - b + twiddle c d - rsqrt2 T (fiddle (e - f) (g - h))) ∨ FiniteParts (a - b + twiddle c d + rsqrt2 T (fiddle (e - f) (g - h))) →
      ((FiniteParts a ∧ FiniteParts b) ∧ FiniteParts c ∧ FiniteParts d) ∧ (FiniteParts e ∧ FiniteParts f) ∧ FiniteParts g ∧ FiniteParts h := by
    rintro a b c d e f g h (H | H | H | H)
    · have H1 := fin_sub (fin_sub H).1
      have H2 := fin_fiddle (fin_mul (fin_sub H).2)
      exact ⟨⟨fin_sub H1.1, fin_twiddle H1.2⟩, fin_sub H2.1, fin_sub H2.2⟩
    · have H1 := fin_sub (fin_add H).1
      have H2 := fin_fiddle (fin_mul (fin_add H).2)
      exact ⟨⟨fin_sub H1.1, fin_twiddle H1.2⟩, fin_sub H2.1, fin_sub H2.2⟩
    · have H1 := fin_add (fin_sub H).1
      have H2 := fin_fiddle (fin_mul (fin_sub H).2)
      exact ⟨⟨fin_sub H1.1, fin_twiddle H1.2⟩, fin_sub H2.1, fin_sub H2.2⟩
    · have H1 := fin_add (fin_add H).1
      have H2 := fin_fiddle (fin_mul (fin_add H).2)
      exact ⟨⟨fin_sub H1.1, fin_twiddle H1.2⟩, fin_sub H2.1, fin_sub H2.2⟩
  have key : ((FiniteParts (x 0) ∧ FiniteParts (x 4)) ∧ FiniteParts (x 2) ∧ FiniteParts (x 6)) ∧ (FiniteParts (x 1) ∧ FiniteParts (x 5)) ∧ FiniteParts (x 3) ∧ FiniteParts (x 7) := by
    match k, hr with
    | 0, hr => rw [← Option.some.inj hr] at hf; exact even _ _ _ _ _ _ _ _ (Or.inl hf)
    | 1, hr =>
      rw [← Option.some.inj hr] at hf
      obtain ⟨h1, h2, h3⟩ := odd _ _ _ _ _ _ _ _ (Or.inl hf)
      exact ⟨h1, h3, h2⟩
    | 2, hr => rw [← Option.some.inj hr] at hf; exact even _ _ _ _ _ _ _ _ (Or.inr (Or.inr (Or.inl hf)))
    | 3, hr => rw [← Option.some.inj hr] at hf; exact odd _ _ _ _ _ _ _ _ (Or.inr (Or.inr (Or.inl hf)))
    | 4, hr => rw [← Option.some.inj hr] at hf; exact even _ _ _ _ _ _ _ _ (Or.inr (Or.inl hf))
    | 5, hr =>
      rw [← Option.some.inj hr] at hf
      obtain ⟨h1, h2, h3⟩ := odd _ _ _ _ _ _ _ _ (Or.inr (Or.inl hf))
      exact ⟨h1, h3, h2⟩
    | 6, hr => rw [← Option.some.inj hr] at hf; exact even _ _ _ _ _ _ _ _ (Or.inr (Or.inr (Or.inr hf)))
    | 7, hr => rw [← Option.some.inj hr] at hf; exact odd _ _ _ _ _ _ _ _ (Or.inr (Or.inr (Or.inr hf)))
    | k + 8, hr => exact absurd hr (by simp [dft8])
  obtain ⟨⟨⟨h0, h4⟩, h2, h6⟩, ⟨h1, h5⟩, h3, h7⟩ := key
  intro j hj
  interval_cases j <;> assumption

theorem dftPos_fin (T : Trig (Ieee F)) (R : ℕ) (hR : R ∈ radices) (x : ℕ → Cplx (Ieee F)) (k : ℕ) (r : Cplx (Ieee F))
    (hr : (dftPos T R x)[k]? = some r) (hf : FiniteParts r) : ∀ j < R, FiniteParts (x j) := by
  have odd : ∀ h, 0 < h → R = 2 * h + 1 → ∀ ctab stab, (oddDft T R ctab stab x)[k]? = some r → ∀ j < R, FiniteParts (x j) := by
    intro h h0 e ctab stab hr
    subst e
    exact oddDft_fin T h h0 ctab stab x k r hr hf
  simp only [radices, List.mem_cons, List.not_mem_nil, or_false] at hR
  unfold dftPos at hr
  rcases hR with h | h | h | h | h | h | h | h | h | h | h | h | h <;> subst h <;> norm_num only at hr
  · exact dft2_fin x k r hr hf
  · exact odd 1 (by norm_num) (by norm_num) _ _ hr
  · exact dft4_fin x k r hr hf
  · exact odd 2 (by norm_num) (by norm_num) _ _ hr
  · exact odd 3 (by norm_num) (by norm_num) _ _ hr
  · exact dft8_fin T x k r hr hf
  · exact odd 5 (by norm_num) (by norm_num) _ _ hr
  · exact odd 6 (by norm_num) (by norm_num) _ _ hr
  · exact odd 8 (by norm_num) (by norm_num) _ _ hr
  · exact odd 9 (by norm_num) (by norm_num) _ _ hr
  · exact odd 11 (by norm_num) (by norm_num) _ _ hr
  · exact odd 14 (by norm_num) (by norm_num) _ _ hr
  · exact odd 15 (by norm_num) (by norm_num) _ _ hr

theorem dft_fin (T : Trig (Ieee F)) (s : ℤ) (R : ℕ) (hR : R ∈ radices) (x : ℕ → Cplx (Ieee F)) (k : ℕ) (hk : k < R) (r : Cplx (Ieee F))
    (hr : (FFT.dft T s R x)[k]? = some r) (hf : FiniteParts r) : ∀ j < R, FiniteParts (x j) := by
  have hlen := dftPos_length T R hR x
  unfold FFT.dft at hr
  simp only at hr
  split_ifs at hr
  · rw [getElem?_take_drop_rev _ _ (by omega)] at hr
    exact dftPos_fin T R hR x _ r hr hf
  · exact dftPos_fin T R hR x _ r hr hf

end spread

/-- The whole call, from what holds of its bins. -/
theorem call_of_bins {V : Type} [Zero V] [Add V] [Sub V] [Mul V] [IntCast V] (T : Trig V) (s : ℤ) (N : ℕ) (out inp : List (Cplx V)) (ho : N ≤ out.length) (P : ℕ → Cplx V → Prop)
    (h : ∃ out', dit T s N N 1 out 0 inp 0 (factors T s N) = .ok out' ∧ out'.length = out.length ∧ (∀ k < N, ∃ r, out'[0 + k]? = some r ∧ P k r) ∧
      (∀ j, (j < 0 ∨ 0 + N ≤ j) → out'[j]? = out[j]?)) :
    ∃ X : List (Cplx V), call T s N out inp = .ok (X ++ out.drop N) ∧ X.length = N ∧ ∀ k < N, P k (X.getD k 0) := by
  obtain ⟨out', e, l, h1, h2⟩ := h
  refine ⟨out'.take N, ?_, by simp [l, ho], ?_⟩
  · unfold call
    rw [e]
    congr 1
    rw [← List.take_append_drop N out']
    congr 1
    · simp
    · apply List.ext_getElem?
      intro j
      rw [List.getElem?_drop, List.getElem?_drop]
      exact h2 _ (by omega)
  · intro k hk
    obtain ⟨r, e, h⟩ := h1 k hk
    rw [Nat.zero_add] at e
    rw [List.getD_eq_getElem?_getD, List.getElem?_take_of_lt hk, e]
    exact h

section

variable {F : Format}

/-- **C114** One infinity or NaN among the inputs leaves no bin finite: whatever the size, the direction and the constants, each bin then has a part that is infinite or NaN. -/
theorem C114_spread (T : Trig (Ieee F)) (s : ℤ) (N : ℕ) (hN : 0 < N) (hp : ∀ p, p.Prime → p ∣ N → p ≤ 31) (out inp : List (Cplx (Ieee F))) (ho : N ≤ out.length) (hi : N ≤ inp.length)
    (n : ℕ) (hn : n < N) (hbad : ¬FiniteParts (inp.getD n 0)) :
    ∃ X : List (Cplx (Ieee F)), call T s N out inp = .ok (X ++ out.drop N) ∧ X.length = N ∧ ∀ k < N, ¬FiniteParts (X.getD k 0) := by
  apply call_of_bins T s N out inp ho (fun _ r => ¬FiniteParts r)
  obtain ⟨out', e, l, h1, h2⟩ := dit_ind T s N inp (factors T s N) (by simp [factors]) (fun _ B x _ r => FiniteParts r → ∀ n < B, FiniteParts (x n))
    (by
      intro _ x h n hn
      obtain rfl : n = 0 := by omega
      exact h)
    (by
      intro _ R x y hR _ _ _ hy k hk r hr hf j hj
      rw [← hy j hj]
      exact dft_fin T s R hR y k hk r hr hf j hj)
    (by
      intro _ R Q S x k0 v w y hR _ _ _ hQ _ _ hk0 hv _ hy a ha r hr hf n hn
      have hRpos : 0 < R := by omega
      have hm : n % R < R := Nat.mod_lt _ hRpos
      have h1 : FiniteParts (v (n % R)) := by
        have := dft_fin T s R hR y a ha r hr hf (n % R) hm
        rw [hy _ hm] at this
        split_ifs at this with h0
        · rw [h0]; exact this
        · exact fin_mul this
      have := hv (n % R) hm h1 (n / R) ((Nat.div_lt_iff_lt_mul hRpos).mpr (by rwa [Nat.mul_comm]))
      simp only [Nat.mod_add_div'] at this
      exact this)
    N N 1 out 0 0 (fun n => inp.getD n 0) (le_refl _) ⟨hN, hp⟩ (by norm_num) (by ring) (by omega) (by
      intro n hn
      rw [Nat.zero_add, Nat.mul_one, List.getD_eq_getElem?_getD, List.getElem?_eq_getElem (by omega)]
      rfl)
  exact ⟨out', e, l, fun k hk => (h1 k hk).imp fun r hr => ⟨hr.1, fun hf => hbad (hr.2 hf n hn)⟩, h2⟩

/-- An infinite number among 60 leaves no bin finite. -/
example (T : Trig (Ieee .single)) (inp : List (Cplx (Ieee .single))) (hi : inp.length = 60) (h : inp[17]? = some ⟨.inf false, 0⟩) :
    ∃ X, call T (-1) 60 (List.replicate 60 0) inp = .ok X ∧ ∀ k < 60, ¬FiniteParts (X.getD k 0) := by
  obtain ⟨X, e, l, h⟩ := C114_spread T (-1) 60 (by norm_num) (by
    intro p hp hd
    have := Nat.le_of_dvd (by norm_num) hd
    by_contra hc
    interval_cases p <;> revert hd hp <;> decide) (List.replicate 60 0) inp (by simp) (by omega) 17 (by norm_num) (by
    rw [List.getD_eq_getElem?_getD, h]
    exact fun hf => hf.1)
  refine ⟨X, ?_, h⟩
  rw [e, List.drop_eq_nil_of_le (by simp), List.append_nil]

end

/-! ### The range -/

open Ieee

variable {F : Format}

/-- Rounding a number of at most half the range. -/
theorem round_range (U : Silence.Usual F) (x : ℚ) (h : |(x : ℝ)| ≤ 2 ^ (F.emax - 1)) :
    |roundTo F x| < 2 ^ F.emax ∧ |((roundTo F x : ℚ) : ℝ) - x| ≤ 1 / 2 ^ F.p * (|(x : ℝ)| + 2 ^ (F.emin + F.p - 1)) := by
  have hp : 0 < F.p := by have := U.p; omega
  have h1 := U.emin
  have h2 := U.emax
  have h' : |x| ≤ 2 ^ (F.emax - 1) := by
    have e : (2 : ℝ) ^ (F.emax - 1) = ((2 ^ (F.emax - 1) : ℚ) : ℝ) := by push_cast; rfl
    rw [e, ← Rat.cast_abs] at h
    exact Rat.cast_le.mp h
  constructor
  · rw [roundTo_abs hp]
    calc _ ≤ _ := roundTo_le hp _ _ (Range.fits_pow hp (F.emax - 1) (by omega)) h'
      _ < _ := zpow_lt_zpow_right₀ (by norm_num) (by omega)
  · have e := roundTo_error (F := F) x
    have e' : |((roundTo F x : ℚ) : ℝ) - x| ≤ max (|(x : ℝ)| / 2 ^ F.p) (2 ^ F.emin / 2) := by
      have e1 := (Rat.cast_le (K := ℝ)).mpr e
      push_cast at e1
      exact e1
    refine e'.trans (max_le ?_ ?_)
    · have : (0 : ℝ) ≤ 1 / 2 ^ F.p * 2 ^ (F.emin + F.p - 1) := by positivity
      rw [mul_add]
      have e3 : |(x : ℝ)| / 2 ^ F.p = 1 / 2 ^ F.p * |(x : ℝ)| := by ring
      linarith
    · have e2 : (2 : ℝ) ^ F.emin / 2 = 1 / 2 ^ F.p * 2 ^ (F.emin + F.p - 1) := by
        rw [zpow_sub₀ (by norm_num), zpow_add₀ (by norm_num), zpow_natCast, zpow_one]
        field_simp
      rw [e2]
      have : (0 : ℝ) ≤ 1 / 2 ^ F.p * |(x : ℝ)| := by positivity
      linarith

/-- Finite numbers of the format. -/
def GoodIeee (a : Ieee F) : Prop := a.Finite ∧ a.Valid

theorem good_add (U : Silence.Usual F) (a b : Ieee F) (ha : GoodIeee a) (hb : GoodIeee b) (h : |(a.val : ℝ) + b.val| ≤ 2 ^ (F.emax - 1)) :
    GoodIeee (a + b) ∧ |((a + b).val : ℝ) - (a.val + b.val)| ≤ 1 / 2 ^ F.p * (|(a.val : ℝ) + b.val| + 2 ^ (F.emin + F.p - 1)) := by
  have hp : 0 < F.p := by have := U.p; omega
  have := round_range U (a.val + b.val) (by push_cast; exact h)
  have hf := (add_finite a b ha.1 hb.1).mpr this.1
  refine ⟨⟨hf, add_valid hp a b⟩, ?_⟩
  rw [add_val hp a b ha.1 hb.1 hf]
  push_cast at this
  exact this.2

theorem good_neg (a : Ieee F) (ha : GoodIeee a) : GoodIeee (-a) := ⟨neg_finite a ha.1, neg_valid a ha.2⟩

theorem good_sub (U : Silence.Usual F) (a b : Ieee F) (ha : GoodIeee a) (hb : GoodIeee b) (h : |(a.val : ℝ) - b.val| ≤ 2 ^ (F.emax - 1)) :
    GoodIeee (a - b) ∧ |((a - b).val : ℝ) - (a.val - b.val)| ≤ 1 / 2 ^ F.p * (|(a.val : ℝ) - b.val| + 2 ^ (F.emin + F.p - 1)) := by
  have := good_add U a (-b) ha (good_neg b hb) (by rw [neg_val]; push_cast; exact h)
  rw [neg_val] at this
  push_cast at this
  exact this

theorem good_mul (U : Silence.Usual F) (a b : Ieee F) (ha : GoodIeee a) (hb : GoodIeee b) (h : |(a.val : ℝ) * b.val| ≤ 2 ^ (F.emax - 1)) :
    GoodIeee (a * b) ∧ |((a * b).val : ℝ) - a.val * b.val| ≤ 1 / 2 ^ F.p * (|(a.val : ℝ) * b.val| + 2 ^ (F.emin + F.p - 1)) := by
  have hp : 0 < F.p := by have := U.p; omega
  have := round_range U (a.val * b.val) (by push_cast; exact h)
  have hf := (mul_finite a b ha.1 hb.1).mpr this.1
  refine ⟨⟨hf, mul_valid hp a b⟩, ?_⟩
  rw [mul_val hp a b ha.1 hb.1 ha.2 hb.2 hf]
  push_cast at this
  exact this.2

theorem norm_diag (β : ℝ) (h : 0 ≤ β) : ‖(⟨β, β⟩ : ℂ)‖ ≤ 3 / 2 * β := by
  rw [← sq_le_sq₀ (norm_nonneg _) (by positivity), ← Complex.normSq_eq_norm_sq, Complex.normSq_mk]
  nlinarith [mul_self_nonneg β]

/-- A complex number with bounded parts. -/
theorem norm_le_affine (z w : ℂ) (α β : ℝ) (hα : 0 ≤ α) (hβ : 0 ≤ β) (h1 : |z.re| ≤ α * |w.re| + β) (h2 : |z.im| ≤ α * |w.im| + β) : ‖z‖ ≤ α * ‖w‖ + 3 / 2 * β := by
  have e := norm_le_of_parts z (⟨α * |w.re| + β, α * |w.im| + β⟩ : ℂ) 1 (by norm_num)
    (by rw [one_mul]; exact h1.trans (le_abs_self _)) (by rw [one_mul]; exact h2.trans (le_abs_self _))
  rw [one_mul] at e
  have e2 : (⟨α * |w.re| + β, α * |w.im| + β⟩ : ℂ) = (α : ℂ) * ⟨|w.re|, |w.im|⟩ + ⟨β, β⟩ := by
    apply Complex.ext <;> simp
  rw [e2] at e
  have e3 : ‖(⟨|w.re|, |w.im|⟩ : ℂ)‖ ≤ 1 * ‖w‖ := norm_le_of_parts _ _ 1 (by norm_num) (by simp) (by simp)
  rw [one_mul] at e3
  calc ‖z‖ ≤ _ := e
    _ ≤ ‖(α : ℂ) * ⟨|w.re|, |w.im|⟩‖ + ‖(⟨β, β⟩ : ℂ)‖ := norm_add_le _ _
    _ ≤ α * ‖w‖ + 3 / 2 * β := by
      rw [norm_mul, Complex.norm_real, Real.norm_of_nonneg hα]
      have := norm_diag β hβ
      gcongr

/-- The floating point numbers of a format. -/
noncomputable def ieeeEnv (F : Format) : Ranged.Env (Ieee F) (Cplx (Ieee F)) where
  valV a := a.val
  val := Cplx.toComplex fun a => (a.val : ℝ)
  goodV := GoodIeee
  good z := GoodIeee z.re ∧ GoodIeee z.im
  u := 1 / 2 ^ F.p
  μ := 2 ^ (F.emin + F.p)

theorem usual_u (U : Silence.Usual F) : (0 : ℝ) < 1 / 2 ^ F.p ∧ (1 : ℝ) / 2 ^ F.p ≤ 1 / 16 := by
  refine ⟨by positivity, ?_⟩
  have : (2 : ℝ) ^ 4 ≤ 2 ^ F.p := pow_le_pow_right₀ (by norm_num) U.p
  rw [div_le_div_iff₀ (by positivity) (by norm_num)]
  linarith

/-- From the parts to the norm. -/
theorem parts_error (z w : ℂ) (u m : ℝ) (hu : 0 ≤ u) (hm : 0 ≤ m) (h1 : |z.re| ≤ u * (|w.re| + m)) (h2 : |z.im| ≤ u * (|w.im| + m)) : ‖z‖ ≤ u * (‖w‖ + 2 * m) := by
  have := norm_le_affine z w u (u * m) hu (by positivity) (by linarith) (by linarith)
  have : 0 ≤ u * m := by positivity
  linarith

/-- A sum of two products, all rounded, in a limited range. -/
theorem two_products_range (a b s v w u m : ℝ) (hu : 0 ≤ u) (hu1 : u ≤ 1 / 16) (hm : 0 ≤ m) (ha : |v - a| ≤ u * (|a| + m)) (hb : |w - b| ≤ u * (|b| + m)) :
    |v + w| ≤ (1 + u) * (|a| + |b| + 2 * m) ∧ (|s - (v + w)| ≤ u * (|v + w| + m) → |s - (a + b)| ≤ (2 * u + u ^ 2) * (|a| + |b|) + 4 * u * m) := by
  have h1 : |v + w| ≤ (1 + u) * (|a| + |b|) + 2 * u * m := by
    calc |v + w| = |(v - a) + (w - b) + (a + b)| := by ring_nf
      _ ≤ |v - a| + |w - b| + (|a| + |b|) := (abs_add_le _ _).trans (add_le_add (abs_add_le _ _) (abs_add_le _ _))
      _ ≤ u * (|a| + m) + u * (|b| + m) + (|a| + |b|) := by gcongr
      _ = _ := by ring
  refine ⟨h1.trans (by nlinarith), fun hs => ?_⟩
  calc |s - (a + b)| = |(s - (v + w)) + ((v - a) + (w - b))| := by ring_nf
    _ ≤ |s - (v + w)| + (|v - a| + |w - b|) := (abs_add_le _ _).trans (add_le_add le_rfl (abs_add_le _ _))
    _ ≤ u * ((1 + u) * (|a| + |b|) + 2 * u * m + m) + (u * (|a| + m) + u * (|b| + m)) := by gcongr; exact hs.trans (by gcongr)
    _ = (2 * u + u ^ 2) * (|a| + |b|) + (3 + 2 * u) * (u * m) := by ring
    _ ≤ (2 * u + u ^ 2) * (|a| + |b|) + 4 * (u * m) := by
      have : 0 ≤ u * m := by positivity
      gcongr
      linarith
    _ = _ := by ring

/-- The error of a product, from that of its parts. -/
theorem product_error (z : ℂ) (a b : ℂ) (u m : ℝ) (hu : 0 ≤ u) (hu1 : u ≤ 1 / 16) (hm : 0 ≤ m)
    (h1 : |z.re| ≤ (2 * u + u ^ 2) * (|a.re * b.re| + |a.im * b.im|) + 4 * u * m) (h2 : |z.im| ≤ (2 * u + u ^ 2) * (|a.re * b.im| + |a.im * b.re|) + 4 * u * m) :
    ‖z‖ ≤ 3 * u * (‖a * b‖ + 2 * m) := by
  set S1 := |a.re * b.re| + |a.im * b.im| with hS1
  set S2 := |a.re * b.im| + |a.im * b.re| with hS2
  have s1 : 0 ≤ S1 := by positivity
  have s2 : 0 ≤ S2 := by positivity
  have h := norm_le_affine z ⟨S1, S2⟩ (2 * u + u ^ 2) (4 * u * m) (by positivity) (by positivity) (by simpa [abs_of_nonneg s1] using h1) (by simpa [abs_of_nonneg s2] using h2)
  have k : (2 * u + u ^ 2) * ‖(⟨S1, S2⟩ : ℂ)‖ ≤ 3 * u * ‖a * b‖ := by
    rw [← sq_le_sq₀ (by positivity) (by positivity), mul_pow, mul_pow, ← Complex.normSq_eq_norm_sq, ← Complex.normSq_eq_norm_sq, Complex.normSq_mul, Complex.normSq_mk,
      Complex.normSq_apply, Complex.normSq_apply, hS1, hS2]
    rw [abs_mul, abs_mul, abs_mul, abs_mul, ← abs_mul_abs_self a.re, ← abs_mul_abs_self a.im, ← abs_mul_abs_self b.re, ← abs_mul_abs_self b.im]
    generalize |a.re| = p
    generalize |a.im| = q
    generalize |b.re| = r
    generalize |b.im| = s
    have k : (p * r + q * s) * (p * r + q * s) + (p * s + q * r) * (p * s + q * r) ≤ 2 * ((p * p + q * q) * (r * r + s * s)) := by
      nlinarith [mul_self_nonneg (p * r - q * s), mul_self_nonneg (p * s - q * r)]
    have k2 : 0 ≤ (p * p + q * q) * (r * r + s * s) := mul_nonneg (add_nonneg (mul_self_nonneg _) (mul_self_nonneg _)) (add_nonneg (mul_self_nonneg _) (mul_self_nonneg _))
    have k3 : (2 * u + u ^ 2) ^ 2 * 2 ≤ (3 * u) ^ 2 := by
      have : (2 + u) ^ 2 * 2 ≤ 9 := by nlinarith
      nlinarith [mul_self_nonneg u]
    calc _ ≤ (2 * u + u ^ 2) ^ 2 * (2 * ((p * p + q * q) * (r * r + s * s))) := by gcongr
      _ = (2 * u + u ^ 2) ^ 2 * 2 * ((p * p + q * q) * (r * r + s * s)) := by ring
      _ ≤ _ := by gcongr
  have : 0 ≤ u * m := by positivity
  linarith

theorem abs_dot_le (a b : ℂ) : |a.re * b.re| + |a.im * b.im| ≤ ‖a * b‖ ∧ |a.re * b.im| + |a.im * b.re| ≤ ‖a * b‖ := by
  constructor <;>
  · rw [← sq_le_sq₀ (by positivity) (norm_nonneg _), ← Complex.normSq_eq_norm_sq, Complex.normSq_mul, Complex.normSq_apply, Complex.normSq_apply]
    rw [abs_mul, abs_mul, ← abs_mul_abs_self a.re, ← abs_mul_abs_self a.im, ← abs_mul_abs_self b.re, ← abs_mul_abs_self b.im]
    generalize |a.re| = p
    generalize |a.im| = q
    generalize |b.re| = r
    generalize |b.im| = s
    nlinarith [mul_self_nonneg (p * s - q * r), mul_self_nonneg (p * r - q * s)]

theorem ieee_lawful (U : Silence.Usual F) : (ieeeEnv F).Lawful (2 ^ (F.emax - 1)) := by
  have hp : 0 < F.p := by have := U.p; omega
  have hemin := U.emin
  have hemax := U.emax
  obtain ⟨u0, u1⟩ := usual_u U
  have hμ : (ieeeEnv F).μ = 2 * 2 ^ (F.emin + F.p - 1) := by
    show (2 : ℝ) ^ (F.emin + F.p) = _
    rw [zpow_sub_one₀ (by norm_num)]
    ring
  have m0 : (0 : ℝ) < 2 ^ (F.emin + F.p - 1) := by positivity
  have hre : ∀ z : ℂ, ∀ Ω : ℝ, ‖z‖ ≤ Ω → |z.re| ≤ Ω := fun z Ω h => (Complex.abs_re_le_norm z).trans h
  have him : ∀ z : ℂ, ∀ Ω : ℝ, ‖z‖ ≤ Ω → |z.im| ≤ Ω := fun z Ω h => (Complex.abs_im_le_norm z).trans h
  refine ⟨u0.le, by rw [hμ]; positivity, fun _ _ => rfl, fun a b ha hb => ⟨ha, hb⟩, ⟨⟨trivial, ?_⟩, ?_⟩, ?_, ?_, ?_, ?_, ?_, ?_, ?_⟩
  · have := (cast_exact (F := F) hp (by omega) (by omega) 0 (by positivity)).2.1
    have e : ((0 : ℤ) : Ieee F) = 0 := by
      show (pack _ _ : Ieee F) = num false 0
      rw [pack_num _ _ (by simp [roundTo_zero]; positivity)]
      simp [roundTo_zero]
    rwa [e] at this
  · show (((0 : Ieee F).val : ℚ) : ℝ) = 0
    have : (0 : Ieee F).val = 0 := rfl
    rw [this, Rat.cast_zero]
  · intro s c hs hc hc2
    obtain ⟨c1, c2, c3⟩ := cast_exact (F := F) hp (by omega) (by omega) s (by
      have : (2 : ℤ) ≤ 2 ^ F.p := by
        calc (2 : ℤ) = 2 ^ 1 := by norm_num
          _ ≤ _ := pow_le_pow_right₀ (by norm_num) (by omega)
      rcases hs with rfl | rfl <;> simp <;> omega)
    have hfit : Fits F ((s : Ieee F).val * c.val) := by
      rw [c3]
      have := valid_fits hc.2
      rcases hs with rfl | rfl
      · simpa using this
      · have h2 := valid_fits (neg_valid c hc.2)
        rw [neg_val] at h2
        simpa using h2
    have hlt : |roundTo F ((s : Ieee F).val * c.val)| < 2 ^ F.emax := by
      rw [roundTo_of_fits hp _ hfit, abs_mul, c3]
      have : |(s : ℚ)| = 1 := by rcases hs with rfl | rfl <;> simp
      rw [this, one_mul]
      exact val_lt hc.2
    have hf := (mul_finite (s : Ieee F) c c1 hc.1).mpr hlt
    refine ⟨⟨hf, mul_valid hp _ _⟩, ?_⟩
    show ((((s : Ieee F) * c).val : ℚ) : ℝ) = _
    rw [mul_val hp _ _ c1 hc.1 c2 hc.2 hf, roundTo_of_fits hp _ hfit, c3]
    push_cast
    rfl
  · intro a b ha hb h
    have e1 := good_add U a.re b.re ha.1 hb.1 (hre _ _ h)
    have e2 := good_add U a.im b.im ha.2 hb.2 (him _ _ h)
    refine ⟨⟨e1.1, e2.1⟩, ?_⟩
    rw [hμ]
    exact parts_error _ _ _ _ u0.le m0.le e1.2 e2.2
  · intro a b ha hb h
    have e1 := good_sub U a.re b.re ha.1 hb.1 (hre _ _ h)
    have e2 := good_sub U a.im b.im ha.2 hb.2 (him _ _ h)
    refine ⟨⟨e1.1, e2.1⟩, ?_⟩
    rw [hμ]
    exact parts_error _ _ _ _ u0.le m0.le e1.2 e2.2
  · intro a b ha hb h
    have e1 := good_sub U a.im b.im ha.2 hb.2 (him _ _ h)
    have e2 := good_sub U b.re a.re hb.1 ha.1 (by rw [abs_sub_comm]; exact hre _ _ h)
    refine ⟨⟨e1.1, e2.1⟩, ?_⟩
    rw [hμ]
    have en : ‖(ieeeEnv F).val a - (ieeeEnv F).val b‖ = ‖-Complex.I * ((ieeeEnv F).val a - (ieeeEnv F).val b)‖ := by rw [norm_mul]; simp
    rw [en]
    refine parts_error _ _ _ _ u0.le m0.le ?_ ?_
    · simpa [ieeeEnv, Cplx.toComplex, Parts.make, Parts.re, Parts.im, sub_eq_add_neg] using e1.2
    · simpa [ieeeEnv, Cplx.toComplex, Parts.make, Parts.re, Parts.im, sub_eq_add_neg, add_comm] using e2.2
  · intro a b ha hb h
    have i1 : |(a.re.val : ℝ) + b.im.val| ≤ 2 ^ (F.emax - 1) := by simpa [ieeeEnv, Cplx.toComplex] using hre _ _ h
    have i2 : |(a.im.val : ℝ) - b.re.val| ≤ 2 ^ (F.emax - 1) := by simpa [ieeeEnv, Cplx.toComplex] using him _ _ h
    have e1 := good_add U a.re b.im ha.1 hb.2 i1
    have e2 := good_sub U a.im b.re ha.2 hb.1 i2
    refine ⟨⟨e1.1, e2.1⟩, ?_⟩
    rw [hμ]
    refine parts_error _ _ _ _ u0.le m0.le ?_ ?_
    · simpa [ieeeEnv, Cplx.toComplex, Parts.make, Parts.re, Parts.im] using e1.2
    · simpa [ieeeEnv, Cplx.toComplex, Parts.make, Parts.re, Parts.im] using e2.2
  · intro c a hc ha h
    have i1 : |(c.val : ℝ) * a.re.val| ≤ 2 ^ (F.emax - 1) := by simpa [ieeeEnv, Cplx.toComplex] using hre _ _ h
    have i2 : |(c.val : ℝ) * a.im.val| ≤ 2 ^ (F.emax - 1) := by simpa [ieeeEnv, Cplx.toComplex] using him _ _ h
    have e1 := good_mul U c a.re hc ha.1 i1
    have e2 := good_mul U c a.im hc ha.2 i2
    refine ⟨⟨e1.1, e2.1⟩, ?_⟩
    rw [hμ]
    have r1 : (c • a).re = c * a.re := rfl
    have r2 : (c • a).im = c * a.im := rfl
    refine parts_error _ _ _ _ u0.le m0.le ?_ ?_
    · simpa [ieeeEnv, Cplx.toComplex, r1] using e1.2
    · simpa [ieeeEnv, Cplx.toComplex, r2] using e2.2
  · intro a b ha hb h
    rw [hμ] at h ⊢
    obtain ⟨d1, d2⟩ := abs_dot_le ((ieeeEnv F).val a) ((ieeeEnv F).val b)
    set P := ‖(ieeeEnv F).val a * (ieeeEnv F).val b‖ with hP
    set m : ℝ := 2 ^ (F.emin + F.p - 1) with hm
    have hu' : (ieeeEnv F).u = 1 / 2 ^ F.p := rfl
    rw [hu'] at h ⊢
    set u : ℝ := 1 / 2 ^ F.p with hu
    have P0 : 0 ≤ P := norm_nonneg _
    have d1' : |(a.re.val : ℝ) * b.re.val| + |(a.im.val : ℝ) * b.im.val| ≤ P := d1
    have d2' : |(a.re.val : ℝ) * b.im.val| + |(a.im.val : ℝ) * b.re.val| ≤ P := d2
    have hb1 : (1 + u) * (P + 2 * m) ≤ 2 ^ (F.emax - 1) := by
      refine le_trans ?_ h
      nlinarith [mul_nonneg u0.le (add_nonneg P0 (by positivity : 0 ≤ 2 * m))]
    have hb0 : P ≤ 2 ^ (F.emax - 1) := by
      refine le_trans ?_ hb1
      nlinarith [mul_nonneg u0.le (add_nonneg P0 (by positivity : 0 ≤ 2 * m))]
    have q1 := abs_nonneg ((a.re.val : ℝ) * b.re.val)
    have q2 := abs_nonneg ((a.im.val : ℝ) * b.im.val)
    have q3 := abs_nonneg ((a.re.val : ℝ) * b.im.val)
    have q4 := abs_nonneg ((a.im.val : ℝ) * b.re.val)
    have g1 := good_mul U a.re b.re ha.1 hb.1 (by linarith)
    have g2 := good_mul U a.im b.im ha.2 hb.2 (by linarith)
    have g3 := good_mul U a.re b.im ha.1 hb.2 (by linarith)
    have g4 := good_mul U a.im b.re ha.2 hb.1 (by linarith)
    obtain ⟨t1, t2⟩ := two_products_range ((a.re.val : ℝ) * b.re.val) (-((a.im.val : ℝ) * b.im.val)) ((a.re * b.re - a.im * b.im).val : ℝ) ((a.re * b.re).val : ℝ) (-((a.im * b.im).val : ℝ)) u m
      u0.le u1 m0.le g1.2 (by rw [abs_neg]; convert g2.2 using 1; rw [← abs_neg]; ring_nf)
    obtain ⟨t3, t4⟩ := two_products_range ((a.re.val : ℝ) * b.im.val) ((a.im.val : ℝ) * b.re.val) ((a.re * b.im + a.im * b.re).val : ℝ) ((a.re * b.im).val : ℝ) ((a.im * b.re).val : ℝ) u m
      u0.le u1 m0.le g3.2 g4.2
    rw [abs_neg] at t1 t2
    rw [← sub_eq_add_neg] at t1 t2
    have f1 := good_sub U (a.re * b.re) (a.im * b.im) g1.1 g2.1 (t1.trans (le_trans (by gcongr) hb1))
    have f2 := good_add U (a.re * b.im) (a.im * b.re) g3.1 g4.1 (t3.trans (le_trans (by gcongr) hb1))
    have t2' := t2 f1.2
    have t4' := t4 f2.2
    refine ⟨⟨f1.1, f2.1⟩, ?_⟩
    refine product_error _ _ _ u m u0.le u1 m0.le ?_ ?_
    · rw [Complex.sub_re, Complex.mul_re]
      exact t2'
    · rw [Complex.sub_im, Complex.mul_im]
      exact t4'

section

variable {F : Format}

/-- **C114** No overflow, and accurate to the last: with finite constants that are off by at most `t / 2^p`, if twice the sum of the magnitudes of the inputs, with an allowance for roundings and for
underflow, stays within half the range, then all bins are finite, and each differs from that of the exact transform by at most `(1 + 2^-p)^E - 1` times the sum of the magnitudes of the
inputs, where numbers below the smallest normal one, `2^(emin + p)`, add that much to it: gradual underflow changes nothing worth mentioning. -/
theorem C114_range (U : Silence.Usual F) (T : Trig (Ieee F)) (t L : ℕ) (ht : t ≤ 2 ^ F.p)
    (hcos : ∀ n N, n < N → N ≤ L → (T.cos n N).Finite ∧ (T.cos n N).Valid ∧ |((T.cos n N).val : ℝ) - Real.cos (2 * Real.pi * n / N)| ≤ t / 2 ^ F.p)
    (hsin : ∀ n N, n < N → N ≤ L → (T.sin n N).Finite ∧ (T.sin n N).Valid ∧ |((T.sin n N).val : ℝ) - Real.sin (2 * Real.pi * n / N)| ≤ t / 2 ^ F.p)
    (hinv : T.invSqrtTwo.Finite ∧ T.invSqrtTwo.Valid ∧ |(T.invSqrtTwo.val : ℝ) - 1 / √2| ≤ t / 2 ^ F.p)
    (s : ℤ) (hs : s = 1 ∨ s = -1) (N : ℕ) (hN : 0 < N) (hL : N ≤ L) (hp : ∀ p, p.Prime → p ∣ N → p ≤ 31) (out inp : List (Cplx (Ieee F))) (ho : N ≤ out.length) (hi : N ≤ inp.length)
    (hfin : ∀ n < N, FiniteParts (inp.getD n 0) ∧ (inp.getD n 0).re.Valid ∧ (inp.getD n 0).im.Valid)
    (hrange : 2 * ((1 + 1 / 2 ^ F.p) ^ roundings t N * ∑ n ∈ Finset.range N, (‖(inp.getD n 0).toComplex fun a => (a.val : ℝ)‖ + 2 ^ (F.emin + F.p))) ≤ (2 : ℝ) ^ (F.emax - 1)) :
    ∃ X : List (Cplx (Ieee F)), call T s N out inp = .ok (X ++ out.drop N) ∧ X.length = N ∧ ∀ k < N, FiniteParts (X.getD k 0) ∧
      ‖((X.getD k 0).toComplex fun a => (a.val : ℝ)) - Spec.dft s N (fun n => (inp.getD n 0).toComplex fun a => (a.val : ℝ)) k‖ ≤
        ((1 + 1 / 2 ^ F.p) ^ roundings t N - 1) * ∑ n ∈ Finset.range N, (‖(inp.getD n 0).toComplex fun a => (a.val : ℝ)‖ + 2 ^ (F.emin + F.p)) := by
  have H := ieee_lawful U
  have hA : Ranged.Accurate (ieeeEnv F) T t L := by
    have e : (t : ℝ) * (ieeeEnv F).u = t / 2 ^ F.p := by
      show (t : ℝ) * (1 / 2 ^ F.p) = _
      ring
    refine ⟨fun n N h1 h2 => ?_, fun n N h1 h2 => ?_, ?_⟩
    · rw [e]; exact ⟨⟨(hcos n N h1 h2).1, (hcos n N h1 h2).2.1⟩, (hcos n N h1 h2).2.2⟩
    · rw [e]; exact ⟨⟨(hsin n N h1 h2).1, (hsin n N h1 h2).2.1⟩, (hsin n N h1 h2).2.2⟩
    · rw [e]; exact ⟨⟨hinv.1, hinv.2.1⟩, hinv.2.2⟩
  have htu : (t : ℝ) * (ieeeEnv F).u ≤ 1 := by
    show (t : ℝ) * (1 / 2 ^ F.p) ≤ 1
    rw [mul_one_div, div_le_one (by positivity)]
    exact_mod_cast ht
  apply call_of_bins T s N out inp ho (fun k r => FiniteParts r ∧ ‖(r.toComplex fun a => (a.val : ℝ)) - Spec.dft s N (fun n => (inp.getD n 0).toComplex fun a => (a.val : ℝ)) k‖ ≤
        ((1 + 1 / 2 ^ F.p) ^ roundings t N - 1) * ∑ n ∈ Finset.range N, (‖(inp.getD n 0).toComplex fun a => (a.val : ℝ)‖ + 2 ^ (F.emin + F.p)))
  obtain ⟨out', e, l, h1, h2⟩ := Ranged.dit_near H hA s hs N hL inp (factors T s N) (by simp [factors]) (by
      intro l hl w hw
      unfold factors at hw
      rw [List.getElem?_map, List.getElem?_range hl, Option.map_some, Option.some.injEq] at hw
      subst hw
      exact Ranged.factor_near H hA htu s hs N l hl hL) N N 1 out 0 0 (fun n => inp.getD n 0) (le_refl _) ⟨hN, hp⟩ (by norm_num) (by ring) (by omega) (by
      intro n hn
      rw [Nat.zero_add, Nat.mul_one, List.getD_eq_getElem?_getD, List.getElem?_eq_getElem (by omega)]
      rfl) (fun n hn => by
      obtain ⟨g1, g2, g3⟩ := hfin n hn
      exact ⟨⟨g1.1, g2⟩, g1.2, g3⟩)
  refine ⟨out', e, l, fun k hk => ?_, h2⟩
  obtain ⟨r, er, hr⟩ := h1 k hk
  have H' : (ieeeEnv F).Lawful (2 ^ (F.emax - 1) / 2) := H.weaken (by
    have : (0 : ℝ) < 2 ^ (F.emax - 1) := by positivity
    linarith)
  obtain ⟨g, b⟩ := (hr.mono H' (budget_le t N N hN) le_rfl).2 (by
    show (1 + 1 / 2 ^ F.p) ^ roundings t N * _ ≤ _
    have : ∀ a b : ℝ, 2 * a ≤ b → a ≤ b / 2 := fun a b h => by linarith
    exact this _ _ hrange)
  exact ⟨r, er, ⟨g.1.1, g.2.1⟩, b⟩

/-- A rounded constant. -/
theorem literal_range (U : Silence.Usual F) (t : ℕ) (x : ℚ) (y : ℝ) (hy : |y| ≤ 1) (ht : (t : ℝ) / 2 ^ F.p ≤ 1 / 2) (h : |(x : ℝ) - y| ≤ t / 2 ^ F.p) :
    (literal x : Ieee F).Finite ∧ (literal x : Ieee F).Valid ∧ |((literal x : Ieee F).val : ℝ) - y| ≤ (t + 2 : ℕ) / 2 ^ F.p := by
  have hp : 0 < F.p := by have := U.p; omega
  have h1 := U.emin
  have h2 := U.emax
  have h3 := U.p
  have hx : |(x : ℝ)| ≤ 3 / 2 := by
    calc |(x : ℝ)| = |((x : ℝ) - y) + y| := by ring_nf
      _ ≤ _ + _ := abs_add_le _ _
      _ ≤ 3 / 2 := by linarith
  have hm : (2 : ℝ) ^ (F.emin + F.p - 1) ≤ 1 / 2 := by
    calc (2 : ℝ) ^ (F.emin + F.p - 1) ≤ 2 ^ (-1 : ℤ) := zpow_le_zpow_right₀ (by norm_num) (by omega)
      _ = _ := by norm_num
  have hΩ : (3 / 2 : ℝ) ≤ 2 ^ (F.emax - 1) := by
    calc (3 / 2 : ℝ) ≤ 2 ^ (1 : ℤ) := by norm_num
      _ ≤ _ := zpow_le_zpow_right₀ (by norm_num) (by omega)
  obtain ⟨r1, r2⟩ := round_range U x (hx.trans hΩ)
  have hf : (literal x : Ieee F).Finite := (pack_finite _ _).mpr r1
  refine ⟨hf, pack_valid hp _ _, ?_⟩
  have e : (literal x : Ieee F).val = roundTo F x := by
    show (pack (decide (x < 0)) x : Ieee F).val = _
    rw [pack_val hp _ _ hf, signed_decide]
  rw [e]
  have u0 : (0 : ℝ) ≤ 1 / 2 ^ F.p := by positivity
  calc |((roundTo F x : ℚ) : ℝ) - y| = |(((roundTo F x : ℚ) : ℝ) - x) + (x - y)| := by ring_nf
    _ ≤ _ + _ := abs_add_le _ _
    _ ≤ 1 / 2 ^ F.p * (3 / 2 + 1 / 2) + t / 2 ^ F.p := by
      refine add_le_add (r2.trans ?_) h
      gcongr
    _ = _ := by push_cast; ring

theorem roundings11_le (N : ℕ) (hN : 0 < N) (hp : ∀ p, p.Prime → p ∣ N → p ≤ 31) : 2 ^ roundings 11 N ≤ N ^ 36 := by
  have key : ∀ l : List ℕ, (∀ p ∈ l, p.Prime ∧ p ≤ 31) → 2 ^ (l.map fun p => if p = 2 then 2 * 11 + 7 else p + 4 * 11 + 10).sum ≤ l.prod ^ 36 := by
    intro l
    induction l with
    | nil => intro _; simp
    | cons p l ih =>
      intro h
      rw [List.map_cons, List.sum_cons, List.prod_cons, pow_add, mul_pow]
      refine Nat.mul_le_mul ?_ (ih fun q hq => h q (List.mem_cons_of_mem _ hq))
      obtain ⟨h1, h2⟩ := h p (List.mem_cons_self)
      have := h1.two_le
      interval_cases p <;> norm_num
  have := key N.primeFactorsList fun p h => ⟨Nat.prime_of_mem_primeFactorsList h, hp p (Nat.prime_of_mem_primeFactorsList h) (Nat.dvd_of_mem_primeFactorsList h)⟩
  rwa [Nat.prod_primeFactorsList hN.ne'] at this

/-- **C114** The code as it is, with the constants of unit_circle.hh, in single or double precision: if six times the sum of the magnitudes of the inputs (plus the smallest normal number, for each)
is within half the range, then all bins are finite and off by at most `72 log2(N) / 2^p` times that sum. -/
theorem C114_code (l : ℕ) (F : Format) [NeZero F.p] (U : Silence.Usual F) (hp : 10 ≤ F.p) (hp' : F.p ≤ 53) (hl : F.p ≤ l) (s : ℤ) (hs : s = 1 ∨ s = -1)
    (N : ℕ) (hN : 0 < N) (hL : N ≤ 268435455) (hN' : ∀ p, p.Prime → p ∣ N → p ≤ 31) (out inp : List (Cplx (Ieee F))) (ho : N ≤ out.length) (hi : N ≤ inp.length)
    (hfin : ∀ n < N, FiniteParts (inp.getD n 0) ∧ (inp.getD n 0).re.Valid ∧ (inp.getD n 0).im.Valid)
    (hrange : 6 * ∑ n ∈ Finset.range N, (‖(inp.getD n 0).toComplex fun a => (a.val : ℝ)‖ + 2 ^ (F.emin + F.p)) ≤ (2 : ℝ) ^ (F.emax - 1)) :
    ∃ X : List (Cplx (Ieee F)), call (Trig.ieee l F) s N out inp = .ok (X ++ out.drop N) ∧ X.length = N ∧ ∀ k < N, FiniteParts (X.getD k 0) ∧
      ‖((X.getD k 0).toComplex fun a => (a.val : ℝ)) - Spec.dft s N (fun n => (inp.getD n 0).toComplex fun a => (a.val : ℝ)) k‖ ≤
        72 * Real.logb 2 N / 2 ^ F.p * ∑ n ∈ Finset.range N, (‖(inp.getD n 0).toComplex fun a => (a.val : ℝ)‖ + 2 ^ (F.emin + F.p)) := by
  have hA := Trig.binary_accurate l F.p hp hp' hl
  have h10 : (2 : ℝ) ^ 10 ≤ 2 ^ F.p := pow_le_pow_right₀ (by norm_num) hp
  have h9 : ((9 : ℕ) : ℝ) / 2 ^ F.p ≤ 1 / 2 := by
    rw [div_le_div_iff₀ (by positivity) (by norm_num)]
    push_cast
    linarith
  have hsq : |1 / √2| ≤ 1 := by
    rw [abs_of_nonneg (by positivity), div_le_one (by positivity)]
    exact Real.one_le_sqrt.mpr (by norm_num)
  have h11' : roundings 11 N ≤ 28 * 36 := by
    have h := (roundings11_le N hN hN').trans (Nat.pow_le_pow_left (show N ≤ 2 ^ 28 by omega) 36)
    rw [← pow_mul] at h
    exact (Nat.pow_le_pow_iff_right (by norm_num)).mp h
  have hlog : (roundings 11 N : ℝ) ≤ 36 * Real.logb 2 N := by
    have h : (2 : ℝ) ^ roundings 11 N ≤ (N : ℝ) ^ 36 := by exact_mod_cast roundings11_le N hN hN'
    have h' := (Real.logb_le_logb (by norm_num : (1 : ℝ) < 2) (by positivity) (by positivity)).mpr h
    rw [Real.logb_pow, Real.logb_pow, Real.logb_self_eq_one (by norm_num)] at h'
    simpa using h'
  have hE : ((roundings 11 N : ℕ) : ℝ) ≤ 1008 := by exact_mod_cast h11'
  have hb := pow_sub_one_le (1 / 2 ^ F.p) (by positivity) (roundings 11 N) (by
    rw [mul_one_div, div_le_one (by positivity)]
    linarith)
  rw [mul_one_div] at hb
  have hb2 : 2 * (roundings 11 N : ℝ) / 2 ^ F.p ≤ 2 := by
    rw [div_le_iff₀ (by positivity)]
    linarith
  have hS : 0 ≤ ∑ n ∈ Finset.range N, (‖(inp.getD n 0).toComplex fun a => (a.val : ℝ)‖ + 2 ^ (F.emin + F.p)) := Finset.sum_nonneg fun n _ => by positivity
  obtain ⟨X, e, hX, h⟩ := C114_range U (Trig.ieee l F) 11 268435455 (by
      calc 11 ≤ 2 ^ 10 := by norm_num
        _ ≤ _ := Nat.pow_le_pow_right (by norm_num) hp)
    (fun n N h1 h2 => literal_range U 9 _ _ (Real.abs_cos_le_one _) h9 (by have := hA.cos n N h1 h2; rwa [mul_one_div] at this))
    (fun n N h1 h2 => literal_range U 9 _ _ (Real.abs_sin_le_one _) h9 (by have := hA.sin n N h1 h2; rwa [mul_one_div] at this))
    (literal_range U 9 _ _ hsq h9 (by have := hA.invSqrtTwo; rwa [mul_one_div] at this)) s hs N hN hL hN' out inp ho hi hfin (by
      refine le_trans ?_ hrange
      have : (1 + 1 / 2 ^ F.p : ℝ) ^ roundings 11 N ≤ 3 := by linarith
      have := mul_le_mul_of_nonneg_right this hS
      linarith)
  refine ⟨X, e, hX, fun k hk => ⟨(h k hk).1, (h k hk).2.trans ?_⟩⟩
  refine mul_le_mul_of_nonneg_right (hb.trans (div_le_div_of_nonneg_right ?_ (by positivity))) hS
  linarith

/-- Single precision, 1000 bins, inputs up to `10^30` in each part: nothing overflows. -/
example (inp : List (Cplx (Ieee .single))) (hi : inp.length = 1000) (h : ∀ n < 1000, FiniteParts (inp.getD n 0) ∧ (inp.getD n 0).re.Valid ∧ (inp.getD n 0).im.Valid)
    (hb : ∀ n < 1000, |((inp.getD n 0).re.val : ℝ)| ≤ 10 ^ 30 ∧ |((inp.getD n 0).im.val : ℝ)| ≤ 10 ^ 30) :
    haveI : NeZero Format.single.p := ⟨by decide⟩
    ∃ X, call (Trig.ieee 64 .single) (-1) 1000 (List.replicate 1000 0) inp = .ok X ∧ ∀ k < 1000, FiniteParts (X.getD k 0) := by
  have : NeZero Format.single.p := ⟨by decide⟩
  obtain ⟨X, e, -, h⟩ := C114_code 64 .single Silence.usual_single (by decide) (by decide) (by decide) (-1) (Or.inr rfl) 1000 (by norm_num) (by norm_num) (by
    intro p hp hd
    have h2 : p ∣ 10 ^ 3 := hd
    have := Nat.le_of_dvd (by norm_num) (hp.dvd_of_dvd_pow h2)
    omega) (List.replicate 1000 0) inp (by rw [List.length_replicate]) hi.ge h (by
    have : ∀ n ∈ Finset.range 1000, ‖(inp.getD n 0).toComplex fun a => (a.val : ℝ)‖ + (2 : ℝ) ^ (Format.single.emin + Format.single.p) ≤ 10 ^ 31 := by
      intro n hn
      obtain ⟨b1, b2⟩ := hb n (Finset.mem_range.mp hn)
      have e1 : ‖(inp.getD n 0).toComplex fun a => (a.val : ℝ)‖ ≤ |((inp.getD n 0).re.val : ℝ)| + |((inp.getD n 0).im.val : ℝ)| := Complex.norm_le_abs_re_add_abs_im _
      have e2 : (2 : ℝ) ^ (Format.single.emin + Format.single.p) ≤ 1 := by
        have : Format.single.emin + (Format.single.p : ℤ) = -125 := by decide
        rw [this]
        norm_num
      linarith
    have := Finset.sum_le_sum this
    rw [Finset.sum_const, Finset.card_range, nsmul_eq_mul] at this
    have e3 : (Format.single.emax - 1 : ℤ) = (127 : ℕ) := by decide
    rw [e3, zpow_natCast]
    refine (mul_le_mul_of_nonneg_left this (by norm_num)).trans ?_
    norm_num)
  exact ⟨_, e, fun k hk => by
    have := (h k hk).1
    rw [List.drop_eq_nil_of_le (by rw [List.length_replicate]), List.append_nil]
    exact this⟩

end

/-- **C114** The eight point transform overflows where its result would not: for the single number `2^127 (1 + i)` at position one, every bin of the exact transform has parts of at most `√2 2^127`, which is
less than the largest number of `float`; but the odd bins are not finite, because the factor `1/√2` is applied last. -/
theorem C114_overflow (T : Trig (Ieee .single)) (out : List (Cplx (Ieee .single))) (ho : 8 ≤ out.length) :
    let big : Ieee .single := .num false (2 ^ 127)
    let inp : List (Cplx (Ieee .single)) := [0, ⟨big, big⟩, 0, 0, 0, 0, 0, 0]
    big.Valid ∧ (∀ k, ‖Spec.dft (-1) 8 (fun n => (inp.getD n 0).toComplex fun a => (a.val : ℝ)) k‖ = √2 * 2 ^ 127) ∧ √2 * 2 ^ 127 < (2 - 2 ^ (-23 : ℤ)) * (2 : ℝ) ^ 127 ∧
    ∃ X : List (Cplx (Ieee .single)), call T (-1) 8 out inp = .ok (X ++ out.drop 8) ∧ X.length = 8 ∧
      ¬FiniteParts (X.getD 1 0) ∧ ¬FiniteParts (X.getD 3 0) ∧ ¬FiniteParts (X.getD 5 0) ∧ ¬FiniteParts (X.getD 7 0) := by
  intro big inp
  refine ⟨⟨by positivity, by norm_num [Format.single], 1, 127, by decide, by decide, by norm_num⟩, ?_, ?_, ?_⟩
  · intro k
    have hz : ∀ n, n ≠ 1 → ((inp.getD n 0).toComplex fun a => (a.val : ℝ)) = 0 := by
      intro n hn
      have : inp.getD n 0 = 0 := by
        match n, hn with
        | 0, _ => rfl
        | 1, hn => exact absurd rfl hn
        | 2, _ => rfl
        | 3, _ => rfl
        | 4, _ => rfl
        | 5, _ => rfl
        | 6, _ => rfl
        | 7, _ => rfl
        | n + 8, _ => rfl
      rw [this]
      apply Complex.ext <;> exact Rat.cast_zero
    have h1 : ((inp.getD 1 0).toComplex fun a => (a.val : ℝ)) = (⟨2 ^ 127, 2 ^ 127⟩ : ℂ) := by
      have e : (((2 ^ 127 : ℚ)) : ℝ) = 2 ^ 127 := by push_cast; rfl
      apply Complex.ext <;> exact e
    unfold Spec.dft
    beta_reduce
    rw [Finset.sum_eq_single 1 (fun n _ hn => by rw [hz n hn, zero_mul]) (fun h => absurd (Finset.mem_range.mpr (by norm_num)) h), norm_mul, norm_unit, mul_one, h1]
    have e : ‖(⟨2 ^ 127, 2 ^ 127⟩ : ℂ)‖ ^ 2 = (√2 * 2 ^ 127) ^ 2 := by
      rw [← Complex.normSq_eq_norm_sq, Complex.normSq_mk, mul_pow, Real.sq_sqrt (by norm_num)]
      ring
    exact (sq_eq_sq₀ (norm_nonneg _) (by positivity)).mp e
  · have : √2 < 3 / 2 := by
      rw [Real.sqrt_lt' (by norm_num)]
      norm_num
    refine mul_lt_mul_of_pos_right (this.trans ?_) (by positivity)
    norm_num
  · have key : ∃ X : List (Cplx (Ieee .single)), call T (-1) 8 out inp = .ok (X ++ out.drop 8) ∧ X.length = 8 ∧ ∀ k < 8, k % 2 = 1 → ¬FiniteParts (X.getD k 0) := by
      apply call_of_bins T (-1) 8 out inp ho (fun k r => k % 2 = 1 → ¬FiniteParts r)
      obtain ⟨out', e, l, h1, h2⟩ := dit_ind T (-1) 8 inp (factors T (-1) 8) (by simp [factors])
        (fun _ B x k r => B = 8 → x 1 = ⟨big, big⟩ → x 5 = 0 → x 3 = 0 → x 7 = 0 → k % 2 = 1 → ¬FiniteParts r)
        (fun _ _ h => absurd h (by norm_num))
        (by
          intro _ R x y hR _ _ _ hy k hk r hr hB h1 h5 h3 h7 hodd hf
          subst hB
          have y1 := (hy 1 (by norm_num)).trans h1
          have y5 := (hy 5 (by norm_num)).trans h5
          have y3 := (hy 3 (by norm_num)).trans h3
          have y7 := (hy 7 (by norm_num)).trans h7
          have bad1 : ¬FiniteParts (fiddle (y 1 - y 5) (y 3 - y 7)) := by
            rw [y1, y5, y3, y7]
            exact fun h => absurd h.1 (by decide +kernel)
          have bad2 : ¬FiniteParts (fiddle (y 3 - y 7) (y 1 - y 5)) := by
            rw [y1, y5, y3, y7]
            exact fun h => absurd h.2 (by decide +kernel)
          have hlen := dftPos_length T 8 hR y
          have hpos : ∀ k, k % 2 = 1 → (dftPos T 8 y)[k]? = some r → False := by
            intro k hk hr
            have hr' : (dft8 T y)[k]? = some r := hr
            match k, hk, hr' with
            | 1, _, hr => rw [← Option.some.inj hr] at hf; exact bad2 (fin_mul (fin_sub hf).2)
            | 3, _, hr => rw [← Option.some.inj hr] at hf; exact bad1 (fin_mul (fin_sub hf).2)
            | 5, _, hr => rw [← Option.some.inj hr] at hf; exact bad2 (fin_mul (fin_add hf).2)
            | 7, _, hr => rw [← Option.some.inj hr] at hf; exact bad1 (fin_mul (fin_add hf).2)
            | 0, h, _ => exact absurd h (by decide)
            | 2, h, _ => exact absurd h (by decide)
            | 4, h, _ => exact absurd h (by decide)
            | 6, h, _ => exact absurd h (by decide)
            | k + 8, _, hr => exact absurd hr (by simp [dft8])
          unfold FFT.dft at hr
          simp only at hr
          rw [if_pos ⟨trivial, by norm_num⟩, getElem?_take_drop_rev _ _ (by omega), hlen, if_neg (by omega)] at hr
          exact hpos (8 - k) (by omega) hr)
        (by
          intro _ R Q S x k0 v w y hR hsp _ hne _ _ _ _ _ _ _ a ha r hr hB
          rw [hB] at hsp hne
          exact absurd hsp.symm (by rw [show split 8 = 8 by decide]; exact hne))
        8 8 1 out 0 0 (fun n => inp.getD n 0) (le_refl _) ⟨by norm_num, fun p _ hd => (Nat.le_of_dvd (by norm_num) hd).trans (by norm_num)⟩ (by norm_num) (by norm_num) (by omega) (by
          intro n hn
          rw [Nat.zero_add, Nat.mul_one, List.getD_eq_getElem?_getD, List.getElem?_eq_getElem (by simpa [inp] using hn)]
          rfl)
      exact ⟨out', e, l, fun k hk => (h1 k hk).imp fun r hr => ⟨hr.1, hr.2 rfl rfl rfl rfl rfl⟩, h2⟩
    obtain ⟨X, e, l, h⟩ := key
    exact ⟨X, e, l, h 1 (by norm_num) rfl, h 3 (by norm_num) rfl, h 5 (by norm_num) rfl, h 7 (by norm_num) rfl⟩

end FFT
end DSP
