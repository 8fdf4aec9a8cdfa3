import Verif.Props.FFTSpecial
import Verif.Props.HalfComplexError
import Verif.Props.FMDSpecial

/-!
# C117: the real transform and zero padding at the limits of floating point
-/

namespace DSP

open FFT Spec Complex

namespace FFT

/-- The values taken in pairs as complex numbers, as by the `reinterpret_cast`. -/
def pairs {V : Type} [Zero V] (inp : List V) : List (Cplx V) := (List.range (inp.length / 2)).map fun n => (⟨inp.getD (2 * n) 0, inp.getD (2 * n + 1) 0⟩ : Cplx V)

theorem pairs_get {V : Type} [Zero V] (inp : List V) (n : ℕ) (hn : 2 * n + 1 < inp.length) : (pairs inp)[n]? = some ⟨inp.getD (2 * n) 0, inp.getD (2 * n + 1) 0⟩ := by
  unfold pairs
  rw [List.getElem?_map, List.getElem?_range (by omega)]
  rfl

/-- The whole call, from what holds of the bins of the transform of half the size. -/
theorem half_of_bins {V : Type} [Zero V] [Add V] [Sub V] [Mul V] [Neg V] [Div V] [IntCast V] (T : Trig V) (one half : V) (N : ℕ) (hN : 0 < N) (out : List (Cplx V)) (inp : List V) (ho : N + 1 ≤ out.length)
    (P : ℕ → Cplx V → Prop)
    (h : ∃ out', dit T (-1) N N 1 out 0 (pairs inp) 0 (Rounded.factors T N) = .ok out' ∧ out'.length = out.length ∧ (∀ k < N, ∃ r, out'[0 + k]? = some r ∧ P k r) ∧
      (∀ j, (j < 0 ∨ 0 + N ≤ j) → out'[j]? = out[j]?)) :
    ∃ (out' : List (Cplx V)) (Z : ℕ → Cplx V), (∀ k < N, P k (Z k)) ∧ Rounded.halfComplex T one half (2 * N) out inp = .ok out' ∧ out'.length = out.length ∧
      (∀ k, 0 < k → k < N → out'[k]? = some (Z k * Rounded.halfA T one half (2 * N) k + (Z (N - k)).conj * Rounded.halfB T one half (2 * N) k)) ∧
      out'[0]? = some ⟨half * ((Z 0).re + (Z 0).im), 0⟩ ∧ out'[N]? = some ⟨half * ((Z 0).re - (Z 0).im), 0⟩ ∧ ∀ k, N < k → out'[k]? = out[k]? := by
  have hdiv : 2 * N / 2 = N := by omega
  obtain ⟨o1, e1, l1, p1, q1⟩ := h
  unfold Rounded.halfComplex
  simp only [hdiv]
  unfold pairs at e1
  rw [e1]
  simp only [Nat.zero_add] at p1 q1
  choose! Zh hZ hP using p1
  simp only [bind, Except.bind]
  have r0 : rd o1 0 = .ok (Zh 0) := rd_some (i := 0) (hZ 0 hN)
  rw [r0]
  simp only
  rw [wr_nat (by omega)]
  simp only
  have r1 : ∀ v, rd (o1.set N v) 0 = .ok (Zh 0) := by
    intro v
    apply rd_some (i := 0)
    rw [List.getElem?_set, if_neg (by omega), hZ 0 hN]
  rw [r1]
  simp only
  have w0 : ∀ (l : List (Cplx V)) v, 0 < l.length → wr l 0 v = .ok (l.set 0 v) := by
    intro l v h; exact wr_nat (i := 0) h
  rw [w0 _ _ (by simp; omega)]
  simp only
  obtain ⟨o2, e2, l2, p2, r2, s2, t2⟩ := Rounded.combine_ok N hN (Rounded.halfA T one half (2 * N)) (Rounded.halfB T one half (2 * N)) Zh ⟨half * ((Zh 0).re + (Zh 0).im), 0⟩
    ⟨half * ((Zh 0).re - (Zh 0).im), 0⟩ out ((o1.set N ⟨half * ((Zh 0).re - (Zh 0).im), 0⟩).set 0 ⟨half * ((Zh 0).re + (Zh 0).im), 0⟩) ho (by simp [l1])
    (by
      intro k h0 h1
      rw [List.getElem?_set, if_neg (by omega), List.getElem?_set, if_neg (by omega), hZ k (by omega)])
    (by rw [List.getElem?_set, if_pos rfl, if_pos (by simp; omega)])
    (by rw [List.getElem?_set, if_neg (by omega), List.getElem?_set, if_pos rfl, if_pos (by omega)])
    (by
      intro k hk
      rw [List.getElem?_set, if_neg (by omega), List.getElem?_set, if_neg (by omega), q1 k (by omega)])
  exact ⟨o2, Zh, hP, e2, l2, p2, r2, s2, t2⟩

section spread

variable {F : Format}

theorem fin_mul_left {a b : Cplx (Ieee F)} (h : FiniteParts (a * b)) : FiniteParts a := by
  have h1 : (a.re * b.re - a.im * b.im).Finite := h.1
  exact ⟨(of_mul (of_sub h1).1).1, (of_mul (of_sub h1).2).1⟩

/-- The bins of a transform are finite only if all of its inputs are. -/
theorem dit_fin (T : Trig (Ieee F)) (s : ℤ) (N : ℕ) (hN : 0 < N) (hp : ∀ p, p.Prime → p ∣ N → p ≤ 31) (out inp z : List (Cplx (Ieee F))) (ho : N ≤ out.length) (hz : N ≤ z.length) (x : ℕ → Cplx (Ieee F))
    (hx : ∀ n < N, inp[n]? = some (x n)) :
    ∃ out', dit T s N N 1 out 0 inp 0 z = .ok out' ∧ out'.length = out.length ∧ (∀ k < N, ∃ r, out'[0 + k]? = some r ∧ (FiniteParts r → ∀ n < N, FiniteParts (x n))) ∧
      (∀ j, (j < 0 ∨ 0 + N ≤ j) → out'[j]? = out[j]?) := by
  exact dit_ind T s N inp z hz (fun _ B x _ r => FiniteParts r → ∀ n < B, FiniteParts (x n))
    (by
      intro _ x h n hn
      obtain rfl : n = 0 := by omega
      exact h)
    (by
      intro _ R x y hR _ _ _ hy k hk r hr hf j hj
      rw [← hy j hj]
      exact dft_fin T s R hR y k hk r hr hf j hj)
    (by
      intro _ R Q S x k0 v w y hR _ _ _ hQ _ _ hk0 hv _ hy a ha r hr hf n hn
      have hRpos : 0 < R := by omega
      have hm : n % R < R := Nat.mod_lt _ hRpos
      have h1 : FiniteParts (v (n % R)) := by
        have := dft_fin T s R hR y a ha r hr hf (n % R) hm
        rw [hy _ hm] at this
        split_ifs at this with h0
        · rw [h0]; exact this
        · exact fin_mul this
      have := hv (n % R) hm h1 (n / R) ((Nat.div_lt_iff_lt_mul hRpos).mpr (by rwa [Nat.mul_comm]))
      simp only [Nat.mod_add_div'] at this
      exact this)
    N N 1 out 0 0 x (le_refl _) ⟨hN, hp⟩ (by norm_num) (by ring) (by omega) (fun n hn => by
      rw [Nat.zero_add, Nat.mul_one]
      exact hx n hn)

/-- **C117** One infinity or NaN among the values leaves no bin of the real transform finite, for any size and any constants. -/
theorem C117_spread (T : Trig (Ieee F)) (one half : Ieee F) (N : ℕ) (hN : 0 < N) (hp : ∀ p, p.Prime → p ∣ N → p ≤ 31) (out : List (Cplx (Ieee F))) (inp : List (Ieee F)) (ho : N + 1 ≤ out.length)
    (hi : 2 * N ≤ inp.length) (n : ℕ) (hn : n < 2 * N) (hbad : ¬(inp.getD n 0).Finite) :
    ∃ out', Rounded.halfComplex T one half (2 * N) out inp = .ok out' ∧ out'.length = out.length ∧ (∀ k ≤ N, ¬FiniteParts (out'.getD k 0)) ∧ ∀ k, N < k → out'[k]? = out[k]? := by
  obtain ⟨out', Z, hP, e, l, h1, h0, hNN, hr⟩ := half_of_bins T one half N hN out inp ho (fun _ r => ¬FiniteParts r) (by
    obtain ⟨o, e, l, h1, h2⟩ := dit_fin T (-1) N hN hp out (pairs inp) (Rounded.factors T N) (by omega) (by simp [Rounded.factors]) (fun n => ⟨inp.getD (2 * n) 0, inp.getD (2 * n + 1) 0⟩)
      (fun n hn => pairs_get inp n (by omega))
    refine ⟨o, e, l, fun k hk => (h1 k hk).imp fun r hr => ⟨hr.1, fun hf => ?_⟩, h2⟩
    have := hr.2 hf (n / 2) (by omega)
    rcases Nat.even_or_odd' n with ⟨c, hc | hc⟩
    · rw [show 2 * (n / 2) = n by omega] at this
      exact hbad this.1
    · rw [show 2 * (n / 2) + 1 = n by omega] at this
      exact hbad this.2)
  refine ⟨out', e, l, fun k hk hf => ?_, hr⟩
  rcases Nat.eq_zero_or_pos k with rfl | hk0
  · rw [List.getD_eq_getElem?_getD, h0, Option.getD_some] at hf
    have := of_add (of_mul hf.1).2
    exact hP 0 hN ⟨this.1, this.2⟩
  · rcases Nat.lt_or_ge k N with hkN | hkN
    · rw [List.getD_eq_getElem?_getD, h1 k hk0 hkN, Option.getD_some] at hf
      exact hP k hkN (fin_mul_left (fin_add hf).1)
    · obtain rfl : k = N := by omega
      rw [List.getD_eq_getElem?_getD, hNN, Option.getD_some] at hf
      have := of_sub (of_mul hf.1).2
      exact hP 0 hN ⟨this.1, this.2⟩

/-- A NaN among 12 values. -/
example (T : Trig (Ieee .single)) (one half : Ieee .single) :
    ∃ out', Rounded.halfComplex T one half 12 (List.replicate 7 0) [0, 0, 0, .nan, 0, 0, 0, 0, 0, 0, 0, 0] = .ok out' ∧ ∀ k ≤ 6, ¬FiniteParts (out'.getD k 0) := by
  obtain ⟨o, e, -, h, -⟩ := C117_spread T one half 6 (by norm_num) (by
    intro p hp hd
    have := Nat.le_of_dvd (by norm_num) hd
    omega) (List.replicate 7 0) [0, 0, 0, .nan, 0, 0, 0, 0, 0, 0, 0, 0] (by simp) (by simp) 3 (by norm_num) (fun h => h)
  exact ⟨o, e, h⟩

end spread

/-! ### The range -/

namespace Ranged

section

variable {V A : Type} [Parts V A] [Zero V] [Add V] [Sub V] [Mul V] [IntCast V] [Zero A] [Add A] [Sub A] [Mul A] [SMul V A] {E : Env V A} {Ω : ℝ} (H : E.Lawful Ω) {K L : ℕ} {m n : ℝ} {a b : A} {z w : ℂ}
include H

/-- A complex constant as second factor. -/
theorem Near.mul_right (t : ℕ) {c : A} {r : ℂ} (hr : ‖r‖ ≤ 1) (gc : E.good c) (hc : ‖E.val c - r‖ ≤ (1 + E.u) ^ t - 1) (ha : Near E Ω K m a z) :
    Near E Ω (K + t + 3) m (a * c) (z * r) := by
  have hm := ha.nonneg H
  have hu := H.nonneg
  refine near_round H 3 (v := E.val a * E.val c) ?_ fun hb => ?_
  · rw [norm_mul]
    have : ‖z‖ * ‖r‖ ≤ ‖z‖ * 1 := by gcongr
    linarith [ha.1]
  · obtain ⟨ga, ea⟩ := ha.2 (budget_mono H hm hb (by omega) le_rfl)
    have h0 := pow_nonneg' E.u hu t
    have hs : ‖E.val a‖ ≤ (1 + E.u) ^ K * m := by
      calc ‖E.val a‖ = ‖(E.val a - z) + z‖ := by ring_nf
        _ ≤ ‖E.val a - z‖ + ‖z‖ := norm_add_le _ _
        _ ≤ ((1 + E.u) ^ K - 1) * m + m := by linarith [ha.1, H.tiny]
        _ = _ := by ring
    refine ⟨?_, fun hv => ?_⟩
    · calc _ = ‖(E.val c - r) * E.val a + r * (E.val a - z)‖ := by ring_nf
        _ ≤ ‖(E.val c - r) * E.val a‖ + ‖r * (E.val a - z)‖ := norm_add_le _ _
        _ = ‖E.val c - r‖ * ‖E.val a‖ + ‖r‖ * ‖E.val a - z‖ := by rw [norm_mul, norm_mul]
        _ ≤ ((1 + E.u) ^ t - 1) * ((1 + E.u) ^ K * m) + 1 * (((1 + E.u) ^ K - 1) * m) := by gcongr
        _ = _ := by rw [pow_add]; ring
    · have hv' : (1 + E.u) ^ 2 * (‖E.val a * E.val c‖ + E.μ) ≤ Ω := by
        have h1 : (1 + E.u) ^ 2 * (‖E.val a * E.val c‖ + E.μ) ≤ (1 + E.u) ^ 2 * ((1 + E.u) ^ (K + t) * m) := by gcongr
        rw [← mul_assoc, ← pow_add] at h1
        exact h1.trans (budget_mono H hm hb (by omega) le_rfl)
      simpa using H.mul a c ga gc hv'

end

section

variable {F : Format} {K : ℕ} {m Ω : ℝ} {a : Cplx (Ieee F)} {z : ℂ}

theorem Near.conj (ha : Near (ieeeEnv F) Ω K m a z) : Near (ieeeEnv F) Ω K m a.conj ((starRingEnd ℂ) z) := by
  have e : (ieeeEnv F).val a.conj = (starRingEnd ℂ) ((ieeeEnv F).val a) := by
    apply Complex.ext
    · rfl
    · show (((-a.im).val : ℚ) : ℝ) = -((a.im.val : ℚ) : ℝ)
      rw [Ieee.neg_val]
      push_cast
      rfl
  refine ⟨by rw [Complex.norm_conj]; exact ha.1, fun h => ?_⟩
  obtain ⟨g, b⟩ := ha.2 h
  refine ⟨⟨g.1, good_neg _ g.2⟩, ?_⟩
  rw [e, ← map_sub, Complex.norm_conj]
  exact b

/-- Half of the sum or the difference of the parts. -/
theorem outer (U : Silence.Usual F) (half d : Ieee F) (gh : GoodIeee half) (hh : (half.val : ℝ) = 1 / 2) (S x y : ℝ) (hx : |x| + 2 ^ (F.emin + F.p) ≤ 2 * ((1 + 1 / 2 ^ F.p) ^ K * S))
    (hd : |x| ≤ 2 ^ (F.emax - 1) → GoodIeee d ∧ |(d.val : ℝ) - x| ≤ 1 / 2 ^ F.p * (|x| + 2 ^ (F.emin + F.p - 1))) (hy : |x - y| ≤ 2 * (((1 + 1 / 2 ^ F.p) ^ K - 1) * S))
    (hr : 2 * ((1 + 1 / 2 ^ F.p) ^ (K + 2) * S) ≤ 2 ^ (F.emax - 1)) : GoodIeee (half * d) ∧ |((half * d).val : ℝ) - y / 2| ≤ ((1 + 1 / 2 ^ F.p) ^ (K + 2) - 1) * S := by
  obtain ⟨u0, u1⟩ := usual_u U
  have G := good_mul U half d gh
  rw [hh] at G
  set u : ℝ := 1 / 2 ^ F.p with hu
  have hm : (2 : ℝ) ^ (F.emin + F.p) = 2 * 2 ^ (F.emin + F.p - 1) := by rw [zpow_sub_one₀ (by norm_num)]; ring
  have m0 : (0 : ℝ) < 2 ^ (F.emin + F.p - 1) := by positivity
  rw [hm] at hx
  generalize (2 : ℝ) ^ (F.emin + F.p - 1) = μ at *
  set P := (1 + u) ^ K * S with hP
  have hP2 : (1 + u) ^ (K + 2) * S = (1 + u) ^ 2 * P := by rw [hP, pow_add]; ring
  have x0 := abs_nonneg x
  have hP0 : 0 ≤ P := by linarith
  rw [hP2] at hr
  have hPle : (1 + u) * P ≤ (1 + u) ^ 2 * P := by
    refine mul_le_mul_of_nonneg_right ?_ hP0
    nlinarith
  have hP1 : P ≤ (1 + u) * P := by nlinarith
  generalize (2 : ℝ) ^ (F.emax - 1) = Ω at *
  obtain ⟨gd, ed⟩ := hd (by linarith)
  have dsz : |(d.val : ℝ)| ≤ |x| + u * (|x| + μ) := by
    calc |(d.val : ℝ)| = |((d.val : ℝ) - x) + x| := by ring_nf
      _ ≤ _ + _ := abs_add_le _ _
      _ ≤ _ := by linarith
  have hhalf : |1 / 2 * (d.val : ℝ)| = |(d.val : ℝ)| / 2 := by rw [abs_mul, abs_of_nonneg (by norm_num)]; ring
  obtain ⟨g, e⟩ := G gd (by
    rw [hhalf]
    nlinarith)
  refine ⟨g, ?_⟩
  rw [hhalf] at e
  have t1 : |((half * d).val : ℝ) - y / 2| ≤ |((half * d).val : ℝ) - 1 / 2 * d.val| + |(d.val : ℝ) - x| / 2 + |x - y| / 2 := by
    calc _ = |(((half * d).val : ℝ) - 1 / 2 * d.val) + ((d.val : ℝ) - x) / 2 + (x - y) / 2| := by ring_nf
      _ ≤ |((half * d).val : ℝ) - 1 / 2 * d.val| + |((d.val : ℝ) - x) / 2| + |(x - y) / 2| := abs_add_three _ _ _
      _ = _ := by rw [abs_div, abs_div, abs_two]
  have e2 : ((1 + u) ^ (K + 2) - 1) * S = (2 * u + u ^ 2) * P + ((1 + u) ^ K - 1) * S := by rw [sub_mul, hP2]; rw [hP]; ring
  rw [e2]
  have t2 : |((half * d).val : ℝ) - 1 / 2 * d.val| ≤ u * ((|x| + u * (|x| + μ)) / 2 + μ) := e.trans (by gcongr)
  have t3 : (2 * u + u ^ 2) * (|x| / 2 + μ) ≤ (2 * u + u ^ 2) * P := by
    refine mul_le_mul_of_nonneg_left ?_ (by positivity)
    linarith
  have t4 : u * ((|x| + u * (|x| + μ)) / 2 + μ) + u * (|x| + μ) / 2 ≤ (2 * u + u ^ 2) * (|x| / 2 + μ) := by
    have : 0 ≤ u * μ := by positivity
    have : 0 ≤ u * (u * μ) := by positivity
    nlinarith
  linarith

end

end Ranged

section

variable {F : Format}

open Ranged

theorem norm_sincos (x : ℝ) : ‖(⟨Real.sin x, Real.cos x⟩ : ℂ)‖ = 1 := by
  rw [Complex.norm_def, Complex.normSq_mk, ← sq, ← sq, Real.sin_sq_add_cos_sq, Real.sqrt_one]

/-- Halving a complex number of at most twice the size of one. -/
theorem constant_range (U : Silence.Usual F) (t : ℕ) (ht : 4 * t ≤ 2 ^ F.p) (half : Ieee F) (gh : GoodIeee half) (hh : (half.val : ℝ) = 1 / 2) (a : Cplx (Ieee F)) (z : ℂ) (hz : ‖z‖ ≤ 2)
    (ha : Ranged.Near (ieeeEnv F) (2 ^ (F.emax - 1)) (2 * t + 1) (2 + 2 * 2 ^ (F.emin + F.p)) a z) :
    (ieeeEnv F).good (half • a) ∧ ‖(ieeeEnv F).val (half • a) - z / 2‖ ≤ (1 + (ieeeEnv F).u) ^ (2 * t + 3) - 1 := by
  have H := ieee_lawful U
  obtain ⟨u0, u1⟩ := usual_u U
  have hmu : (2 : ℝ) ^ (F.emin + F.p) ≤ 1 / 2 ^ F.p := by
    have := U.emin
    calc (2 : ℝ) ^ (F.emin + F.p) ≤ 2 ^ (-(F.p : ℤ)) := zpow_le_zpow_right₀ (by norm_num) (by omega)
      _ = _ := by rw [zpow_neg, zpow_natCast, one_div]
  have hΩ : (8 : ℝ) ≤ 2 ^ (F.emax - 1) := by
    have := U.emax
    have := U.p
    calc (8 : ℝ) = 2 ^ (3 : ℤ) := by norm_num
      _ ≤ _ := zpow_le_zpow_right₀ (by norm_num) (by omega)
  have ht' : (t : ℝ) * (1 / 2 ^ F.p) ≤ 1 / 4 := by
    rw [mul_one_div, div_le_div_iff₀ (by positivity) (by norm_num)]
    have : ((4 * t : ℕ) : ℝ) ≤ ((2 ^ F.p : ℕ) : ℝ) := Nat.cast_le.mpr ht
    push_cast at this
    linarith
  have key : (ieeeEnv F).u = 1 / 2 ^ F.p := rfl
  have keyμ : (ieeeEnv F).μ = 2 ^ (F.emin + F.p) := rfl
  have n := Ranged.near_round H (K := 2 * t + 1) (m := 1 + 2 ^ (F.emin + F.p)) (z := z / 2) (r := half • a) 1 (v := (ieeeEnv F).valV half * (ieeeEnv F).val a) (by
      rw [norm_div, Complex.norm_ofNat, keyμ]
      linarith) (fun hb => by
      have hb' : (1 + (ieeeEnv F).u) ^ (2 * t + 1) * (2 + 2 * 2 ^ (F.emin + F.p)) ≤ 2 ^ (F.emax - 1) := by
        refine le_trans ?_ hΩ
        have := pow_sub_one_le (1 / 2 ^ F.p) u0.le (2 * t + 1) (by push_cast; nlinarith)
        push_cast at this
        have h3 : (1 + 1 / 2 ^ F.p : ℝ) ^ (2 * t + 1) ≤ 3 := by nlinarith
        rw [key]
        calc _ ≤ (3 : ℝ) * (2 + 2 * (1 / 16)) := by
              gcongr
              exact hmu.trans u1
          _ ≤ 8 := by norm_num
      obtain ⟨g, e⟩ := ha.2 hb'
      have hv : ((ieeeEnv F).valV half : ℂ) = 1 / 2 := by
        show (((half.val : ℚ) : ℝ) : ℂ) = 1 / 2
        rw [hh]
        norm_num
      refine ⟨?_, fun hsz => ?_⟩
      · rw [hv, show 1 / 2 * (ieeeEnv F).val a - z / 2 = ((ieeeEnv F).val a - z) / 2 by ring, norm_div, Complex.norm_ofNat]
        linarith
      · rw [Nat.cast_one, one_mul]
        refine H.smul half a gh g ?_
        have : 0 ≤ (ieeeEnv F).μ := H.tiny
        have hle : (1 + (ieeeEnv F).u) ^ (2 * t + 1) * (1 + 2 ^ (F.emin + F.p)) ≤ (1 + (ieeeEnv F).u) ^ (2 * t + 1) * (2 + 2 * 2 ^ (F.emin + F.p)) := by
          have : (0 : ℝ) < 2 ^ (F.emin + F.p) := by positivity
          have : 0 ≤ (ieeeEnv F).u := H.nonneg
          gcongr
          · norm_num
          · linarith
        linarith)
  obtain ⟨g, e⟩ := n.2 (by
    refine le_trans ?_ hΩ
    have := pow_sub_one_le (1 / 2 ^ F.p) u0.le (2 * t + 1 + 1) (by push_cast; nlinarith)
    push_cast at this
    have h3 : (1 + 1 / 2 ^ F.p : ℝ) ^ (2 * t + 1 + 1) ≤ 3 := by nlinarith
    rw [key]
    calc _ ≤ (3 : ℝ) * (1 + 1 / 16) := by
          gcongr
          exact hmu.trans u1
      _ ≤ 8 := by norm_num)
  refine ⟨g, e.trans ?_⟩
  rw [key]
  have h0 := pow_nonneg' (1 / 2 ^ F.p) u0.le (2 * t + 1 + 1)
  rw [show 2 * t + 3 = 2 * t + 1 + 1 + 1 by ring, pow_succ _ (2 * t + 1 + 1)]
  nlinarith

/-- The constants `A` and `B`. -/
theorem halfAB_range (U : Silence.Usual F) (t L : ℕ) (ht : 4 * t ≤ 2 ^ F.p) (T : Trig (Ieee F)) (hA : Ranged.Accurate (ieeeEnv F) T t L) (one half : Ieee F) (g1 : GoodIeee one) (h1 : (one.val : ℝ) = 1)
    (gh : GoodIeee half) (hh : (half.val : ℝ) = 1 / 2) (N k : ℕ) (hk : k < N) (hL : N ≤ L) :
    ((ieeeEnv F).good (Rounded.halfA T one half N k) ∧ ‖(ieeeEnv F).val (Rounded.halfA T one half N k) - FFT.halfA Trig.real N k‖ ≤ (1 + (ieeeEnv F).u) ^ (2 * t + 3) - 1 ∧ ‖FFT.halfA Trig.real N k‖ ≤ 1) ∧
    ((ieeeEnv F).good (Rounded.halfB T one half N k) ∧ ‖(ieeeEnv F).val (Rounded.halfB T one half N k) - FFT.halfB Trig.real N k‖ ≤ (1 + (ieeeEnv F).u) ^ (2 * t + 3) - 1 ∧ ‖FFT.halfB Trig.real N k‖ ≤ 1) := by
  have H := ieee_lawful U
  have keyμ : (ieeeEnv F).μ = 2 ^ (F.emin + F.p) := rfl
  have μ0 : (0 : ℝ) < 2 ^ (F.emin + F.p) := by positivity
  have u0 := H.nonneg
  have n1 : Ranged.Near (ieeeEnv F) (2 ^ (F.emax - 1)) (2 * t) (1 + 2 ^ (F.emin + F.p)) (Cplx.ofReal one) 1 := by
    have e : (ieeeEnv F).val (Cplx.ofReal one) = 1 := by
      apply Complex.ext
      · exact h1
      · show (((0 : Ieee F).val : ℚ) : ℝ) = 0
        have : (0 : Ieee F).val = 0 := rfl
        rw [this, Rat.cast_zero]
    refine ⟨by rw [norm_one, keyμ], fun _ => ⟨⟨g1, H.zero.1⟩, ?_⟩⟩
    rw [e, sub_self, norm_zero]
    exact mul_nonneg (pow_nonneg' _ u0 _) (by linarith)
  have n2 : Ranged.Near (ieeeEnv F) (2 ^ (F.emax - 1)) (2 * t) (1 + 2 ^ (F.emin + F.p)) (Rounded.sincos T N k) ⟨Real.sin (2 * Real.pi * k / N), Real.cos (2 * Real.pi * k / N)⟩ := by
    refine ⟨by rw [norm_sincos, keyμ], fun _ => ⟨⟨(hA.sin k N hk hL).1, (hA.cos k N hk hL).1⟩, ?_⟩⟩
    refine (Complex.norm_le_abs_re_add_abs_im _).trans ?_
    have b1 := (hA.sin k N hk hL).2
    have b2 := (hA.cos k N hk hL).2
    have h3 := bernoulli _ u0 (2 * t)
    push_cast at h3
    have h4 : (1 + (ieeeEnv F).u) ^ (2 * t) - 1 ≤ ((1 + (ieeeEnv F).u) ^ (2 * t) - 1) * (1 + 2 ^ (F.emin + F.p)) := by
      have := pow_nonneg' _ u0 (2 * t)
      nlinarith
    show |((T.sin k N).val : ℝ) - _| + |((T.cos k N).val : ℝ) - _| ≤ _
    have b1' : |((T.sin k N).val : ℝ) - Real.sin (2 * Real.pi * k / N)| ≤ t * (ieeeEnv F).u := b1
    have b2' : |((T.cos k N).val : ℝ) - Real.cos (2 * Real.pi * k / N)| ≤ t * (ieeeEnv F).u := b2
    linarith
  have eA : FFT.halfA Trig.real N k = (1 - ⟨Real.sin (2 * Real.pi * k / N), Real.cos (2 * Real.pi * k / N)⟩) / 2 := by
    unfold FFT.halfA
    rw [Trig.real_exact.sin, Trig.real_exact.cos]
    push_cast; ring
  have eB : FFT.halfB Trig.real N k = (1 + ⟨Real.sin (2 * Real.pi * k / N), Real.cos (2 * Real.pi * k / N)⟩) / 2 := by
    unfold FFT.halfB
    rw [Trig.real_exact.sin, Trig.real_exact.cos]
    push_cast; ring
  have sA := norm_sub_le (1 : ℂ) ⟨Real.sin (2 * Real.pi * k / N), Real.cos (2 * Real.pi * k / N)⟩
  have sB := norm_add_le (1 : ℂ) ⟨Real.sin (2 * Real.pi * k / N), Real.cos (2 * Real.pi * k / N)⟩
  rw [norm_one, norm_sincos] at sA sB
  have two : (1 + 2 ^ (F.emin + F.p) + (1 + 2 ^ (F.emin + F.p)) : ℝ) = 2 + 2 * 2 ^ (F.emin + F.p) := by ring
  have nA := n1.sub H n2
  have nB := n1.add H n2
  rw [two] at nA nB
  obtain ⟨a1, a2⟩ := constant_range U t ht half gh hh _ _ (by linarith) nA
  obtain ⟨b1, b2⟩ := constant_range U t ht half gh hh _ _ (by linarith) nB
  rw [eA, eB]
  refine ⟨⟨a1, a2, ?_⟩, b1, b2, ?_⟩
  · rw [norm_div, Complex.norm_ofNat]; linarith
  · rw [norm_div, Complex.norm_ofNat]; linarith

theorem sum_pairs_range (N : ℕ) (x : ℕ → ℝ) (μ : ℝ) (h : 0 ≤ μ) : ∑ n ∈ Finset.range N, (‖(⟨x (2 * n), x (2 * n + 1)⟩ : ℂ)‖ + μ) ≤ ∑ n ∈ Finset.range (2 * N), (|x n| + μ) := by
  have := sum_pairs_le N x
  rw [Finset.sum_add_distrib, Finset.sum_add_distrib, Finset.sum_const, Finset.sum_const, Finset.card_range, Finset.card_range, nsmul_eq_mul, nsmul_eq_mul]
  push_cast
  nlinarith [mul_nonneg (Nat.cast_nonneg (α := ℝ) N) h]

/-- **C117** No overflow, and accurate to the last: with finite constants that are off by at most `t / 2^p`, if four times the sum of the magnitudes of the values, with an allowance for roundings and for
underflow, stays within half the range, then all bins of the real transform are finite and differ from those of the exact one (half of it for the first and the last) by at most a few times
`(1 + 2^-p)^E - 1` of the sum of the magnitudes of the values, where each adds the smallest normal number `2^(emin + p)` to it. Nothing else is written. -/
theorem C117_range (U : Silence.Usual F) (T : Trig (Ieee F)) (t L : ℕ) (ht : 4 * t ≤ 2 ^ F.p)
    (hcos : ∀ n N, n < N → N ≤ L → (T.cos n N).Finite ∧ (T.cos n N).Valid ∧ |((T.cos n N).val : ℝ) - Real.cos (2 * Real.pi * n / N)| ≤ t / 2 ^ F.p)
    (hsin : ∀ n N, n < N → N ≤ L → (T.sin n N).Finite ∧ (T.sin n N).Valid ∧ |((T.sin n N).val : ℝ) - Real.sin (2 * Real.pi * n / N)| ≤ t / 2 ^ F.p)
    (hinv : T.invSqrtTwo.Finite ∧ T.invSqrtTwo.Valid ∧ |(T.invSqrtTwo.val : ℝ) - 1 / √2| ≤ t / 2 ^ F.p)
    (one half : Ieee F) (h1 : one.Finite ∧ one.Valid ∧ (one.val : ℝ) = 1) (hh : half.Finite ∧ half.Valid ∧ (half.val : ℝ) = 1 / 2)
    (N : ℕ) (hN : 0 < N) (hL : 2 * N ≤ L) (hp : ∀ p, p.Prime → p ∣ N → p ≤ 31) (out : List (Cplx (Ieee F))) (inp : List (Ieee F)) (ho : N + 1 ≤ out.length) (hi : 2 * N ≤ inp.length)
    (hfin : ∀ n < 2 * N, (inp.getD n 0).Finite ∧ (inp.getD n 0).Valid)
    (hrange : 4 * ((1 + 1 / 2 ^ F.p) ^ (roundings t N + 2 * t + 7) * ∑ n ∈ Finset.range (2 * N), (|((inp.getD n 0).val : ℝ)| + 2 ^ (F.emin + F.p))) ≤ (2 : ℝ) ^ (F.emax - 1)) :
    ∃ out', Rounded.halfComplex T one half (2 * N) out inp = .ok out' ∧ out'.length = out.length ∧ (∀ k ≤ N, FiniteParts (out'.getD k 0)) ∧
      (∀ k, 0 < k → k < N → ‖((out'.getD k 0).toComplex fun a => (a.val : ℝ)) - Spec.dft (-1) (2 * N) (fun n => (((inp.getD n 0).val : ℝ) : ℂ)) k‖ ≤
        2 * ((1 + 1 / 2 ^ F.p) ^ (roundings t N + 2 * t + 7) - 1) * ∑ n ∈ Finset.range (2 * N), (|((inp.getD n 0).val : ℝ)| + 2 ^ (F.emin + F.p))) ∧
      (∀ k, k = 0 ∨ k = N → ‖((out'.getD k 0).toComplex fun a => (a.val : ℝ)) - 1 / 2 * Spec.dft (-1) (2 * N) (fun n => (((inp.getD n 0).val : ℝ) : ℂ)) k‖ ≤
        ((1 + 1 / 2 ^ F.p) ^ (roundings t N + 2) - 1) * ∑ n ∈ Finset.range (2 * N), (|((inp.getD n 0).val : ℝ)| + 2 ^ (F.emin + F.p))) ∧
      (∀ k, N < k → out'[k]? = out[k]?) := by
  have H := ieee_lawful U
  obtain ⟨u0, u1⟩ := usual_u U
  have hA : Ranged.Accurate (ieeeEnv F) T t L := by
    have e : (t : ℝ) * (ieeeEnv F).u = t / 2 ^ F.p := by
      show (t : ℝ) * (1 / 2 ^ F.p) = _
      ring
    refine ⟨fun n N h1 h2 => ?_, fun n N h1 h2 => ?_, ?_⟩
    · rw [e]; exact ⟨⟨(hcos n N h1 h2).1, (hcos n N h1 h2).2.1⟩, (hcos n N h1 h2).2.2⟩
    · rw [e]; exact ⟨⟨(hsin n N h1 h2).1, (hsin n N h1 h2).2.1⟩, (hsin n N h1 h2).2.2⟩
    · rw [e]; exact ⟨⟨hinv.1, hinv.2.1⟩, hinv.2.2⟩
  have H' : (ieeeEnv F).Lawful (2 ^ (F.emax - 1) / 2) := H.weaken (by
    have : (0 : ℝ) < 2 ^ (F.emax - 1) := by positivity
    linarith)
  generalize hx : (fun n => ((inp.getD n 0).val : ℝ)) = x
  have hxx : ∀ n, ((inp.getD n 0).val : ℝ) = x n := fun n => by rw [← hx]
  have hpair : ∀ n, (ieeeEnv F).val ⟨inp.getD (2 * n) 0, inp.getD (2 * n + 1) 0⟩ = (⟨x (2 * n), x (2 * n + 1)⟩ : ℂ) := by
    intro n; rw [← hxx, ← hxx]; rfl
  simp only [hxx] at hrange ⊢
  have μ0 : (0 : ℝ) < 2 ^ (F.emin + F.p) := by positivity
  set S := ∑ n ∈ Finset.range (2 * N), (|x n| + (2 : ℝ) ^ (F.emin + F.p)) with hS
  have S0 : 0 ≤ S := Finset.sum_nonneg fun n _ => by positivity
  obtain ⟨out', Z, hnear, e, l, hin, h0, hNN, hr⟩ := half_of_bins T one half N hN out inp ho
    (fun k r => Ranged.Near (ieeeEnv F) (2 ^ (F.emax - 1) / 2) (roundings t N) S r (Spec.dft (-1) N (fun n => (⟨x (2 * n), x (2 * n + 1)⟩ : ℂ)) k)) (by
    obtain ⟨o, e, l, h1, h2⟩ := Ranged.dit_near H hA (-1) (Or.inr rfl) N (by omega) (pairs inp) (Rounded.factors T N) (by simp [Rounded.factors]) (by
      intro l hl w hw
      unfold Rounded.factors at hw
      rw [List.getElem?_map, List.getElem?_range hl, Option.map_some, Option.some.injEq] at hw
      subst hw
      have c1 := hA.cos l N hl (by omega)
      have s1 := hA.sin l N hl (by omega)
      refine ⟨⟨c1.1, good_neg _ s1.1⟩, ?_⟩
      refine (Complex.norm_le_abs_re_add_abs_im _).trans ?_
      have h3 := bernoulli _ H.nonneg (2 * t)
      have h4 : (1 + (ieeeEnv F).u) ^ (2 * t) ≤ (1 + (ieeeEnv F).u) ^ (2 * t + 2) := pow_le_pow_right₀ (by linarith [H.nonneg]) (by omega)
      push_cast at h3
      rw [Spec.unit_neg]
      have c2 : |((T.cos l N).val : ℝ) - Real.cos (2 * Real.pi * l / N)| ≤ t * (ieeeEnv F).u := c1.2
      have s2 : |((T.sin l N).val : ℝ) - Real.sin (2 * Real.pi * l / N)| ≤ t * (ieeeEnv F).u := s1.2
      show |((T.cos l N).val : ℝ) - Real.cos (2 * Real.pi * l / N)| + |(((-T.sin l N).val : ℚ) : ℝ) - -Real.sin (2 * Real.pi * l / N)| ≤ _
      rw [Ieee.neg_val]
      push_cast
      rw [neg_sub_neg, abs_sub_comm (Real.sin _)]
      linarith) N N 1 out 0 0 (fun n => ⟨inp.getD (2 * n) 0, inp.getD (2 * n + 1) 0⟩) (le_refl _) ⟨hN, hp⟩ (by norm_num) (by ring) (by omega) (by
      intro n hn
      rw [Nat.zero_add, Nat.mul_one]
      exact pairs_get inp n (by omega)) (fun n hn => ⟨hfin (2 * n) (by omega), hfin (2 * n + 1) (by omega)⟩)
    refine ⟨o, e, l, fun k hk => ?_, h2⟩
    obtain ⟨r, er, hr⟩ := h1 k hk
    simp only [hpair] at hr
    exact ⟨r, er, hr.mono H' (budget_le t N N hN) (sum_pairs_range N x _ μ0.le)⟩)
  have mono : ∀ j, j ≤ roundings t N + 2 * t + 7 → (1 + 1 / 2 ^ F.p) ^ j * S ≤ (1 + 1 / 2 ^ F.p) ^ (roundings t N + 2 * t + 7) * S := fun j hj =>
    mul_le_mul_of_nonneg_right (pow_le_pow_right₀ (by linarith) hj) S0
  have inner : ∀ k, 0 < k → k < N → (ieeeEnv F).good (out'.getD k 0) ∧ ‖(ieeeEnv F).val (out'.getD k 0) - Spec.dft (-1) (2 * N) (fun n => (x n : ℂ)) k‖ ≤
        2 * ((1 + 1 / 2 ^ F.p) ^ (roundings t N + 2 * t + 7) - 1) * S := by
    intro k h0 hk
    obtain ⟨⟨ga, a1, a2⟩, gb, b1, b2⟩ := halfAB_range U t L ht T hA one half ⟨h1.1, h1.2.1⟩ h1.2.2 ⟨hh.1, hh.2.1⟩ hh.2.2 (2 * N) k (by omega) hL
    have n1 := (hnear k hk).mul_right H' (2 * t + 3) a2 ga a1
    have n2 := ((hnear (N - k) (by omega)).conj).mul_right H' (2 * t + 3) b2 gb b1
    have n3 := n1.add H' n2
    rw [half_bin Trig.real Trig.real_exact N x k h0 hk, show roundings t N + (2 * t + 3) + 3 + 1 = roundings t N + 2 * t + 7 by ring] at n3
    rw [List.getD_eq_getElem?_getD, hin k h0 hk, Option.getD_some]
    obtain ⟨g, b⟩ := n3.2 (by
      show (1 + 1 / 2 ^ F.p) ^ (roundings t N + 2 * t + 7) * (S + S) ≤ _
      linarith)
    refine ⟨g, b.trans (le_of_eq ?_)⟩
    show ((1 + 1 / 2 ^ F.p) ^ (roundings t N + 2 * t + 7) - 1) * (S + S) = _
    ring
  have outside : ∀ k, k = 0 ∨ k = N → (ieeeEnv F).good (out'.getD k 0) ∧ ‖(ieeeEnv F).val (out'.getD k 0) - 1 / 2 * Spec.dft (-1) (2 * N) (fun n => (x n : ℂ)) k‖ ≤
        ((1 + 1 / 2 ^ F.p) ^ (roundings t N + 2) - 1) * S := by
    obtain ⟨b0, bN⟩ := outer_bins N hN x
    obtain ⟨gZ, eZ⟩ := (hnear 0 hN).2 (by
      show (1 + 1 / 2 ^ F.p) ^ roundings t N * S ≤ _
      have := mono (roundings t N) (by omega)
      have : (0 : ℝ) < 2 ^ (F.emax - 1) := by positivity
      linarith)
    have sz := (hnear 0 hN).1
    set z := Spec.dft (-1) N (fun n => (⟨x (2 * n), x (2 * n + 1)⟩ : ℂ)) 0 with hz
    have sZ : ‖(ieeeEnv F).val (Z 0)‖ + 2 ^ (F.emin + F.p) ≤ (1 + 1 / 2 ^ F.p) ^ roundings t N * S := by
      have sz' : ‖z‖ + 2 ^ (F.emin + F.p) ≤ S := sz
      have eZ' : ‖(ieeeEnv F).val (Z 0) - z‖ ≤ ((1 + 1 / 2 ^ F.p) ^ roundings t N - 1) * S := eZ
      calc ‖(ieeeEnv F).val (Z 0)‖ + 2 ^ (F.emin + F.p) = ‖((ieeeEnv F).val (Z 0) - z) + z‖ + 2 ^ (F.emin + F.p) := by ring_nf
        _ ≤ ‖(ieeeEnv F).val (Z 0) - z‖ + ‖z‖ + 2 ^ (F.emin + F.p) := by gcongr; exact norm_add_le _ _
        _ ≤ ((1 + 1 / 2 ^ F.p) ^ roundings t N - 1) * S + S := by linarith
        _ = _ := by ring
    have r1 : |((Z 0).re.val : ℝ)| ≤ ‖(ieeeEnv F).val (Z 0)‖ := Complex.abs_re_le_norm ((ieeeEnv F).val (Z 0))
    have r2 : |((Z 0).im.val : ℝ)| ≤ ‖(ieeeEnv F).val (Z 0)‖ := Complex.abs_im_le_norm ((ieeeEnv F).val (Z 0))
    have d1 : |((Z 0).re.val : ℝ) - z.re| ≤ ((1 + 1 / 2 ^ F.p) ^ roundings t N - 1) * S := (Complex.abs_re_le_norm ((ieeeEnv F).val (Z 0) - z)).trans eZ
    have d2 : |((Z 0).im.val : ℝ) - z.im| ≤ ((1 + 1 / 2 ^ F.p) ^ roundings t N - 1) * S := (Complex.abs_im_le_norm ((ieeeEnv F).val (Z 0) - z)).trans eZ
    have hr2 : 2 * ((1 + 1 / 2 ^ F.p) ^ (roundings t N + 2) * S) ≤ 2 ^ (F.emax - 1) := by
      have := mono (roundings t N + 2) (by omega)
      have : (0 : ℝ) < 2 ^ (F.emax - 1) := by positivity
      linarith
    have oP := Ranged.outer U half ((Z 0).re + (Z 0).im) ⟨hh.1, hh.2.1⟩ hh.2.2 S ((Z 0).re.val + (Z 0).im.val) (z.re + z.im)
      (by have := abs_add_le ((Z 0).re.val : ℝ) (Z 0).im.val; linarith) (fun h => good_add U _ _ gZ.1 gZ.2 h)
      (by
        rw [show ((Z 0).re.val : ℝ) + (Z 0).im.val - (z.re + z.im) = ((Z 0).re.val - z.re) + ((Z 0).im.val - z.im) by ring]
        have := abs_add_le (((Z 0).re.val : ℝ) - z.re) ((Z 0).im.val - z.im)
        linarith) hr2
    have oM := Ranged.outer U half ((Z 0).re - (Z 0).im) ⟨hh.1, hh.2.1⟩ hh.2.2 S ((Z 0).re.val - (Z 0).im.val) (z.re - z.im)
      (by have := abs_sub ((Z 0).re.val : ℝ) (Z 0).im.val; linarith) (fun h => good_sub U _ _ gZ.1 gZ.2 h)
      (by
        rw [show ((Z 0).re.val : ℝ) - (Z 0).im.val - (z.re - z.im) = ((Z 0).re.val - z.re) - ((Z 0).im.val - z.im) by ring]
        have := abs_sub (((Z 0).re.val : ℝ) - z.re) ((Z 0).im.val - z.im)
        linarith) hr2
    have real : ∀ (a : Ieee F) (y : ℝ), (ieeeEnv F).val ⟨a, 0⟩ - 1 / 2 * ((y : ℝ) : ℂ) = (((a.val : ℝ) - y / 2 : ℝ) : ℂ) := by
      intro a y
      have z0 : (0 : Ieee F).val = 0 := rfl
      apply Complex.ext
      · simp [ieeeEnv, Cplx.toComplex]
        ring
      · simp [ieeeEnv, Cplx.toComplex, z0]
    rintro k (h | h) <;> subst h
    · rw [List.getD_eq_getElem?_getD, h0, Option.getD_some, b0, real, Complex.norm_real, Real.norm_eq_abs]
      exact ⟨⟨oP.1, H.zero.1⟩, oP.2⟩
    · rw [List.getD_eq_getElem?_getD, hNN, Option.getD_some, bN, real, Complex.norm_real, Real.norm_eq_abs]
      exact ⟨⟨oM.1, H.zero.1⟩, oM.2⟩
  refine ⟨out', e, l, fun k hk => ?_, fun k h0 hk => (inner k h0 hk).2, fun k hk => (outside k hk).2, hr⟩
  rcases Nat.eq_zero_or_pos k with rfl | hk0
  · have := (outside 0 (Or.inl rfl)).1
    exact ⟨this.1.1, this.2.1⟩
  · rcases Nat.lt_or_ge k N with hkN | hkN
    · have := (inner k hk0 hkN).1
      exact ⟨this.1.1, this.2.1⟩
    · have := (outside k (Or.inr (by omega))).1
      exact ⟨this.1.1, this.2.1⟩


theorem literal_half (U : Silence.Usual F) : GoodIeee (Ieee.literal (1 / 2) : Ieee F) ∧ ((Ieee.literal (1 / 2) : Ieee F).val : ℝ) = 1 / 2 := by
  have hp : 0 < F.p := by have := U.p; omega
  have h1 := U.emin
  have h2 := U.emax
  have h3 := U.p
  have e : (1 / 2 : ℚ) = 2 ^ (-1 : ℤ) := by norm_num
  have fit : Ieee.Fits F (1 / 2) := by rw [e]; exact Range.fits_pow hp (-1) (by omega)
  have r : Ieee.roundTo F (1 / 2) = 1 / 2 := Ieee.roundTo_of_fits hp _ fit
  have hf : (Ieee.literal (1 / 2) : Ieee F).Finite := (Ieee.pack_finite _ _).mpr (by
    rw [r, abs_of_pos (by norm_num), e]
    exact zpow_lt_zpow_right₀ (by norm_num) (by omega))
  refine ⟨⟨hf, Ieee.pack_valid hp _ _⟩, ?_⟩
  have e2 : (Ieee.literal (1 / 2) : Ieee F).val = 1 / 2 := by
    show (Ieee.pack (decide ((1 / 2 : ℚ) < 0)) (1 / 2) : Ieee F).val = _
    rw [Ieee.pack_val hp _ _ hf, Ieee.signed_decide, r]
  rw [e2]
  norm_num

/-- **C117** The real transform as it is, with the constants of unit_circle.hh, in single or double precision: if twelve times the sum of the magnitudes of the `2 N` values (plus the smallest normal number,
for each) is within half the range, then all bins are finite, those in between are off by at most `(144 log2(N) + 116) / 2^p` times that sum, and the halved first and last one by at most
`(72 log2(N) + 4) / 2^p` times it. -/
theorem C117_code (l : ℕ) (F : Format) [NeZero F.p] (U : Silence.Usual F) (hp : 10 ≤ F.p) (hp' : F.p ≤ 53) (hl : F.p ≤ l)
    (N : ℕ) (hN : 0 < N) (hL : 2 * N ≤ 268435455) (hN' : ∀ p, p.Prime → p ∣ N → p ≤ 31) (out : List (Cplx (Ieee F))) (inp : List (Ieee F)) (ho : N + 1 ≤ out.length) (hi : 2 * N ≤ inp.length)
    (hfin : ∀ n < 2 * N, (inp.getD n 0).Finite ∧ (inp.getD n 0).Valid)
    (hrange : 12 * ∑ n ∈ Finset.range (2 * N), (|((inp.getD n 0).val : ℝ)| + 2 ^ (F.emin + F.p)) ≤ (2 : ℝ) ^ (F.emax - 1)) :
    ∃ out', Rounded.halfComplex (Trig.ieee l F) 1 (Ieee.literal (1 / 2)) (2 * N) out inp = .ok out' ∧ out'.length = out.length ∧ (∀ k ≤ N, FiniteParts (out'.getD k 0)) ∧
      (∀ k, 0 < k → k < N → ‖((out'.getD k 0).toComplex fun a => (a.val : ℝ)) - Spec.dft (-1) (2 * N) (fun n => (((inp.getD n 0).val : ℝ) : ℂ)) k‖ ≤
        (144 * Real.logb 2 N + 116) / 2 ^ F.p * ∑ n ∈ Finset.range (2 * N), (|((inp.getD n 0).val : ℝ)| + 2 ^ (F.emin + F.p))) ∧
      (∀ k, k = 0 ∨ k = N → ‖((out'.getD k 0).toComplex fun a => (a.val : ℝ)) - 1 / 2 * Spec.dft (-1) (2 * N) (fun n => (((inp.getD n 0).val : ℝ) : ℂ)) k‖ ≤
        (72 * Real.logb 2 N + 4) / 2 ^ F.p * ∑ n ∈ Finset.range (2 * N), (|((inp.getD n 0).val : ℝ)| + 2 ^ (F.emin + F.p))) ∧
      (∀ k, N < k → out'[k]? = out[k]?) := by
  have hA := Trig.binary_accurate l F.p hp hp' hl
  have h10 : (2 : ℝ) ^ 10 ≤ 2 ^ F.p := pow_le_pow_right₀ (by norm_num) hp
  have h9 : ((9 : ℕ) : ℝ) / 2 ^ F.p ≤ 1 / 2 := by
    rw [div_le_div_iff₀ (by positivity) (by norm_num)]
    push_cast
    linarith
  have hsq : |1 / √2| ≤ 1 := by
    rw [abs_of_nonneg (by positivity), div_le_one (by positivity)]
    exact Real.one_le_sqrt.mpr (by norm_num)
  have h11' : roundings 11 N ≤ 27 * 36 := by
    have h := (roundings11_le N hN hN').trans (Nat.pow_le_pow_left (show N ≤ 2 ^ 27 by omega) 36)
    rw [← pow_mul] at h
    exact (Nat.pow_le_pow_iff_right (by norm_num)).mp h
  have hlog : (roundings 11 N : ℝ) ≤ 36 * Real.logb 2 N := by
    have h : (2 : ℝ) ^ roundings 11 N ≤ (N : ℝ) ^ 36 := by exact_mod_cast roundings11_le N hN hN'
    have h' := (Real.logb_le_logb (by norm_num : (1 : ℝ) < 2) (by positivity) (by positivity)).mpr h
    rw [Real.logb_pow, Real.logb_pow, Real.logb_self_eq_one (by norm_num)] at h'
    simpa using h'
  have hS : 0 ≤ ∑ n ∈ Finset.range (2 * N), (|((inp.getD n 0).val : ℝ)| + (2 : ℝ) ^ (F.emin + F.p)) := Finset.sum_nonneg fun n _ => by positivity
  have key : ∀ c : ℕ, c ≤ 29 → (1 + 1 / 2 ^ F.p : ℝ) ^ (roundings 11 N + c) - 1 ≤ (72 * Real.logb 2 N + 2 * c) / 2 ^ F.p ∧ (1 + 1 / 2 ^ F.p : ℝ) ^ (roundings 11 N + c) ≤ 3 := by
    intro c hc
    have hE : ((roundings 11 N + c : ℕ) : ℝ) ≤ 1024 := by exact_mod_cast (by omega)
    have := pow_sub_one_le (1 / 2 ^ F.p) (by positivity) (roundings 11 N + c) (by
      rw [mul_one_div, div_le_one (by positivity)]
      linarith)
    rw [mul_one_div] at this
    constructor
    · refine this.trans ?_
      push_cast
      gcongr
      linarith
    · have h2 : 2 * ((roundings 11 N + c : ℕ) : ℝ) / 2 ^ F.p ≤ 2 := by
        rw [div_le_iff₀ (by positivity)]
        linarith
      linarith
  obtain ⟨g1, v1⟩ := FMDRounded.good_one (F := F) U
  obtain ⟨gh, vh⟩ := literal_half (F := F) U
  obtain ⟨out', e, hlen, hf, h1, h2, h3⟩ := C117_range U (Trig.ieee l F) 11 268435455 (by
      calc 4 * 11 ≤ 2 ^ 10 := by norm_num
        _ ≤ _ := Nat.pow_le_pow_right (by norm_num) hp)
    (fun n N h1 h2 => literal_range U 9 _ _ (Real.abs_cos_le_one _) h9 (by have := hA.cos n N h1 h2; rwa [mul_one_div] at this))
    (fun n N h1 h2 => literal_range U 9 _ _ (Real.abs_sin_le_one _) h9 (by have := hA.sin n N h1 h2; rwa [mul_one_div] at this))
    (literal_range U 9 _ _ hsq h9 (by have := hA.invSqrtTwo; rwa [mul_one_div] at this)) 1 (Ieee.literal (1 / 2)) ⟨g1.1, g1.2, v1⟩ ⟨gh.1, gh.2, vh⟩ N hN hL hN' out inp ho hi hfin (by
      refine le_trans ?_ hrange
      have := mul_le_mul_of_nonneg_right (key 29 le_rfl).2 hS
      rw [add_assoc]
      linarith)
  refine ⟨out', e, hlen, hf, fun k h0 hk => (h1 k h0 hk).trans ?_, fun k hk => (h2 k hk).trans ?_, h3⟩
  · rw [add_assoc]
    apply mul_le_mul_of_nonneg_right _ hS
    calc _ ≤ 2 * ((72 * Real.logb 2 N + 2 * (29 : ℕ)) / 2 ^ F.p) := by linarith [(key 29 le_rfl).1]
      _ = _ := by push_cast; ring
  · apply mul_le_mul_of_nonneg_right _ hS
    refine (key 2 (by norm_num)).1.trans (le_of_eq ?_)
    push_cast
    ring

/-- Single precision, 2000 values up to `10^30`: nothing overflows. -/
example (inp : List (Ieee .single)) (hi : inp.length = 2000) (h : ∀ n < 2000, (inp.getD n 0).Finite ∧ (inp.getD n 0).Valid) (hb : ∀ n < 2000, |((inp.getD n 0).val : ℝ)| ≤ 10 ^ 30) :
    haveI : NeZero Format.single.p := ⟨by decide⟩
    ∃ X, Rounded.halfComplex (Trig.ieee 64 .single) 1 (Ieee.literal (1 / 2)) 2000 (List.replicate 1001 0) inp = .ok X ∧ ∀ k ≤ 1000, FiniteParts (X.getD k 0) := by
  have : NeZero Format.single.p := ⟨by decide⟩
  obtain ⟨X, e, -, h, -⟩ := C117_code 64 .single Silence.usual_single (by decide) (by decide) (by decide) 1000 (by norm_num) (by norm_num) (by
    intro p hp hd
    have h2 : p ∣ 10 ^ 3 := hd
    have := Nat.le_of_dvd (by norm_num) (hp.dvd_of_dvd_pow h2)
    omega) (List.replicate 1001 0) inp (by rw [List.length_replicate]) hi.ge h (by
    have : ∀ n ∈ Finset.range (2 * 1000), |((inp.getD n 0).val : ℝ)| + (2 : ℝ) ^ (Format.single.emin + Format.single.p) ≤ 10 ^ 31 := by
      intro n hn
      have b1 := hb n (Finset.mem_range.mp hn)
      have e2 : (2 : ℝ) ^ (Format.single.emin + Format.single.p) ≤ 1 := by
        have : Format.single.emin + (Format.single.p : ℤ) = -125 := by decide
        rw [this]
        norm_num
      linarith
    have := Finset.sum_le_sum this
    rw [Finset.sum_const, Finset.card_range, nsmul_eq_mul] at this
    have e3 : (Format.single.emax - 1 : ℤ) = (127 : ℕ) := by decide
    rw [e3, zpow_natCast]
    refine (mul_le_mul_of_nonneg_left this (by norm_num)).trans ?_
    norm_num)
  exact ⟨X, e, h⟩

end
end FFT
end DSP
