import Verif.Model.FFTBinary
import Verif.Props.FFTError
import Verif.Props.UnitCircleError
import Verif.Props.Constants
import Mathlib.Analysis.SpecialFunctions.Log.Base

/-!
# C67: the fast Fourier transform in floating point, with the values of unit_circle.hh
-/

namespace DSP

open FFT Spec

/-- The values the transform gets are accurate to nine units. -/
theorem Trig.binary_accurate (l p : ℕ) [NeZero p] (hp : 10 ≤ p) (hp' : p ≤ 53) (hl : p ≤ l) :
    (Trig.binary l p).Accurate (fun a => (a.val : ℝ)) (1 / 2 ^ p) 9 268435455 where
  cos n N h hN := by
    obtain ⟨⟨a, ha, h⟩, -⟩ := UnitCircle.C68_binary l p hp hp' hl n N (by omega) (by omega) (by omega) (by omega)
    have e : (Trig.binary l p).cos n N = a := by simp only [Trig.binary, ha, defined]
    rw [e]
    push_cast at h ⊢
    rw [mul_one_div]
    exact h
  sin n N h hN := by
    obtain ⟨-, a, ha, h⟩ := UnitCircle.C68_binary l p hp hp' hl n N (by omega) (by omega) (by omega) (by omega)
    have e : (Trig.binary l p).sin n N = a := by simp only [Trig.binary, ha, defined]
    rw [e]
    push_cast at h ⊢
    rw [mul_one_div]
    exact h
  invSqrtTwo := by
    have h := literal_error l p hl 0.7071067811865475244008443621048490392848359376884740365883398689953
    obtain ⟨-, -, -, -, -, -, -, -, h1, h2⟩ := Const.C40_const
    rw [Const.invSqrtTwo] at h1 h2
    have hu : (1 : ℝ) / 10 ^ 67 ≤ 1 / 2 ^ p := by
      have : (2 : ℝ) ^ p ≤ 2 ^ 53 := pow_le_pow_right₀ (by norm_num) hp'
      gcongr
      exact this.trans (by norm_num)
    have h0 : (0 : ℝ) ≤ 1 / 2 ^ p := by positivity
    show |((Binary.literal l p _).val : ℝ) - 1 / √2| ≤ _
    generalize (1 : ℝ) / 2 ^ p = u at *
    rw [abs_of_nonneg (a := ((0.7071067811865475244008443621048490392848359376884740365883398689953 : ℚ) : ℝ)) (by norm_num)] at h
    refine (abs_sub_le _ ((0.7071067811865475244008443621048490392848359376884740365883398689953 : ℚ) : ℝ) _).trans ((add_le_add h (d := u) ?_).trans ?_)
    · rw [abs_le]
      push_cast
      constructor <;> linarith
    · push_cast
      nlinarith

/-- The number of roundings grows like the logarithm of the size. -/
theorem roundings_le (N : ℕ) (hN : 0 < N) (hp : ∀ p, p.Prime → p ∣ N → p ≤ 31) : 2 ^ roundings 9 N ≤ N ^ 32 := by
  have key : ∀ l : List ℕ, (∀ p ∈ l, p.Prime ∧ p ≤ 31) → 2 ^ (l.map fun p => if p = 2 then 2 * 9 + 7 else p + 4 * 9 + 10).sum ≤ l.prod ^ 32 := by
    intro l
    induction l with
    | nil => intro _; simp
    | cons p l ih =>
      intro h
      rw [List.map_cons, List.sum_cons, List.prod_cons, pow_add, mul_pow]
      refine Nat.mul_le_mul ?_ (ih fun q hq => h q (List.mem_cons_of_mem _ hq))
      obtain ⟨h1, h2⟩ := h p (List.mem_cons_self)
      have := h1.two_le
      interval_cases p <;> norm_num
  have := key N.primeFactorsList fun p h => ⟨Nat.prime_of_mem_primeFactorsList h, hp p (Nat.prime_of_mem_primeFactorsList h) (Nat.dvd_of_mem_primeFactorsList h)⟩
  rwa [Nat.prod_primeFactorsList hN.ne'] at this

theorem roundings_log (N : ℕ) (hN : 0 < N) (hp : ∀ p, p.Prime → p ∣ N → p ≤ 31) : (roundings 9 N : ℝ) ≤ 32 * Real.logb 2 N := by
  have h : (2 : ℝ) ^ roundings 9 N ≤ (N : ℝ) ^ 32 := by exact_mod_cast roundings_le N hN hp
  have h' := (Real.logb_le_logb (by norm_num : (1 : ℝ) < 2) (by positivity) (by positivity)).mpr h
  rw [Real.logb_pow, Real.logb_pow, Real.logb_self_eq_one (by norm_num)] at h'
  simpa using h'

theorem roundings_bound (N : ℕ) (hN : 0 < N) (hL : N ≤ 268435455) (hp : ∀ p, p.Prime → p ∣ N → p ≤ 31) : roundings 9 N ≤ 896 := by
  have h := roundings_le N hN hp
  have h2 : N ^ 32 ≤ (2 ^ 28) ^ 32 := Nat.pow_le_pow_left (by omega) 32
  rw [← pow_mul] at h2
  have h3 := (Nat.pow_le_pow_iff_right (by norm_num : 1 < 2)).mp (h.trans h2)
  omega

/-- **C67** The code as it is, in floating point with `p` bits: every bin of the transform of a size up to `2^28`, without prime factors above 31, is off by at most `64 log2(N) / 2^p`
times the sum of the magnitudes of the inputs. Nothing is assumed about the trigonometric functions: they are those of the code. -/
theorem C67_code (l p : ℕ) [NeZero p] (hp : 10 ≤ p) (hp' : p ≤ 53) (hl : p ≤ l) (s : ℤ) (hs : s = 1 ∨ s = -1) (N : ℕ) (hN : 0 < N) (hL : N ≤ 268435455)
    (hN' : ∀ q, q.Prime → q ∣ N → q ≤ 31) (out inp : List (Cplx (Binary p))) (ho : N ≤ out.length) (hi : N ≤ inp.length) :
    ∃ X : List (Cplx (Binary p)), call (Trig.binary l p) s N out inp = .ok (X ++ out.drop N) ∧ X.length = N ∧ ∀ k < N,
      ‖(X.getD k 0).toComplex (fun a => (a.val : ℝ)) - dft s N (fun n => (inp.getD n 0).toComplex fun a => (a.val : ℝ)) k‖ ≤
        64 * Real.logb 2 N / 2 ^ p * ∑ n ∈ Finset.range N, ‖(inp.getD n 0).toComplex fun a => (a.val : ℝ)‖ := by
  have hb : roundings 9 N ≤ 2 ^ p := (roundings_bound N hN hL hN').trans ((by norm_num : 896 ≤ 2 ^ 10).trans (Nat.pow_le_pow_right (by norm_num) hp))
  obtain ⟨X, e, hX, h⟩ := C67_binary p (by omega) _ 9 _ (Trig.binary_accurate l p hp hp' hl) s hs N hN hL hN' hb out inp ho hi
  refine ⟨X, e, hX, fun k hk => (h k hk).trans ?_⟩
  have := roundings_log N hN hN'
  have h2 : 2 * (roundings 9 N : ℝ) ≤ 64 * Real.logb 2 N := by linarith
  gcongr

/-- Single precision, 1024 bins. -/
example (inp : List (Cplx (Binary 24))) (h : inp.length = 1024) : ∃ X, call (Trig.binary 64 24) (-1) 1024 (List.replicate 1024 0) inp = .ok X ∧ ∀ k < 1024,
    ‖(X.getD k 0).toComplex (fun a => (a.val : ℝ)) - dft (-1) 1024 (fun n => (inp.getD n 0).toComplex fun a => (a.val : ℝ)) k‖ ≤
      640 / 2 ^ 24 * ∑ n ∈ Finset.range 1024, ‖(inp.getD n 0).toComplex fun a => (a.val : ℝ)‖ := by
  obtain ⟨X, e1, l, hX⟩ := C67_code 64 24 (by norm_num) (by norm_num) (by norm_num) (-1) (Or.inr rfl) 1024 (by norm_num) (by norm_num) (by
    intro q hq hd
    have := (Nat.prime_dvd_prime_iff_eq hq Nat.prime_two).mp (hq.dvd_of_dvd_pow (show q ∣ 2 ^ 10 from hd))
    omega) (List.replicate 1024 0) inp (by rw [List.length_replicate]) h.ge
  refine ⟨X, ?_, ?_⟩
  · rw [e1, List.drop_eq_nil_of_le (by rw [List.length_replicate]), List.append_nil]
  · have e : Real.logb 2 ((1024 : ℕ) : ℝ) = 10 := by
      rw [show ((1024 : ℕ) : ℝ) = 2 ^ 10 by norm_num, Real.logb_pow, Real.logb_self_eq_one (by norm_num)]
      norm_num
    rw [e] at hX
    norm_num at hX ⊢
    exact hX

end DSP
