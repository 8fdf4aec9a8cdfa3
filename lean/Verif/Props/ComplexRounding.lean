import Verif.Props.FFTError
import Verif.Props.DemodSpecial
import Verif.Lemmas.Rel
import Verif.Lemmas.BinaryRounded
import Verif.Props.PhasorError

/-!
# Complex numbers in floating point (C111)
-/

namespace DSP

open Spec

namespace Cplx

section
variable {V : Type} [Zero V] [Add V] [Sub V] [Mul V] [IntCast V] [Neg V] [Div V] {val : V → ℝ} {u : ℝ}

/-- Errors of both components give one of the number. -/
theorem norm_le_of_parts (z w : ℂ) (c : ℝ) (hc : 0 ≤ c) (h1 : |z.re| ≤ c * |w.re|) (h2 : |z.im| ≤ c * |w.im|) : ‖z‖ ≤ c * ‖w‖ := by
  refine abs_le_of_sq_le_sq' ?_ (by positivity) |>.2
  rw [mul_pow, Complex.sq_norm, Complex.sq_norm, Complex.normSq_apply, Complex.normSq_apply]
  have a1 := mul_self_le_mul_self (abs_nonneg _) h1
  have a2 := mul_self_le_mul_self (abs_nonneg _) h2
  rw [abs_mul_abs_self] at a1 a2
  rw [show c * |w.re| * (c * |w.re|) = c ^ 2 * (|w.re| * |w.re|) by ring, abs_mul_abs_self] at a1
  rw [show c * |w.im| * (c * |w.im|) = c ^ 2 * (|w.im| * |w.im|) by ring, abs_mul_abs_self] at a2
  linarith

/-- A sum or difference of two rounded products. -/
theorem two_products (hu0 : 0 ≤ u) (P Q p q r : ℝ) (hp : |p - P| ≤ u * |P|) (hq : |q - Q| ≤ u * |Q|) (hr : |r - (p + q)| ≤ u * |p + q|) : |r - (P + Q)| ≤ ((1 + u) ^ 2 - 1) * (|P| + |Q|) := by
  have h1 : |p + q - (P + Q)| ≤ u * (|P| + |Q|) := by
    rw [show p + q - (P + Q) = (p - P) + (q - Q) by ring]
    exact (abs_add_le _ _).trans (by linarith)
  have h2 : |p + q| ≤ (1 + u) * (|P| + |Q|) := by
    have a : |p + q| ≤ |p + q - (P + Q)| + |P + Q| := by
      have := abs_add_le (p + q - (P + Q)) (P + Q)
      rwa [sub_add_cancel] at this
    have b := abs_add_le P Q
    linarith
  have h3 : |r - (P + Q)| ≤ |r - (p + q)| + |p + q - (P + Q)| := abs_sub_le _ _ _
  have h4 := mul_le_mul_of_nonneg_left h2 hu0
  nlinarith

/-- Components with errors like those of a product. -/
theorem product_parts (hu0 : 0 ≤ u) (a b c d x y : ℝ) (hx : |x| ≤ ((1 + u) ^ 2 - 1) * (|a * c| + |b * d|)) (hy : |y| ≤ ((1 + u) ^ 2 - 1) * (|a * d| + |b * c|)) :
    ‖(⟨x, y⟩ : ℂ)‖ ≤ ((1 + u) ^ 3 - 1) * (‖(⟨a, b⟩ : ℂ)‖ * ‖(⟨c, d⟩ : ℂ)‖) := by
  have hg : 0 ≤ (1 + u) ^ 2 - 1 := by nlinarith
  have hg3 : 0 ≤ (1 + u) ^ 3 - 1 := by nlinarith [mul_nonneg hu0 (mul_nonneg hu0 hu0), mul_nonneg hu0 hu0]
  refine abs_le_of_sq_le_sq' ?_ (by positivity) |>.2
  rw [mul_pow, mul_pow, Complex.sq_norm, Complex.sq_norm, Complex.sq_norm, Complex.normSq_mk, Complex.normSq_mk, Complex.normSq_mk]
  have a1 := mul_self_le_mul_self (abs_nonneg _) hx
  have a2 := mul_self_le_mul_self (abs_nonneg _) hy
  rw [abs_mul_abs_self] at a1 a2
  have k1 : (|a * c| + |b * d|) * (|a * c| + |b * d|) + (|a * d| + |b * c|) * (|a * d| + |b * c|) ≤ 2 * ((a * a + b * b) * (c * c + d * d)) := by
    have e1 := sq_nonneg (|a * c| - |b * d|)
    have e2 := sq_nonneg (|a * d| - |b * c|)
    have f1 := abs_mul_abs_self (a * c)
    have f2 := abs_mul_abs_self (b * d)
    have f3 := abs_mul_abs_self (a * d)
    have f4 := abs_mul_abs_self (b * c)
    nlinarith
  have k2 : 2 * ((1 + u) ^ 2 - 1) ^ 2 ≤ ((1 + u) ^ 3 - 1) ^ 2 := by
    have : ((1 + u) ^ 3 - 1) ^ 2 - 2 * ((1 + u) ^ 2 - 1) ^ 2 = u ^ 2 * (1 + 10 * u + 13 * u ^ 2 + 6 * u ^ 3 + u ^ 4) := by ring
    have : 0 ≤ u ^ 2 * (1 + 10 * u + 13 * u ^ 2 + 6 * u ^ 3 + u ^ 4) := by positivity
    linarith
  have hN : 0 ≤ (a * a + b * b) * (c * c + d * d) := mul_nonneg (add_nonneg (mul_self_nonneg _) (mul_self_nonneg _)) (add_nonneg (mul_self_nonneg _) (mul_self_nonneg _))
  calc x * x + y * y ≤ ((1 + u) ^ 2 - 1) ^ 2 * ((|a * c| + |b * d|) * (|a * c| + |b * d|) + (|a * d| + |b * c|) * (|a * d| + |b * c|)) := by nlinarith
    _ ≤ ((1 + u) ^ 2 - 1) ^ 2 * (2 * ((a * a + b * b) * (c * c + d * d))) := mul_le_mul_of_nonneg_left k1 (sq_nonneg _)
    _ = 2 * ((1 + u) ^ 2 - 1) ^ 2 * ((a * a + b * b) * (c * c + d * d)) := by ring
    _ ≤ _ := mul_le_mul_of_nonneg_right k2 hN

variable (hR : RoundedField V val u) (hu0 : 0 ≤ u)

include hR in
/-- **C111** The conjugate and the negative are exact, and so is a real number as a complex one. -/
theorem C111_exact (a : Cplx V) (r : V) :
    (conj a).toComplex val = (starRingEnd ℂ) (a.toComplex val) ∧ (neg a).toComplex val = -a.toComplex val ∧ (ofReal r).toComplex val = (val r : ℂ) := by
  refine ⟨Complex.ext rfl ?_, Complex.ext ?_ ?_, Complex.ext rfl ?_⟩
  · simp [toComplex, conj, hR.neg]
  · simp [toComplex, neg, hR.neg]
  · simp [toComplex, neg, hR.neg]
  · simp [toComplex, ofReal, hR.zero]

include hR hu0 in
/-- **C111** Sums, differences, multiples and quotients by a real number are as accurate as the operations on real numbers. -/
theorem C111_linear (a b : Cplx V) (r : V) :
    ‖(add a b).toComplex val - (a.toComplex val + b.toComplex val)‖ ≤ u * ‖a.toComplex val + b.toComplex val‖ ∧
    ‖(sub a b).toComplex val - (a.toComplex val - b.toComplex val)‖ ≤ u * ‖a.toComplex val - b.toComplex val‖ ∧
    ‖(smul r a).toComplex val - val r * a.toComplex val‖ ≤ u * ‖(val r : ℂ) * a.toComplex val‖ ∧
    (val r ≠ 0 → ‖(sdiv a r).toComplex val - a.toComplex val / val r‖ ≤ u * ‖a.toComplex val / val r‖) := by
  refine ⟨norm_le_of_parts _ _ _ hu0 (hR.add _ _) (hR.add _ _), norm_le_of_parts _ _ _ hu0 (hR.sub _ _) (hR.sub _ _), norm_le_of_parts _ _ _ hu0 ?_ ?_, fun hr => norm_le_of_parts _ _ _ hu0 ?_ ?_⟩
  · simpa [toComplex, smul] using hR.mul r a.re
  · simpa [toComplex, smul] using hR.mul r a.im
  · rw [Complex.sub_re, Complex.div_ofReal_re]
    exact hR.div a.re r hr
  · rw [Complex.sub_im, Complex.div_ofReal_im]
    exact hR.div a.im r hr

include hR hu0 in
/-- **C111** The error of a product, measured by the sizes of the factors. -/
theorem C111_mul (a b : Cplx V) : ‖(mul a b).toComplex val - a.toComplex val * b.toComplex val‖ ≤ ((1 + u) ^ 3 - 1) * ‖a.toComplex val * b.toComplex val‖ := by
  have h1 := two_products hu0 (val a.re * val b.re) (-(val a.im * val b.im)) (val (a.re * b.re)) (-val (a.im * b.im)) (val (a.re * b.re - a.im * b.im)) (hR.mul _ _)
    (by rw [← neg_sub', abs_neg, abs_neg]; exact hR.mul _ _) (by rw [← sub_eq_add_neg]; exact hR.sub _ _)
  have h2 := two_products hu0 (val a.re * val b.im) (val a.im * val b.re) _ _ (val (a.re * b.im + a.im * b.re)) (hR.mul _ _) (hR.mul _ _) (hR.add _ _)
  rw [← sub_eq_add_neg, abs_neg] at h1
  have := product_parts hu0 (val a.re) (val a.im) (val b.re) (val b.im) _ _ h1 h2
  rw [norm_mul]
  exact this

include hR hu0 in
/-- **C111** The squared modulus, and the modulus with a good square root. -/
theorem C111_abs (hu1 : 3 * u ≤ 1) (a : Cplx V) (sqrt : V → V) (hs : RoundedSqrt val u sqrt) :
    |val a.norm - ‖a.toComplex val‖ ^ 2| ≤ ((1 + u) ^ 2 - 1) * ‖a.toComplex val‖ ^ 2 ∧
    |val (a.abs sqrt) - ‖a.toComplex val‖| ≤ ((1 + u) ^ 3 - 1) * ‖a.toComplex val‖ := by
  have h1 : |val a.norm - ‖a.toComplex val‖ ^ 2| ≤ ((1 + u) ^ 2 - 1) * ‖a.toComplex val‖ ^ 2 := by
    have h := two_products hu0 (val a.re * val a.re) (val a.im * val a.im) _ _ (val (a.re * a.re + a.im * a.im)) (hR.mul _ _) (hR.mul _ _) (hR.add _ _)
    rw [abs_mul_self, abs_mul_self] at h
    rw [Complex.sq_norm, Complex.normSq_apply]
    exact h
  refine ⟨h1, ?_⟩
  have h0 : 0 ≤ val a.norm := by
    have a1 := neg_abs_le (val a.norm - ‖a.toComplex val‖ ^ 2)
    have a2 : ((1 + u) ^ 2 - 1) * ‖a.toComplex val‖ ^ 2 ≤ 1 * ‖a.toComplex val‖ ^ 2 := mul_le_mul_of_nonneg_right (by nlinarith) (sq_nonneg _)
    linarith
  set N := ‖a.toComplex val‖
  set n := val a.norm
  have hN : 0 ≤ N := norm_nonneg _
  have h2 : |√n - N| ≤ ((1 + u) ^ 2 - 1) * N := by
    have hn := Real.sqrt_nonneg n
    have e : n - N ^ 2 = (√n - N) * (√n + N) := by nlinarith [Real.sq_sqrt h0]
    rw [e, abs_mul, abs_of_nonneg (add_nonneg hn hN)] at h1
    rcases hN.eq_or_lt with hN0 | hN0
    · rw [← hN0] at h1 ⊢
      simp only [add_zero, sub_zero, ne_eq, OfNat.ofNat_ne_zero, not_false_eq_true, zero_pow, mul_zero] at h1 ⊢
      have : |√n| = √n := abs_of_nonneg hn
      rw [this] at h1 ⊢
      nlinarith
    · by_contra hc
      push Not at hc
      have : ((1 + u) ^ 2 - 1) * N * N < |√n - N| * (√n + N) := by
        calc _ < |√n - N| * N := mul_lt_mul_of_pos_right hc hN0
          _ ≤ _ := mul_le_mul_of_nonneg_left (by linarith) (abs_nonneg _)
      nlinarith
  have h3 := hs a.norm h0
  have h4 : √n ≤ (1 + u) ^ 2 * N := by linarith [le_abs_self (√n - N)]
  have h5 := mul_le_mul_of_nonneg_left h4 hu0
  calc _ ≤ |val (a.abs sqrt) - √n| + |√n - N| := abs_sub_le _ _ _
    _ ≤ u * ((1 + u) ^ 2 * N) + ((1 + u) ^ 2 - 1) * N := add_le_add (h3.trans h5) h2
    _ = _ := by ring

/-- A number with an error, divided by a real one with a relative error, rounded. -/
theorem quotient (hu0 : 0 ≤ u) (hu1 : 32 * u ≤ 1) (K : ℕ) (n N q : ℂ) (m M s : ℝ) (hn : ‖n - N‖ ≤ ((1 + u) ^ K - 1) * s) (hN : ‖N‖ ≤ s) (hm : Rel u 2 m M) (hM : M ≠ 0)
    (h1 : m ≠ 0 → |q.re - n.re / m| ≤ u * |n.re / m|) (h2 : m ≠ 0 → |q.im - n.im / m| ≤ u * |n.im / m|) : ‖q - N / M‖ ≤ ((1 + u) ^ (K + 4) - 1) * (s / |M|) := by
  obtain ⟨hm0, hi⟩ := hm.inv hu0 (by linarith) hM (by norm_num; linarith)
  have hs : 0 ≤ s := (norm_nonneg _).trans hN
  have hq : ‖q - n / m‖ ≤ u * ‖n / (m : ℂ)‖ := by
    refine norm_le_of_parts _ _ _ hu0 ?_ ?_
    · rw [Complex.sub_re, Complex.div_ofReal_re]; exact h1 hm0
    · rw [Complex.sub_im, Complex.div_ofReal_im]; exact h2 hm0
  have hmi := hi.size
  unfold Rel at hi
  rw [abs_inv] at hi hmi
  rw [abs_inv] at hmi
  norm_num at hi hmi
  have hn' : ‖n‖ ≤ (1 + u) ^ K * s := by
    have := norm_add_le (n - N) N
    rw [sub_add_cancel] at this
    linarith
  have hd : ‖n / (m : ℂ) - N / M‖ ≤ ((1 + u) ^ (K + 3) - 1) * (s * |M|⁻¹) := by
    have e : n / (m : ℂ) - N / M = (n - N) * ((m⁻¹ : ℝ) : ℂ) + N * (((m⁻¹ - M⁻¹ : ℝ)) : ℂ) := by push_cast; ring
    rw [e]
    refine (norm_add_le _ _).trans ?_
    rw [norm_mul, norm_mul, Complex.norm_real, Complex.norm_real, Real.norm_eq_abs, Real.norm_eq_abs, abs_inv]
    have hK : 0 ≤ (1 + u) ^ K - 1 := sub_nonneg.mpr (one_le_pow₀ (by linarith))
    calc _ ≤ ((1 + u) ^ K - 1) * s * ((1 + u) ^ 3 * |M|⁻¹) + s * (((1 + u) ^ 3 - 1) * |M|⁻¹) := by
          refine add_le_add (mul_le_mul hn hmi (by positivity) (by positivity)) (mul_le_mul hN hi (abs_nonneg _) hs)
      _ = _ := by rw [pow_add]; ring
  have hnm : ‖n / (m : ℂ)‖ ≤ (1 + u) ^ (K + 3) * (s * |M|⁻¹) := by
    rw [div_eq_mul_inv, norm_mul, norm_inv, Complex.norm_real, Real.norm_eq_abs]
    calc _ ≤ (1 + u) ^ K * s * ((1 + u) ^ 3 * |M|⁻¹) := mul_le_mul hn' hmi (by positivity) (by positivity)
      _ = _ := by rw [pow_add]; ring
  have h3 := mul_le_mul_of_nonneg_left hnm hu0
  calc _ ≤ ‖q - n / m‖ + ‖n / (m : ℂ) - N / M‖ := by
        have := norm_add_le (q - n / m) (n / (m : ℂ) - N / M)
        rwa [sub_add_sub_cancel] at this
    _ ≤ u * ((1 + u) ^ (K + 3) * (s * |M|⁻¹)) + ((1 + u) ^ (K + 3) - 1) * (s * |M|⁻¹) := add_le_add (hq.trans h3) hd
    _ = _ := by rw [pow_succ (1 + u) (K + 3), div_eq_mul_inv]; ring

theorem norm_rel (hR : RoundedField V val u) (hu0 : 0 ≤ u) (b : Cplx V) : Rel u 2 (val (b.re * b.re + b.im * b.im)) (‖b.toComplex val‖ ^ 2) := by
  have h := two_products hu0 (val b.re * val b.re) (val b.im * val b.im) _ _ (val (b.re * b.re + b.im * b.im)) (hR.mul _ _) (hR.mul _ _) (hR.add _ _)
  rw [abs_mul_self, abs_mul_self] at h
  rw [Rel, abs_of_nonneg (sq_nonneg ‖b.toComplex val‖), Complex.sq_norm, Complex.normSq_apply]
  exact h

include hR hu0 in
/-- **C111** The errors of quotients. -/
theorem C111_div (hu1 : 32 * u ≤ 1) (a b : Cplx V) (r : V) (hb : b.toComplex val ≠ 0) :
    ‖(div a b).toComplex val - a.toComplex val / b.toComplex val‖ ≤ ((1 + u) ^ 7 - 1) * ‖a.toComplex val / b.toComplex val‖ ∧
    ‖(rdiv r b).toComplex val - val r / b.toComplex val‖ ≤ ((1 + u) ^ 5 - 1) * ‖(val r : ℂ) / b.toComplex val‖ := by
  have hM : ‖b.toComplex val‖ ^ 2 ≠ 0 := by positivity
  have hnb : ‖b.toComplex val‖ ≠ 0 := by positivity
  have hrel := norm_rel hR hu0 b
  have hcc : ∀ z : ℂ, z / b.toComplex val = z * (starRingEnd ℂ) (b.toComplex val) / ((‖b.toComplex val‖ ^ 2 : ℝ) : ℂ) := by
    intro z
    rw [Complex.sq_norm, Complex.normSq_eq_conj_mul_self, mul_comm ((starRingEnd ℂ) _) (b.toComplex val), mul_div_mul_right _ _ (by simpa using hb)]
  have hss : ∀ z : ℝ, z * ‖b.toComplex val‖ / |‖b.toComplex val‖ ^ 2| = z / ‖b.toComplex val‖ := by
    intro z
    rw [abs_of_nonneg (by positivity)]
    field_simp
  constructor
  · have h1 := two_products hu0 (val a.re * val b.re) (val a.im * val b.im) _ _ (val (a.re * b.re + a.im * b.im)) (hR.mul _ _) (hR.mul _ _) (hR.add _ _)
    have h2 := two_products hu0 (val a.im * val b.re) (-(val a.re * val b.im)) (val (a.im * b.re)) (-val (a.re * b.im)) (val (a.im * b.re - a.re * b.im)) (hR.mul _ _)
      (by rw [← neg_sub', abs_neg, abs_neg]; exact hR.mul _ _) (by rw [← sub_eq_add_neg]; exact hR.sub _ _)
    rw [← sub_eq_add_neg, abs_neg, add_comm |val a.im * val b.re|] at h2
    have h3 := product_parts hu0 (val a.re) (val a.im) (val b.re) (val b.im) _ _ h1 h2
    have h4 := quotient hu0 hu1 3 ⟨val (a.re * b.re + a.im * b.im), val (a.im * b.re - a.re * b.im)⟩ (a.toComplex val * (starRingEnd ℂ) (b.toComplex val)) ((div a b).toComplex val)
      (val (b.re * b.re + b.im * b.im)) (‖b.toComplex val‖ ^ 2) (‖a.toComplex val‖ * ‖b.toComplex val‖) (by
        refine le_trans (le_of_eq ?_) h3
        congr 1
        apply Complex.ext
        · simp [toComplex]
        · simp [toComplex]; ring) (by rw [norm_mul, RCLike.norm_conj]) hrel hM
      (fun h => hR.div _ _ h) (fun h => hR.div _ _ h)
    rw [← hcc, hss] at h4
    rw [norm_div]
    exact h4
  · have h4 := quotient hu0 hu1 1 ⟨val (r * b.re), val (-(r * b.im))⟩ (val r * (starRingEnd ℂ) (b.toComplex val)) ((rdiv r b).toComplex val)
      (val (b.re * b.re + b.im * b.im)) (‖b.toComplex val‖ ^ 2) (|val r| * ‖b.toComplex val‖) (by
        rw [pow_one, add_sub_cancel_left]
        have : |val r| * ‖b.toComplex val‖ = ‖(val r : ℂ) * (starRingEnd ℂ) (b.toComplex val)‖ := by rw [norm_mul, RCLike.norm_conj, Complex.norm_real, Real.norm_eq_abs]
        rw [this]
        refine norm_le_of_parts _ _ _ hu0 ?_ ?_
        · simpa [toComplex] using hR.mul r b.re
        · have := hR.mul r b.im
          simp only [toComplex, hR.neg, Complex.sub_im, Complex.mul_im, Complex.ofReal_re, Complex.ofReal_im, Complex.conj_im, Complex.conj_re, zero_mul, add_zero, mul_neg, abs_neg]
          rw [← neg_sub', abs_neg]
          exact this) (by rw [norm_mul, RCLike.norm_conj, Complex.norm_real, Real.norm_eq_abs]) hrel hM
      (fun h => hR.div _ _ h) (fun h => hR.div _ _ h)
    rw [← hcc, hss] at h4
    rw [norm_div, Complex.norm_real, Real.norm_eq_abs]
    exact h4

end

/-- **C111** In binary floating point: products do not depend on the order, the product of conjugates is the conjugate of the product, and a number times its conjugate is real and exactly what `norm` says. -/
theorem C111_conj (p : ℕ) [NeZero p] (a b : Cplx (Binary p)) :
    mul a b = mul b a ∧ mul (conj a) (conj b) = conj (mul a b) ∧ mul a (conj a) = ofReal (norm a) := by
  have neg : ∀ x : Binary p, (-x).val = -x.val := fun _ => rfl
  have add : ∀ x y : Binary p, (x + y).val = Binary.round p (x.val + y.val) := fun _ _ => rfl
  have sub : ∀ x y : Binary p, (x - y).val = Binary.round p (x.val - y.val) := fun _ _ => rfl
  have mul : ∀ x y : Binary p, (x * y).val = Binary.round p (x.val * y.val) := fun _ _ => rfl
  have ext : ∀ z w : Cplx (Binary p), z.re.val = w.re.val → z.im.val = w.im.val → z = w := by
    rintro ⟨a, b⟩ ⟨c, d⟩ h1 h2
    have e1 : a = c := Binary.val_injective p h1
    have e2 : b = d := Binary.val_injective p h2
    rw [e1, e2]
  refine ⟨ext _ _ ?_ ?_, ext _ _ ?_ ?_, ext _ _ ?_ ?_⟩
  · simp only [Cplx.mul, sub, mul, mul_comm a.re.val, mul_comm a.im.val]
  · simp only [Cplx.mul, add, mul, mul_comm a.re.val, mul_comm a.im.val]
    rw [add_comm]
  · simp only [Cplx.mul, conj, sub, mul, neg, neg_mul_neg]
  · simp only [Cplx.mul, conj, add, mul, neg, mul_neg, neg_mul, Binary.round_neg]
    rw [← Binary.round_neg p (_ + _), neg_add]
  · simp only [Cplx.mul, conj, ofReal, norm, add, sub, mul, neg, mul_neg, Binary.round_neg, sub_neg_eq_add]
  · simp only [Cplx.mul, conj, ofReal, add, mul, neg, mul_neg, Binary.round_neg, mul_comm a.im.val, neg_add_cancel]
    exact Binary.round_of_representable p 0 (0 : Binary p).representable

/-- Single precision. -/
example (a b : Cplx (Binary 24)) (r : Binary 24) (hb : b.toComplex (fun v => (v.val : ℝ)) ≠ 0) :=
  And.intro (C111_mul (binary_roundedField 24) (by positivity) a b) (And.intro (C111_div (binary_roundedField 24) (by positivity) (by norm_num) a b r hb)
    (C111_abs (binary_roundedField 24) (by positivity) (by norm_num) a Binary.sqrt (NCO.binary_sqrt 24)))

/-- A divisor other than zero. -/
example : (⟨1, 2⟩ : Cplx (Binary 24)).toComplex (fun v => (v.val : ℝ)) ≠ 0 := by
  intro h
  have := congrArg Complex.re h
  have h1 : (1 : Binary 24).val = 1 := by decide +kernel
  simp [toComplex, h1] at this

/-- `1 + 2 ^ -23` -/
def one : Binary 24 := .literal 24 24 (8388609 / 8388608)

/-- `1 + 2 ^ -22` -/
def two : Binary 24 := .literal 24 24 (8388610 / 8388608)

/-- **C111** But one component of a product may be lost altogether, and so may one of a quotient. -/
theorem C111_cancel : ∃ a b : Cplx (Binary 24), (mul a b).re.val = 0 ∧ (a.toComplex (fun v => (v.val : ℝ)) * b.toComplex (fun v => (v.val : ℝ))).re ≠ 0 ∧
    (div a (conj b)).re.val = 0 ∧ (a.toComplex (fun v => (v.val : ℝ)) / (conj b).toComplex (fun v => (v.val : ℝ))).re ≠ 0 := by
  refine ⟨⟨one, two⟩, ⟨one, 1⟩, by decide +kernel, ?_, by decide +kernel, ?_⟩
  · have h : one.val * one.val - two.val * (1 : Binary 24).val ≠ 0 := by decide +kernel
    have e : ((⟨one, two⟩ : Cplx (Binary 24)).toComplex (fun v => (v.val : ℝ)) * (⟨one, 1⟩ : Cplx (Binary 24)).toComplex (fun v => (v.val : ℝ))).re =
        ((one.val * one.val - two.val * (1 : Binary 24).val : ℚ) : ℝ) := by simp [toComplex]
    rw [e]
    exact_mod_cast h
  · have h : one.val * one.val - two.val * (1 : Binary 24).val ≠ 0 := by decide +kernel
    have n : Complex.normSq ((conj (⟨one, 1⟩ : Cplx (Binary 24))).toComplex (fun v => (v.val : ℝ))) ≠ 0 := by
      rw [Ne, Complex.normSq_eq_zero]
      intro hc
      have := congrArg Complex.re hc
      have h1 : one.val ≠ 0 := by decide +kernel
      simp [toComplex, conj, h1] at this
    have e : ((⟨one, two⟩ : Cplx (Binary 24)).toComplex (fun v => (v.val : ℝ)) / (conj (⟨one, 1⟩ : Cplx (Binary 24))).toComplex (fun v => (v.val : ℝ))).re =
        ((one.val * one.val - two.val * (1 : Binary 24).val : ℚ) : ℝ) / Complex.normSq ((conj (⟨one, 1⟩ : Cplx (Binary 24))).toComplex (fun v => (v.val : ℝ))) := by
      rw [Complex.div_re]
      have m : (-(1 : Binary 24)).val = -(1 : Binary 24).val := rfl
      simp [toComplex, conj, m]
      ring
    rw [e]
    refine div_ne_zero ?_ n
    exact_mod_cast h

/-! ### Overflow and underflow -/

open Ieee

variable {F : Format}

/-- Zero or not a number. -/
def Lost (a : Ieee F) : Prop := a = nan ∨ ∃ z, a = num z 0

/-- Infinite or not a number. -/
def Burst (a : Ieee F) : Prop := a = nan ∨ ∃ z, a = inf z

theorem lost (a : Ieee F) : Lost (a / inf false) := by
  cases a with
  | nan => exact .inl rfl
  | inf s => exact .inl rfl
  | num s m => exact .inr ⟨_, rfl⟩

theorem burst (a : Ieee F) : Burst (a / num false 0) := by
  cases a with
  | nan => exact .inl rfl
  | inf s => exact .inr ⟨_, rfl⟩
  | num s m =>
    by_cases h : m = 0
    · left
      show (if (0 : ℚ) = 0 then (if m = 0 then nan else inf (s ^^ false)) else _ : Ieee F) = nan
      rw [if_pos rfl, if_pos h]
    · right
      refine ⟨s ^^ false, ?_⟩
      show (if (0 : ℚ) = 0 then (if m = 0 then nan else inf (s ^^ false)) else _ : Ieee F) = _
      rw [if_pos rfl, if_neg h]

theorem pos_inf_add {a : Ieee F} (h : Pos a) : inf false + a = inf false := by
  rcases h with rfl | ⟨m, -, rfl⟩ <;> rfl

theorem pos_add_inf {a : Ieee F} (h : Pos a) : a + inf false = inf false := by
  rcases h with rfl | ⟨m, -, rfl⟩ <;> rfl

/-- **C111** Once a component reaches the square root of the range, the modulus is infinite and every quotient is lost. -/
theorem C111_large (us : Silence.Usual F) (b : Cplx (Ieee F)) (s : Bool) (r : ℚ) (k : ℕ) (hk : F.emax ≤ 2 * k) (hr : 2 ^ k ≤ r) (h : b.re = num s r ∧ b.im ≠ nan ∨ b.im = num s r ∧ b.re ≠ nan) :
    b.norm = inf false ∧ b.abs sqrt = inf false ∧ ∀ (a : Cplx (Ieee F)) (c : Ieee F), Lost (div a b).re ∧ Lost (div a b).im ∧ Lost (rdiv c b).re ∧ Lost (rdiv c b).im := by
  have hn : b.re * b.re + b.im * b.im = inf false := by
    rcases h with ⟨h1, h2⟩ | ⟨h1, h2⟩
    · rw [h1, square_inf us s r k hk hr, pos_inf_add (pos_square _ h2)]
    · rw [h1, square_inf us s r k hk hr, pos_add_inf (pos_square _ h2)]
  refine ⟨hn, ?_, fun a c => ?_⟩
  · show sqrt (b.re * b.re + b.im * b.im) = _
    rw [hn]
    rfl
  · simp only [div, rdiv, hn]
    exact ⟨lost _, lost _, lost _, lost _⟩

theorem square_zero (us : Silence.Usual F) (s : Bool) (r : ℚ) (k : ℤ) (hk : 2 * k + 1 ≤ F.emin) (h0 : 0 ≤ r) (hr : r < 2 ^ k) : (num s r * num s r : Ieee F) = num false 0 := by
  have hp : 0 < F.p := by have := us.p; omega
  have hr2 : r * r < 2 ^ (F.emin - 1) := by
    calc r * r < 2 ^ k * 2 ^ k := mul_self_lt_mul_self h0 hr
      _ = 2 ^ (2 * k) := by rw [← zpow_add₀ (by norm_num), two_mul]
      _ ≤ _ := zpow_le_zpow_right₀ (by norm_num) (by omega)
  have hz : roundTo F (r * r) = 0 := by
    have e2 : (2 : ℚ) ^ (F.emin - 1) = 2 ^ F.emin / 2 := by rw [zpow_sub₀ (by norm_num), zpow_one]
    have hpos : (0 : ℚ) < 2 ^ F.emin := by positivity
    have hnn : 0 ≤ r * r := mul_self_nonneg r
    rw [roundTo_small _ (by
      rw [abs_of_nonneg hnn]
      refine hr2.trans_le (zpow_le_zpow_right₀ (by norm_num) (by omega)))]
    have hd : r * r / 2 ^ F.emin < 1 / 2 := by rw [div_lt_iff₀ hpos]; linarith
    have hd0 : 0 ≤ r * r / 2 ^ F.emin := by positivity
    have hnear := Binary.nearest_near (r * r / 2 ^ F.emin)
    have : |(Binary.nearest (r * r / 2 ^ F.emin) : ℚ)| < 1 := by
      calc _ ≤ |(Binary.nearest (r * r / 2 ^ F.emin) : ℚ) - r * r / 2 ^ F.emin| + |r * r / 2 ^ F.emin| := by
            have := abs_add_le ((Binary.nearest (r * r / 2 ^ F.emin) : ℚ) - r * r / 2 ^ F.emin) (r * r / 2 ^ F.emin)
            rwa [sub_add_cancel] at this
        _ < _ := by rw [abs_of_nonneg hd0]; linarith
    have : Binary.nearest (r * r / 2 ^ F.emin) = 0 := Int.abs_lt_one_iff.mp (by exact_mod_cast this)
    rw [this, Int.cast_zero, zero_mul]
  rw [num_mul, Bool.xor_self, pack_cases, hz, abs_zero, if_neg (by push Not; positivity)]

/-- **C111** Once both components are below the square root of the smallest number, the modulus is zero and every quotient is infinite or not a number. -/
theorem C111_small (us : Silence.Usual F) (b : Cplx (Ieee F)) (s t : Bool) (r q : ℚ) (k : ℤ) (hk : 2 * k + 1 ≤ F.emin) (hr0 : 0 ≤ r) (hr : r < 2 ^ k) (hq0 : 0 ≤ q) (hq : q < 2 ^ k)
    (h1 : b.re = num s r) (h2 : b.im = num t q) :
    b.norm = num false 0 ∧ b.abs sqrt = num false 0 ∧ ∀ (a : Cplx (Ieee F)) (c : Ieee F), Burst (div a b).re ∧ Burst (div a b).im ∧ Burst (rdiv c b).re ∧ Burst (rdiv c b).im := by
  have hn : b.re * b.re + b.im * b.im = num false 0 := by
    rw [h1, h2, square_zero us s r k hk hr0 hr, square_zero us t q k hk hq0 hq, add_num]
    simp [signed]
  refine ⟨hn, ?_, fun a c => ?_⟩
  · show sqrt (b.re * b.re + b.im * b.im) = _
    rw [hn]
    simp [sqrt]
  · simp only [div, rdiv, hn]
    exact ⟨burst _, burst _, burst _, burst _⟩

/-- In single precision `2 ^ 64` divided by itself is not a number, and so is `2 ^ -76`. -/
example : (div ⟨num false (2 ^ 64), num false 0⟩ ⟨num false (2 ^ 64), num false 0⟩ : Cplx (Ieee .single)).re = nan ∧
    (div ⟨num false (1 / 2 ^ 76), num false 0⟩ ⟨num false (1 / 2 ^ 76), num false 0⟩ : Cplx (Ieee .single)).re = nan := by decide +kernel

example := C111_large Silence.usual_single ⟨num true (2 ^ 64), num false 3⟩ true (2 ^ 64) 64 (by decide) le_rfl (.inl ⟨rfl, nofun⟩)

example := C111_small Silence.usual_single ⟨num true (1 / 2 ^ 76), num false 0⟩ true false (1 / 2 ^ 76) 0 (-75) (by decide) (by norm_num) (by norm_num) le_rfl (by norm_num) rfl rfl

end Cplx
end DSP
