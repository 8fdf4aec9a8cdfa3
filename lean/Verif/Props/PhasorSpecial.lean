import Verif.Model.PhasorIeee
import Verif.Props.PhasorError
import Verif.Props.AMDBridge

/-!
# C133: the oscillator with limits of the exponent and special values
-/

namespace DSP

open Ieee Spec FFT Bridge

namespace NCO

variable {F : Format}

/-- The complex number that a pair stands for. -/
noncomputable def at' (z : Cplx (Ieee F)) : ℂ := z.toComplex fun a => (a.val : ℝ)

theorem usual_of_wide (W : Elementary.AtanIeee.Wide F) : Silence.Usual F :=
  ⟨by have := W.p; omega, by have := W.emin; have := W.p; omega, by have := W.emax; omega⟩

theorem unit_tiny (W : Elementary.AtanIeee.Wide F) : (1 : ℝ) / 2 ^ F.p ≤ 1 / 1000000 := by
  have h : (2 : ℝ) ^ 20 ≤ 2 ^ F.p := pow_le_pow_right₀ (by norm_num) W.p
  rw [div_le_div_iff₀ (by positivity) (by norm_num)]
  norm_num at h ⊢
  linarith

theorem floor_tiny (W : Elementary.AtanIeee.Wide F) : (2 : ℝ) ^ (F.emin + F.p - 1) ≤ 1 / 1000000 := by
  have h1 := W.emin
  have h2 := W.p
  calc (2 : ℝ) ^ (F.emin + F.p - 1) ≤ 2 ^ (-20 : ℤ) := zpow_le_zpow_right₀ (by norm_num) (by omega)
    _ ≤ _ := by norm_num

theorem roof_big (W : Elementary.AtanIeee.Wide F) : (1000 : ℝ) ≤ 2 ^ (F.emax - 1) := by
  have h1 := W.emax
  have h2 := W.p
  calc (1000 : ℝ) ≤ 2 ^ (20 : ℤ) := by norm_num
    _ ≤ _ := zpow_le_zpow_right₀ (by norm_num) (by omega)

theorem re_le (z : Cplx (Ieee F)) : |(z.re.val : ℝ)| ≤ ‖at' z‖ := Complex.abs_re_le_norm (at' z)

theorem im_le (z : Cplx (Ieee F)) : |(z.im.val : ℝ)| ≤ ‖at' z‖ := Complex.abs_im_le_norm (at' z)

theorem sq_parts (z : Cplx (Ieee F)) : ‖at' z‖ ^ 2 = (z.re.val : ℝ) ^ 2 + (z.im.val : ℝ) ^ 2 := by
  rw [← Complex.normSq_eq_norm_sq, Complex.normSq_apply]
  show (z.re.val : ℝ) * z.re.val + z.im.val * z.im.val = _
  ring

/-- Two products of parts together are at most the product of the magnitudes. -/
theorem cross_le (a b c d A B : ℝ) (hA : 0 ≤ A) (hB : 0 ≤ B) (h1 : A ^ 2 = a ^ 2 + b ^ 2) (h2 : B ^ 2 = c ^ 2 + d ^ 2) : |a * c| + |b * d| ≤ A * B := by
  rw [abs_mul, abs_mul, ← sq_le_sq₀ (by positivity) (by positivity), mul_pow, h1, h2, ← sq_abs a, ← sq_abs b, ← sq_abs c, ← sq_abs d]
  nlinarith [sq_nonneg (|a| * |d| - |b| * |c|)]

/-- A rounded sum of two rounded products. -/
theorem two_near (U : Silence.Usual F) {a b c d : Ieee F} (ha : GoodIeee a) (hb : GoodIeee b) (hc : GoodIeee c) (hd : GoodIeee d) {N : ℝ} (hN : |(a.val : ℝ) * c.val| + |(b.val : ℝ) * d.val| ≤ N)
    (hr : 2 * (N + 2 * 2 ^ (F.emin + F.p - 1)) ≤ (2 : ℝ) ^ (F.emax - 1)) :
    GoodIeee (a * c + b * d) ∧ |((a * c + b * d).val : ℝ) - (a.val * c.val + b.val * d.val)| ≤ (2 * (1 / 2 ^ F.p) + (1 / 2 ^ F.p) ^ 2) * N + 4 * (1 / 2 ^ F.p) * 2 ^ (F.emin + F.p - 1) := by
  have hE : (0 : ℝ) ≤ 2 ^ (F.emin + F.p - 1) := by positivity
  obtain ⟨u0, u1⟩ := usual_u U
  have n1 := abs_nonneg ((a.val : ℝ) * c.val)
  have n2 := abs_nonneg ((b.val : ℝ) * d.val)
  obtain ⟨g1, r1⟩ := good_mul U a c ha hc (by linarith)
  obtain ⟨g2, r2⟩ := good_mul U b d hb hd (by linarith)
  obtain ⟨t1, t2⟩ := two_products_range _ _ ((a * c + b * d).val : ℝ) _ _ _ _ u0.le u1 hE r1 r2
  obtain ⟨g3, r3⟩ := good_add U (a * c) (b * d) g1 g2 (t1.trans (by
    have : (1 + 1 / 2 ^ F.p : ℝ) ≤ 2 := by linarith
    have := mul_le_mul this (show |(a.val : ℝ) * c.val| + |(b.val : ℝ) * d.val| + 2 * 2 ^ (F.emin + F.p - 1) ≤ N + 2 * 2 ^ (F.emin + F.p - 1) by linarith) (by positivity) (by norm_num)
    linarith))
  refine ⟨g3, (t2 r3).trans ?_⟩
  gcongr

section
variable [NeZero F.p] (W : Elementary.AtanIeee.Wide F)
include W

omit [NeZero F.p] in
/-- The product of two complex numbers of moderate size. -/
theorem mul_near (d q : Cplx (Ieee F)) (g1 : GoodIeee q.re) (g2 : GoodIeee q.im) (g3 : GoodIeee d.re) (g4 : GoodIeee d.im) (N1 : 0.49 ≤ ‖at' d‖ * ‖at' q‖) (N2 : ‖at' d‖ * ‖at' q‖ ≤ 2.01) :
    GoodIeee (d.mul q).re ∧ GoodIeee (d.mul q).im ∧ ‖at' (d.mul q) - at' d * at' q‖ ≤ 3.01 * (1 / 2 ^ F.p) * (‖at' d‖ * ‖at' q‖) := by
  have U := usual_of_wide W
  have hu := unit_tiny W
  have hE := floor_tiny W
  have hO := roof_big W
  have u0 : (0 : ℝ) < 1 / 2 ^ F.p := by positivity
  have E0 : (0 : ℝ) < 2 ^ (F.emin + F.p - 1) := by positivity
  have sP := sq_parts q
  have sD := sq_parts d
  have p0 := norm_nonneg (at' q)
  have d0 := norm_nonneg (at' d)
  have c1 := cross_le (d.re.val : ℝ) d.im.val q.re.val q.im.val ‖at' d‖ ‖at' q‖ d0 p0 sD sP
  have c2 := cross_le (d.re.val : ℝ) d.im.val q.im.val q.re.val ‖at' d‖ ‖at' q‖ d0 p0 sD (by rw [sP]; ring)
  generalize ‖at' d‖ * ‖at' q‖ = N at *
  have hmr : GoodIeee (d.mul q).re ∧ |((d.mul q).re.val : ℝ) - (d.re.val * q.re.val + -(d.im.val * q.im.val))| ≤
      (2 * (1 / 2 ^ F.p) + (1 / 2 ^ F.p) ^ 2) * N + 4 * (1 / 2 ^ F.p) * 2 ^ (F.emin + F.p - 1) := by
    have n1 := abs_nonneg ((d.re.val : ℝ) * q.re.val)
    have n2 := abs_nonneg ((d.im.val : ℝ) * q.im.val)
    obtain ⟨k1, r1⟩ := good_mul U d.re q.re g3 g1 (by linarith)
    obtain ⟨k2, r2⟩ := good_mul U d.im q.im g4 g2 (by linarith)
    obtain ⟨t1, t2⟩ := two_products_range ((d.re.val : ℝ) * q.re.val) (-((d.im.val : ℝ) * q.im.val)) ((d.mul q).re.val : ℝ) ((d.re * q.re).val : ℝ)
      (-(d.im * q.im).val : ℝ) (1 / 2 ^ F.p) (2 ^ (F.emin + F.p - 1)) u0.le (by linarith) E0.le r1 (by
        rw [abs_neg, show (-(d.im * q.im).val : ℝ) - -((d.im.val : ℝ) * q.im.val) = -((d.im * q.im).val - d.im.val * q.im.val) by ring, abs_neg]
        exact r2)
    rw [abs_neg] at t1 t2
    have b : (1 + 1 / 2 ^ F.p : ℝ) * (|(d.re.val : ℝ) * q.re.val| + |(d.im.val : ℝ) * q.im.val| + 2 * 2 ^ (F.emin + F.p - 1)) ≤ 2 * 3 := by
      gcongr
      · linarith
      · linarith
    obtain ⟨k3, r3⟩ := good_sub U _ _ k1 k2 (by rw [sub_eq_add_neg]; linarith)
    refine ⟨k3, (t2 (by rw [← sub_eq_add_neg]; exact r3)).trans ?_⟩
    gcongr
  have hmi : GoodIeee (d.mul q).im ∧ |((d.mul q).im.val : ℝ) - (d.re.val * q.im.val + d.im.val * q.re.val)| ≤
      (2 * (1 / 2 ^ F.p) + (1 / 2 ^ F.p) ^ 2) * N + 4 * (1 / 2 ^ F.p) * 2 ^ (F.emin + F.p - 1) := two_near U g3 g4 g2 g1 c2 (by linarith)
  refine ⟨hmr.1, hmi.1, ?_⟩
  have b1 := hmr.2
  have b2 := hmi.2
  generalize (1 : ℝ) / 2 ^ F.p = u at *
  generalize (2 : ℝ) ^ (F.emin + F.p - 1) = E at *
  have hβ : (2 * u + u ^ 2) * N + 4 * u * E ≤ 2.0001 * (u * N) := by
    have h0 : 0 ≤ u * N := by positivity
    have h1 : u * (u * N) ≤ 1 / 1000000 * (u * N) := mul_le_mul_of_nonneg_right hu h0
    have h2 : u * E ≤ u * (1 / 1000000) := mul_le_mul_of_nonneg_left hE u0.le
    have h3 : u * 0.49 ≤ u * N := mul_le_mul_of_nonneg_left N1 u0.le
    linarith
  have h := norm_le_affine (at' (d.mul q) - at' d * at' q) 0 0 (2.0001 * (u * N)) le_rfl (by positivity) (by
      rw [zero_mul, zero_add]
      refine le_trans (le_of_eq ?_) (b1.trans hβ)
      rw [← sub_eq_add_neg]
      rfl) (by
      rw [zero_mul, zero_add]
      refine le_trans (le_of_eq ?_) (b2.trans hβ)
      rfl)
  rw [zero_mul, zero_add] at h
  have : 0 ≤ u * N := by positivity
  linarith

/-- The magnitude of a complex number of moderate size. -/
theorem root_near (m : Cplx (Ieee F)) (g1 : GoodIeee m.re) (g2 : GoodIeee m.im) (M1 : 0.48 ≤ ‖at' m‖) (M2 : ‖at' m‖ ≤ 2.02) :
    GoodIeee (m.abs Ieee.sqrt) ∧ (1 - 2.01 * (1 / 2 ^ F.p)) * ‖at' m‖ ≤ ((m.abs Ieee.sqrt).val : ℝ) ∧ ((m.abs Ieee.sqrt).val : ℝ) ≤ (1 + 2.01 * (1 / 2 ^ F.p)) * ‖at' m‖ := by
  have U := usual_of_wide W
  have hu := unit_tiny W
  have hE := floor_tiny W
  have hO := roof_big W
  have u0 : (0 : ℝ) < 1 / 2 ^ F.p := by positivity
  have E0 : (0 : ℝ) < 2 ^ (F.emin + F.p - 1) := by positivity
  have sM := sq_parts m
  generalize ‖at' m‖ = M at *
  have Q1 : 0.23 ≤ M ^ 2 := by nlinarith
  have Q2 : M ^ 2 ≤ 4.1 := by nlinarith
  have eS : |(m.re.val : ℝ) * m.re.val| + |(m.im.val : ℝ) * m.im.val| = M ^ 2 := by
    rw [abs_of_nonneg (mul_self_nonneg _), abs_of_nonneg (mul_self_nonneg _), sM]; ring
  obtain ⟨gN, rN⟩ := two_near U g1 g2 g1 g2 eS.le (by linarith)
  have eN : m.re * m.re + m.im * m.im = m.norm := rfl
  rw [eN] at gN rN
  rw [show (m.re.val : ℝ) * m.re.val + m.im.val * m.im.val = M ^ 2 by rw [sM]; ring] at rN
  have hn : |(m.norm.val : ℝ) - M ^ 2| ≤ 2.0001 * (1 / 2 ^ F.p * M ^ 2) := by
    refine rN.trans ?_
    generalize (1 : ℝ) / 2 ^ F.p = u at *
    generalize (2 : ℝ) ^ (F.emin + F.p - 1) = E at *
    have h0 : 0 ≤ u * M ^ 2 := by positivity
    have h1 : u * (u * M ^ 2) ≤ 1 / 1000000 * (u * M ^ 2) := mul_le_mul_of_nonneg_right hu h0
    have h2 : u * E ≤ u * (1 / 1000000) := mul_le_mul_of_nonneg_left hE u0.le
    have h3 : u * 0.23 ≤ u * M ^ 2 := mul_le_mul_of_nonneg_left Q1 u0.le
    linarith
  obtain ⟨n1, n2⟩ := abs_le.mp hn
  have hn0 : (0 : ℝ) < m.norm.val := by nlinarith
  obtain ⟨S, s0⟩ := Elementary.DecibelIeee.same_sqrt W (a := m.norm) (b := FMDRounded.free m.norm) (FMDRounded.free_same gN.1 gN.2) (by
    rw [FMDRounded.free_val gN.2]; exact_mod_cast hn0)
  have ha : m.abs Ieee.sqrt = Ieee.sqrt m.norm := rfl
  have er := Binary.roundReal_error F.p √((FMDRounded.free m.norm).val : ℝ)
  rw [show Binary.roundReal F.p √((FMDRounded.free m.norm).val : ℝ) = (Binary.sqrt (FMDRounded.free m.norm)).val from rfl, ← S.2.2, FMDRounded.free_val gN.2,
    abs_of_nonneg (Real.sqrt_nonneg _), div_eq_mul_one_div, ← ha] at er
  refine ⟨⟨S.1, S.2.1⟩, ?_⟩
  generalize (1 : ℝ) / 2 ^ F.p = u at *
  generalize ((m.abs Ieee.sqrt).val : ℝ) = A at *
  generalize (m.norm.val : ℝ) = n at *
  have M0 : 0 ≤ M := by linarith
  have uu : u * u ≤ 1 / 1000000 * u := mul_le_mul_of_nonneg_right hu u0.le
  have uu0 : 0 ≤ u * u := by positivity
  have l1 : (1 - 1.001 * u) * M ≤ √n := by
    apply Real.le_sqrt_of_sq_le
    rw [mul_pow]
    have : (1 - 1.001 * u) ^ 2 ≤ 1 - 2.0001 * u := by linarith
    have := mul_le_mul_of_nonneg_right this (sq_nonneg M)
    linarith
  have l2 : √n ≤ (1 + 1.001 * u) * M := by
    rw [Real.sqrt_le_left (by positivity), mul_pow]
    have : 1 + 2.0001 * u ≤ (1 + 1.001 * u) ^ 2 := by linarith
    have := mul_le_mul_of_nonneg_right this (sq_nonneg M)
    linarith
  obtain ⟨e1, e2⟩ := abs_le.mp er
  constructor
  · have h1 : (1 - 2.01 * u) ≤ (1 - u) * (1 - 1.001 * u) := by linarith
    have h2 := mul_le_mul_of_nonneg_right h1 M0
    have h3 := mul_le_mul_of_nonneg_left l1 (show (0 : ℝ) ≤ 1 - u by linarith)
    linarith
  · have h1 : (1 + u) * (1 + 1.001 * u) ≤ (1 + 2.01 * u) := by linarith
    have h2 := mul_le_mul_of_nonneg_right h1 M0
    have h3 := mul_le_mul_of_nonneg_left l2 (show (0 : ℝ) ≤ 1 + u by linarith)
    linarith

/-- The quotient by the magnitude. -/
theorem unit_near (m : Cplx (Ieee F)) (g1 : GoodIeee m.re) (g2 : GoodIeee m.im) (M1 : 0.48 ≤ ‖at' m‖) (M2 : ‖at' m‖ ≤ 2.02) :
    (GoodIeee (m.sdivAssign (m.abs Ieee.sqrt)).re ∧ GoodIeee (m.sdivAssign (m.abs Ieee.sqrt)).im) ∧ |‖at' (m.sdivAssign (m.abs Ieee.sqrt))‖ - 1| ≤ 4 * (1 / 2 ^ F.p) ∧
      ‖dir (at' (m.sdivAssign (m.abs Ieee.sqrt))) - dir (at' m)‖ ≤ 2.02 * (1 / 2 ^ F.p) := by
  have U := usual_of_wide W
  have hu := unit_tiny W
  have hE := floor_tiny W
  have hO := roof_big W
  have u0 : (0 : ℝ) < 1 / 2 ^ F.p := by positivity
  have E0 : (0 : ℝ) < 2 ^ (F.emin + F.p - 1) := by positivity
  obtain ⟨gA, a1, a2⟩ := root_near W m g1 g2 M1 M2
  generalize m.abs Ieee.sqrt = A at *
  have hM0 : at' m ≠ 0 := by rw [← norm_pos_iff]; linarith
  have hA0 : (0 : ℝ) < A.val := by nlinarith
  have hAq : A.val ≠ 0 := by intro h; rw [h] at hA0; norm_num at hA0
  have hac : ((A.val : ℝ) : ℂ) ≠ 0 := by exact_mod_cast hA0.ne'
  have nq : ‖at' m / ((A.val : ℝ) : ℂ)‖ = ‖at' m‖ / (A.val : ℝ) := by rw [norm_div, Complex.norm_real, Real.norm_of_nonneg hA0.le]
  have uu : 1 / 2 ^ F.p * (1 / 2 ^ F.p) ≤ 1 / 1000000 * (1 / 2 ^ F.p : ℝ) := mul_le_mul_of_nonneg_right hu u0.le
  have uu0 : (0 : ℝ) ≤ 1 / 2 ^ F.p * (1 / 2 ^ F.p) := by positivity
  have r1 : ‖at' m‖ / (A.val : ℝ) ≤ 1 + 2.1 * (1 / 2 ^ F.p) := by
    rw [div_le_iff₀ hA0]
    have h1 : 1 ≤ (1 + 2.1 * (1 / 2 ^ F.p : ℝ)) * (1 - 2.01 * (1 / 2 ^ F.p)) := by linarith
    have h2 := mul_le_mul_of_nonneg_right h1 (norm_nonneg (at' m))
    have h3 := mul_le_mul_of_nonneg_left a1 (show (0 : ℝ) ≤ 1 + 2.1 * (1 / 2 ^ F.p) by linarith)
    linarith
  have r2 : 1 - 2.1 * (1 / 2 ^ F.p) ≤ ‖at' m‖ / (A.val : ℝ) := by
    rw [le_div_iff₀ hA0]
    have h1 : (1 - 2.1 * (1 / 2 ^ F.p : ℝ)) * (1 + 2.01 * (1 / 2 ^ F.p)) ≤ 1 := by linarith
    have h2 := mul_le_mul_of_nonneg_right h1 (norm_nonneg (at' m))
    have h3 := mul_le_mul_of_nonneg_left a2 (show (0 : ℝ) ≤ 1 - 2.1 * (1 / 2 ^ F.p) by linarith)
    linarith
  have q1 : |(m.re.val : ℝ) / A.val| ≤ 2 := by
    rw [abs_div, abs_of_pos hA0]
    have := div_le_div_of_nonneg_right (re_le m) hA0.le
    linarith
  have q2 : |(m.im.val : ℝ) / A.val| ≤ 2 := by
    rw [abs_div, abs_of_pos hA0]
    have := div_le_div_of_nonneg_right (im_le m) hA0.le
    linarith
  obtain ⟨k1, v1⟩ := FMDRounded.good_div U m.re A g1 gA hAq (by linarith)
  obtain ⟨k2, v2⟩ := FMDRounded.good_div U m.im A g2 gA hAq (by linarith)
  have hq : ‖at' (m.sdivAssign A) - at' m / ((A.val : ℝ) : ℂ)‖ ≤ 1 / 2 ^ F.p * (‖at' m / ((A.val : ℝ) : ℂ)‖ + 2 * 2 ^ (F.emin + F.p - 1)) := by
    refine parts_error _ _ _ _ u0.le E0.le ?_ ?_
    · rw [Complex.sub_re, Complex.div_ofReal_re]; exact v1
    · rw [Complex.sub_im, Complex.div_ofReal_im]; exact v2
  have hq' : ‖at' (m.sdivAssign A) - at' m / ((A.val : ℝ) : ℂ)‖ ≤ 1.01 * (1 / 2 ^ F.p) * ‖at' m / ((A.val : ℝ) : ℂ)‖ := by
    refine hq.trans ?_
    rw [nq]
    have h1 := mul_le_mul_of_nonneg_left hE u0.le
    have h2 := mul_le_mul_of_nonneg_left r2 u0.le
    linarith
  refine ⟨⟨k1, k2⟩, ?_, ?_⟩
  · have h1 := (abs_norm_sub_norm_le _ _).trans hq'
    rw [nq] at h1
    obtain ⟨h2, h3⟩ := abs_le.mp h1
    have h4 := mul_le_mul_of_nonneg_left r1 u0.le
    rw [abs_le]
    constructor <;> linarith
  · have d1 := dir_near (at' (m.sdivAssign A)) (at' m / ((A.val : ℝ) : ℂ)) (div_ne_zero hM0 hac)
    rw [dir_div _ _ hA0] at d1
    have e1 : ‖at' (m.sdivAssign A) - at' m / ((A.val : ℝ) : ℂ)‖ / ‖at' m / ((A.val : ℝ) : ℂ)‖ ≤ 1.01 * (1 / 2 ^ F.p) := by
      rw [div_le_iff₀ (norm_pos_iff.mpr (div_ne_zero hM0 hac))]; exact hq'
    linarith

/-- One call, with all numbers inside of the range: the new value is finite and has magnitude one, up to four units, and its direction is off by at most nine. -/
theorem step_near (q : NCO (Ieee F)) (g1 : GoodIeee q.prev.re) (g2 : GoodIeee q.prev.im) (g3 : GoodIeee q.delta.re) (g4 : GoodIeee q.delta.im)
    (hP : |‖at' q.prev‖ - 1| ≤ 4 * (1 / 2 ^ F.p)) (hD1 : 1 / 2 ≤ ‖at' q.delta‖) (hD2 : ‖at' q.delta‖ ≤ 2) :
    (GoodIeee q.callIeee.1.prev.re ∧ GoodIeee q.callIeee.1.prev.im) ∧ |‖at' q.callIeee.1.prev‖ - 1| ≤ 4 * (1 / 2 ^ F.p) ∧
      ‖dir (at' q.callIeee.1.prev) - dir (at' q.prev) * dir (at' q.delta)‖ ≤ 9 * (1 / 2 ^ F.p) := by
  have hu := unit_tiny W
  have u0 : (0 : ℝ) < 1 / 2 ^ F.p := by positivity
  have p0 := norm_nonneg (at' q.prev)
  have d0 := norm_nonneg (at' q.delta)
  obtain ⟨P1, P2⟩ := abs_le.mp hP
  have N1 : 0.49 ≤ ‖at' q.delta‖ * ‖at' q.prev‖ := by nlinarith
  have N2 : ‖at' q.delta‖ * ‖at' q.prev‖ ≤ 2.01 := by nlinarith
  obtain ⟨k1, k2, hM⟩ := mul_near W q.delta q.prev g1 g2 g3 g4 N1 N2
  have eq : q.callIeee.1.prev = (q.delta.mul q.prev).sdivAssign ((q.delta.mul q.prev).abs Ieee.sqrt) := rfl
  rw [eq]
  generalize q.delta.mul q.prev = m at *
  have nDP : ‖at' q.delta * at' q.prev‖ = ‖at' q.delta‖ * ‖at' q.prev‖ := norm_mul _ _
  have hDP : at' q.delta * at' q.prev ≠ 0 := by rw [← norm_pos_iff, nDP]; linarith
  have M1 : 0.48 ≤ ‖at' m‖ := by
    have := norm_sub_norm_le (at' q.delta * at' q.prev) (at' m)
    rw [norm_sub_rev, nDP] at this
    nlinarith
  have M2 : ‖at' m‖ ≤ 2.02 := by
    have := norm_sub_norm_le (at' m) (at' q.delta * at' q.prev)
    rw [nDP] at this
    nlinarith
  obtain ⟨h1, h2, h3⟩ := unit_near W m k1 k2 M1 M2
  refine ⟨h1, h2, ?_⟩
  have d2 := dir_near (at' m) (at' q.delta * at' q.prev) hDP
  rw [dir_mul, mul_comm (dir (at' q.delta))] at d2
  have e2 : ‖at' m - at' q.delta * at' q.prev‖ / ‖at' q.delta * at' q.prev‖ ≤ 3.01 * (1 / 2 ^ F.p) := by rw [nDP, div_le_iff₀ (by linarith)]; exact hM
  generalize m.sdivAssign (m.abs Ieee.sqrt) = z at *
  calc _ = ‖(dir (at' z) - dir (at' m)) + (dir (at' m) - dir (at' q.prev) * dir (at' q.delta))‖ := by congr 1; ring
    _ ≤ _ := norm_add_le _ _
    _ ≤ _ := by linarith

theorem outputs_near (k : ℕ) : ∀ (q : NCO (Ieee F)) (e : ℂ) (b : ℝ), GoodIeee q.prev.re → GoodIeee q.prev.im → GoodIeee q.delta.re → GoodIeee q.delta.im →
    |‖at' q.prev‖ - 1| ≤ 4 * (1 / 2 ^ F.p) → 1 / 2 ≤ ‖at' q.delta‖ → ‖at' q.delta‖ ≤ 2 → ‖dir (at' q.prev) - e‖ ≤ b →
    (GoodIeee (q.outputIeee k).re ∧ GoodIeee (q.outputIeee k).im) ∧ |‖at' (q.outputIeee k)‖ - 1| ≤ 4 * (1 / 2 ^ F.p) ∧
      ‖dir (at' (q.outputIeee k)) - e * dir (at' q.delta) ^ k‖ ≤ b + 9 * k * (1 / 2 ^ F.p) := by
  induction k with
  | zero => exact fun q e b g1 g2 _ _ hP _ _ hb => ⟨⟨g1, g2⟩, hP, by rw [pow_zero, mul_one, Nat.cast_zero, mul_zero, zero_mul, add_zero]; exact hb⟩
  | succ k ih =>
    intro q e b g1 g2 g3 g4 hP hD1 hD2 hb
    obtain ⟨⟨k1, k2⟩, n, a⟩ := step_near W q g1 g2 g3 g4 hP hD1 hD2
    have hd : at' q.delta ≠ 0 := by rw [← norm_pos_iff]; linarith
    obtain ⟨i1, i2, i3⟩ := ih q.callIeee.1 (e * dir (at' q.delta)) (b + 9 * (1 / 2 ^ F.p)) k1 k2 g3 g4 n hD1 hD2 (by
      calc _ = ‖(dir (at' q.callIeee.1.prev) - dir (at' q.prev) * dir (at' q.delta)) + (dir (at' q.prev) - e) * dir (at' q.delta)‖ := by congr 1; ring
        _ ≤ _ := norm_add_le _ _
        _ ≤ 9 * (1 / 2 ^ F.p) + b := by
          rw [norm_mul, norm_dir hd, mul_one]
          exact add_le_add a hb
        _ = _ := by ring)
    refine ⟨i1, i2, ?_⟩
    show ‖dir (at' (q.callIeee.1.outputIeee k)) - e * dir (at' q.delta) ^ (k + 1)‖ ≤ _
    have ed : q.callIeee.1.delta = q.delta := rfl
    rw [ed] at i3
    calc _ = ‖dir (at' (q.callIeee.1.outputIeee k)) - e * dir (at' q.delta) * dir (at' q.delta) ^ k‖ := by congr 1; ring
      _ ≤ _ := i3
      _ = _ := by push_cast; ring

/-- **C133** (oscillator). With the limits of the exponent, gradual underflow included: whatever finite step of magnitude between 1/2 and 2 is set, all outputs are finite for ever, their magnitude stays within
four roundings of one, and the `k`-th output is within `9k + 4` roundings of the `k`-th power of the direction of the step. -/
theorem C133_oscillator (q : NCO (Ieee F)) (h1 : q.prev = ⟨1, 0⟩) (g3 : GoodIeee q.delta.re) (g4 : GoodIeee q.delta.im) (hD1 : 1 / 2 ≤ ‖q.delta.toComplex fun a => (a.val : ℝ)‖)
    (hD2 : ‖q.delta.toComplex fun a => (a.val : ℝ)‖ ≤ 2) (k : ℕ) :
    (q.outputIeee k).re.Finite ∧ (q.outputIeee k).im.Finite ∧ |‖(q.outputIeee k).toComplex fun a => (a.val : ℝ)‖ - 1| ≤ 4 / 2 ^ F.p ∧
      ‖((q.outputIeee k).toComplex fun a => (a.val : ℝ)) - ((q.delta.toComplex fun a => (a.val : ℝ)) / ‖q.delta.toComplex fun a => (a.val : ℝ)‖) ^ k‖ ≤ (9 * k + 4) / 2 ^ F.p := by
  have U := usual_of_wide W
  obtain ⟨go, vo⟩ := FMDRounded.good_one (F := F) U
  have hu := unit_tiny W
  have e1 : at' q.prev = 1 := by
    rw [h1]
    exact Complex.ext (by show ((((1 : Ieee F).val : ℚ)) : ℝ) = 1; rw [vo]) (by show (((0 : Ieee F).val : ℚ) : ℝ) = 0; rw [show (0 : Ieee F).val = 0 from rfl]; norm_num)
  have gz : GoodIeee (0 : Ieee F) := FMDRounded.zero_good.1
  obtain ⟨⟨f1, f2⟩, n, d⟩ := outputs_near W k q 1 0 (by rw [h1]; exact go) (by rw [h1]; exact gz) g3 g4 (by rw [e1]; simp) hD1 hD2 (by rw [e1]; simp [dir])
  refine ⟨f1.1, f2.1, by rw [show (4 : ℝ) / 2 ^ F.p = 4 * (1 / 2 ^ F.p) by ring]; exact n, ?_⟩
  set y := at' (q.outputIeee k) with hy'
  have hy : y ≠ 0 := by
    intro h
    rw [h, norm_zero, zero_sub, abs_neg, abs_one] at n
    linarith
  have hyc : (‖y‖ : ℂ) ≠ 0 := by exact_mod_cast norm_ne_zero_iff.mpr hy
  have e2 : y - dir y = ((‖y‖ - 1 : ℝ) : ℂ) * dir y := by
    rw [dir]; push_cast; field_simp
  rw [one_mul, zero_add] at d
  show ‖y - dir (at' q.delta) ^ k‖ ≤ _
  calc _ = ‖(y - dir y) + (dir y - dir (at' q.delta) ^ k)‖ := by congr 1; ring
    _ ≤ _ := norm_add_le _ _
    _ ≤ 4 * (1 / 2 ^ F.p) + 9 * k * (1 / 2 ^ F.p) := by
      refine add_le_add ?_ d
      rw [e2, norm_mul, norm_dir hy, mul_one, Complex.norm_real]
      exact n
    _ = _ := by ring

end

/-! ### Special values -/

/-- **C133** (infinite frequency). The cosine and the sine of an infinity or NaN are NaN. One call after they were set, everything is NaN, and remains so through any further calls and any change of the
frequency, until `reset` is called. -/
theorem C133_stuck (q : NCO (Ieee F)) (h : q.delta.re = nan ∨ q.delta.im = nan) (os : List (Op F)) (ho : ∀ o ∈ os, o ≠ .reset) :
    ∀ y ∈ play q.callIeee.1 os, y = ⟨nan, nan⟩ := by
  have absorb : ∀ r : NCO (Ieee F), r.prev.re = nan ∨ r.prev.im = nan ∨ r.delta.re = nan ∨ r.delta.im = nan → r.callIeee.1.prev = ⟨nan, nan⟩ := by
    intro r hr
    have h1 : (r.delta.re * r.prev.re - r.delta.im * r.prev.im : Ieee F) = nan := by
      rcases hr with hr | hr | hr | hr <;> rw [hr]
      · rw [mul_nan]; rfl
      · rw [mul_nan, FMDRounded.sub_nan]
      · rfl
      · rw [nan_mul, FMDRounded.sub_nan]
    have h2 : (r.delta.re * r.prev.im + r.delta.im * r.prev.re : Ieee F) = nan := by
      rcases hr with hr | hr | hr | hr <;> rw [hr]
      · rw [mul_nan, add_nan]
      · rw [mul_nan]; rfl
      · rfl
      · rw [nan_mul, add_nan]
    have hm : r.prev.mulAssign r.delta = ⟨nan, nan⟩ := by
      show (⟨_, _⟩ : Cplx (Ieee F)) = _
      rw [h1, h2]
    show (r.prev.mulAssign r.delta).sdivAssign _ = _
    rw [hm]
    rfl
  have key : ∀ (os : List (Op F)), (∀ o ∈ os, o ≠ .reset) → ∀ r : NCO (Ieee F), r.prev = ⟨nan, nan⟩ → ∀ y ∈ play r os, y = ⟨nan, nan⟩ := by
    intro os
    induction os with
    | nil => intro _ r _ y hy; simp [play] at hy
    | cons o os ih =>
      intro ho r hr y hy
      have ih := ih fun o h => ho o (List.mem_cons_of_mem _ h)
      cases o with
      | tune c s =>
        exact ih ⟨r.prev, ⟨c, s⟩⟩ hr y (by simpa [play, step] using hy)
      | reset => exact absurd rfl (ho _ (List.mem_cons_self))
      | call =>
        simp only [play, step, Option.toList_some, List.singleton_append, List.mem_cons] at hy
        rcases hy with hy | hy
        · rw [hy]; exact hr
        · exact ih r.callIeee.1 (absorb r (.inl (by rw [hr]))) y hy
  exact key os ho _ (absorb q (by rcases h with h | h <;> simp [h]))

/-- A fresh oscillator set to an infinite frequency by mistake and then to a quarter of the sampling rate: the second output and the third are NaN. -/
example : play (⟨⟨1, 0⟩, ⟨nan, nan⟩⟩ : NCO (Ieee .single)) [.call, .tune 0 1, .call, .call] = [⟨1, 0⟩, ⟨nan, nan⟩, ⟨nan, nan⟩] := by
  have h := C133_stuck (⟨⟨1, 0⟩, ⟨nan, nan⟩⟩ : NCO (Ieee .single)) (.inl rfl) [.tune 0 1, .call, .call] (by simp)
  simp only [play, step, Option.toList_some, Option.toList_none, List.nil_append, List.singleton_append, List.mem_cons, forall_eq_or_imp] at h ⊢
  rw [h.1, h.2.1]
  rfl

/-- A step of 3/4 + 1/2 i in single precision: although its magnitude is not one, that of all outputs is, up to one part of a million. -/
example (k : ℕ) : |‖((⟨⟨1, 0⟩, ⟨num false (3 / 4), num false (1 / 2)⟩⟩ : NCO (Ieee .single)).outputIeee k).toComplex fun a => (a.val : ℝ)‖ - 1| ≤ 1 / 10 ^ 6 := by
  have : NeZero Format.single.p := ⟨by decide⟩
  have hn : ‖(⟨num false (3 / 4), num false (1 / 2)⟩ : Cplx (Ieee .single)).toComplex fun a => (a.val : ℝ)‖ ^ 2 = 13 / 16 := by
    have := sq_parts (⟨num false (3 / 4), num false (1 / 2)⟩ : Cplx (Ieee .single))
    rw [at'] at this
    rw [this]
    norm_num [Ieee.val, signed]
  have h0 := norm_nonneg ((⟨num false (3 / 4), num false (1 / 2)⟩ : Cplx (Ieee .single)).toComplex fun a => (a.val : ℝ))
  obtain ⟨-, -, h, -⟩ := C133_oscillator Elementary.AtanIeee.wide_single (⟨⟨1, 0⟩, ⟨num false (3 / 4), num false (1 / 2)⟩⟩ : NCO (Ieee .single)) rfl
    ⟨trivial, by norm_num, by norm_num [Format.single], 3, -2, by decide, by decide, by norm_num⟩ ⟨trivial, by norm_num, by norm_num [Format.single], 1, -1, by decide, by decide, by norm_num⟩
    (by nlinarith) (by nlinarith) k
  refine h.trans ?_
  have : Format.single.p = 24 := rfl
  rw [this]
  norm_num

end NCO
end DSP
