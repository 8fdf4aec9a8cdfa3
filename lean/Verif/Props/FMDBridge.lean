import Verif.Props.FMDSpecial
import Verif.Props.Bridge

/-!
# C131: the frequency demodulators are as accurate in IEEE arithmetic as without limits of the exponent
-/

namespace DSP

open Ieee Spec FFT Bridge

/-- A sample that is not zero, with parts that are multiples of `2^g` (as those of audio files are) and at most `2^h`. -/
structure Spec.Steps {F : Format} (g h : ℤ) (z : Cplx (Ieee F)) : Prop where
  below : Below h z
  re : ∃ n : ℤ, z.re.val = n * 2 ^ g
  im : ∃ n : ℤ, z.im.val = n * 2 ^ g
  nonzero : z.re.val ≠ 0 ∨ z.im.val ≠ 0

/-- An `atan2` that is accurate for finite arguments other than zero, except that it may take `-0` for a negative number. -/
def Spec.Atan2Close {F : Format} (atan2 : Ieee F → Ieee F → Ieee F) (ε : ℝ) : Prop :=
  ∀ y x : Ieee F, y.Finite → y.Valid → x.Finite → x.Valid → x.val ≠ 0 ∨ y.val ≠ 0 → ¬(y = num true 0 ∧ x.val < 0) → |((atan2 y x).val : ℝ) - Complex.arg ⟨x.val, y.val⟩| ≤ ε

namespace FMDRounded

variable {F : Format}

/-- The sample as a complex number. -/
noncomputable abbrev point (z : Cplx (Ieee F)) : ℂ := z.toComplex fun a => (a.val : ℝ)

section
variable [NeZero F.p]

/-- The same number without limits of the exponent. -/
def free (a : Ieee F) : Binary F.p := ⟨Binary.round F.p a.val, Binary.round_representable F.p (Nat.pos_of_ne_zero (NeZero.ne _)) _⟩

/-- The same for both parts. -/
def frees (z : Cplx (Ieee F)) : Cplx (Binary F.p) := ⟨free z.re, free z.im⟩

theorem free_val {a : Ieee F} (h : a.Valid) : (free a).val = a.val := Binary.round_of_representable _ _ (valid_fits h).1

theorem free_same {a : Ieee F} (h1 : a.Finite) (h2 : a.Valid) : Same a (free a) := ⟨h1, h2, (free_val h2).symm⟩

theorem frees_num {z : Cplx (Ieee F)} (h1 : z.re.Valid) (h2 : z.im.Valid) : num F.p (frees z) = point z := by
  apply Complex.ext
  · show (((free z.re).val : ℚ) : ℝ) = z.re.val
    rw [free_val h1]
  · show (((free z.im).val : ℚ) : ℝ) = z.im.val
    rw [free_val h2]

theorem point_ne {z : Cplx (Ieee F)} (h : z.re.val ≠ 0 ∨ z.im.val ≠ 0) : point z ≠ 0 := by
  intro e
  have e1 : ((z.re.val : ℚ) : ℝ) = 0 := congrArg Complex.re e
  have e2 : ((z.im.val : ℚ) : ℝ) = 0 := congrArg Complex.im e
  rcases h with h | h
  · exact h (by exact_mod_cast e1)
  · exact h (by exact_mod_cast e2)

/-! ### Multiples of a power of two -/

/-- Both arithmetics agree, on a multiple of `2^g`. -/
def Tied (g : ℤ) (a : Ieee F) (b : Binary F.p) : Prop := Agree a b ∧ ∃ n : ℤ, b.val = n * 2 ^ g

omit [NeZero F.p] in
theorem multiple_round (p : ℕ) (x : ℚ) (g : ℤ) (h : ∃ n : ℤ, x = n * 2 ^ g) : ∃ n : ℤ, Binary.round p x = n * 2 ^ g := by
  by_cases c : g ≤ Int.log 2 |x| + 1 - (p : ℤ)
  · rw [Binary.round_eq]
    exact Binary.multiple_down _ _ _ c ⟨_, rfl⟩
  · rw [Binary.round_of_multiple p x (Binary.multiple_down _ _ _ (by omega) h)]
    exact h

omit [NeZero F.p] in
theorem multiple_size {x : ℚ} {g : ℤ} (h : ∃ n : ℤ, x = n * 2 ^ g) : x = 0 ∨ 2 ^ g ≤ |x| := by
  obtain ⟨n, rfl⟩ := h
  by_cases c : n = 0
  · left; simp [c]
  · right
    rw [abs_mul, abs_of_pos (by positivity : (0 : ℚ) < 2 ^ g)]
    have : (1 : ℚ) ≤ |(n : ℚ)| := by exact_mod_cast Int.one_le_abs c
    exact le_mul_of_one_le_left (by positivity) this

omit [NeZero F.p] in
theorem clear_of {x : ℚ} {g : ℤ} (h : x = 0 ∨ 2 ^ g ≤ |x|) (hg : F.emin + F.p - 1 ≤ g) : Clear F x := by
  rcases h with h | h
  · exact .inl h
  · exact .inr ((zpow_le_zpow_right₀ (by norm_num) hg).trans h)

omit [NeZero F.p] in
/-- Rounding does not make a number smaller than a power of two that it is not below. -/
theorem round_size (p : ℕ) (hp : 2 ≤ p) {x : ℚ} {g : ℤ} (h : x = 0 ∨ 2 ^ g ≤ |x|) : Binary.round p x = 0 ∨ 2 ^ g ≤ |Binary.round p x| := by
  rcases h with rfl | h
  · left; exact Binary.round_zero p
  · right
    have hr : Binary.Representable p (2 ^ g) := ⟨1, g, by rw [abs_one]; exact one_lt_pow₀ (by norm_num) (by omega), by simp⟩
    have hr' : Binary.Representable p (-2 ^ g) := ⟨-1, g, by rw [abs_neg, abs_one]; exact one_lt_pow₀ (by norm_num) (by omega), by simp⟩
    rcases le_abs.mp h with h | h
    · exact (Binary.le_round p (by omega) x _ hr h).trans (le_abs_self _)
    · have := Binary.round_le p (by omega) x (-2 ^ g) hr' (by linarith)
      exact le_trans (by linarith) (neg_le_abs _)

theorem Tied.add {g : ℤ} {a b : Ieee F} {a' b' : Binary F.p} (h1 : Tied g a a') (h2 : Tied g b b') : Tied g (a + b) (a' + b') := by
  refine ⟨h1.1.add h2.1, multiple_round F.p _ g ?_⟩
  obtain ⟨m, hm⟩ := h1.2
  obtain ⟨n, hn⟩ := h2.2
  exact ⟨m + n, by rw [hm, hn]; push_cast; ring⟩

theorem Tied.sub {g : ℤ} {a b : Ieee F} {a' b' : Binary F.p} (h1 : Tied g a a') (h2 : Tied g b b') : Tied g (a - b) (a' - b') := by
  refine ⟨h1.1.sub h2.1, multiple_round F.p _ g ?_⟩
  obtain ⟨m, hm⟩ := h1.2
  obtain ⟨n, hn⟩ := h2.2
  exact ⟨m - n, by rw [hm, hn]; push_cast; ring⟩

omit [NeZero F.p] in
theorem Tied.neg {g : ℤ} {a : Ieee F} {a' : Binary F.p} (h : Tied g a a') : Tied g (-a) (-a') := by
  refine ⟨h.1.neg, ?_⟩
  obtain ⟨m, hm⟩ := h.2
  exact ⟨-m, by show -a'.val = _; rw [hm]; push_cast; ring⟩

theorem Tied.mul {g g' : ℤ} {a b : Ieee F} {a' b' : Binary F.p} (h1 : Tied g a a') (h2 : Tied g' b b') (hg : F.emin + F.p - 1 ≤ g + g') : Tied (g + g') (a * b) (a' * b') := by
  have e : ∃ n : ℤ, a'.val * b'.val = n * 2 ^ (g + g') := by
    obtain ⟨m, hm⟩ := h1.2
    obtain ⟨n, hn⟩ := h2.2
    exact ⟨m * n, by rw [hm, hn, zpow_add₀ (by norm_num)]; push_cast; ring⟩
  exact ⟨h1.1.mul h2.1 (clear_of (multiple_size e) hg), multiple_round F.p _ _ e⟩

/-- Agreement and a lower bound of the size. -/
def Sized (g : ℤ) (a : Ieee F) (b : Binary F.p) : Prop := Agree a b ∧ (b.val = 0 ∨ 2 ^ g ≤ |b.val|)

omit [NeZero F.p] in
theorem Tied.sized {g : ℤ} {a : Ieee F} {b : Binary F.p} (h : Tied g a b) : Sized g a b := ⟨h.1, multiple_size h.2⟩

theorem Sized.div {g H : ℤ} {a n : Ieee F} {a' n' : Binary F.p} (h : Sized g a a') (hn : Same n n') (n0 : 0 < n'.val) (nH : n'.val ≤ 2 ^ H) (hp : 2 ≤ F.p) (hg : F.emin + F.p - 1 ≤ g - H) : Sized (g - H) (a / n) (a' / n') := by
  have e : a'.val / n'.val = 0 ∨ 2 ^ (g - H) ≤ |a'.val / n'.val| := by
    rcases h.2 with c | c
    · left; rw [c, zero_div]
    · right
      rw [abs_div, abs_of_pos n0, zpow_sub₀ (by norm_num)]
      gcongr
  exact ⟨h.1.div hn n0.ne' (clear_of e hg), round_size F.p hp e⟩

theorem Sized.mul {g g' : ℤ} {a b : Ieee F} {a' b' : Binary F.p} (h1 : Sized g a a') (h2 : Sized g' b b') (hp : 2 ≤ F.p) (hg : F.emin + F.p - 1 ≤ g + g') : Sized (g + g') (a * b) (a' * b') := by
  have e : a'.val * b'.val = 0 ∨ 2 ^ (g + g') ≤ |a'.val * b'.val| := by
    rcases h1.2 with c | c
    · left; rw [c, zero_mul]
    · rcases h2.2 with d | d
      · left; rw [d, mul_zero]
      · right
        rw [abs_mul, zpow_add₀ (by norm_num)]
        exact mul_le_mul c d (by positivity) (abs_nonneg _)
  exact ⟨h1.1.mul h2.1 (clear_of e hg), round_size F.p hp e⟩

/-! ### Samples -/

theorem _root_.DSP.Spec.Steps.tied {g h : ℤ} {z : Cplx (Ieee F)} (hz : Steps g h z) : Tied g z.re (free z.re) ∧ Tied g z.im (free z.im) := by
  obtain ⟨⟨⟨f1, v1, -⟩, f2, v2, -⟩, r, i, -⟩ := hz
  exact ⟨⟨(free_same f1 v1).agree, by rw [free_val v1]; exact r⟩, (free_same f2 v2).agree, by rw [free_val v2]; exact i⟩

omit [NeZero F.p] in
theorem _root_.DSP.Spec.Steps.above {g h : ℤ} {z : Cplx (Ieee F)} (hz : Steps g h z) : Above (-g) z := by
  unfold Above
  rw [neg_neg]
  rcases hz.nonzero with c | c
  · exact .inl ((multiple_size hz.re).resolve_left c)
  · exact .inr ((multiple_size hz.im).resolve_left c)

theorem _root_.DSP.Spec.Steps.num {g h : ℤ} {z : Cplx (Ieee F)} (hz : Steps g h z) : num F.p (frees z) = point z := frees_num hz.below.1.2.1 hz.below.2.2.1

/-- The norm is the same number, between zero and `2^(2 h + 1)`. -/
theorem _root_.DSP.Spec.Steps.norm (hp : 10 ≤ F.p) {g h : ℤ} {z : Cplx (Ieee F)} (hz : Steps g h z) (h1 : F.emin ≤ 2 * h) (h2 : 2 * h + 2 ≤ F.emax) (hg : F.emin + F.p - 1 ≤ 2 * g) :
    Same z.norm (frees z).norm ∧ 0 < (frees z).norm.val ∧ (frees z).norm.val ≤ 2 ^ (2 * h + 1) := by
  have hp0 : 0 < F.p := by omega
  obtain ⟨t1, t2⟩ := hz.tied
  have t3 := (t1.mul t1 (by omega)).add (t2.mul t2 (by omega))
  have hw := (two_within hp0 hz.below.1 hz.below.1 hz.below.2 hz.below.2 h1 h2).1
  have S : Same z.norm (frees z).norm := t3.1 hw.1
  refine ⟨S, ?_, ?_⟩
  · have := norm_pos_of F.p hp (frees z) (by rw [hz.num]; exact point_ne hz.nonzero)
    exact_mod_cast this
  · rw [← S.2.2]
    exact (le_abs_self _).trans hw.2.2

omit [NeZero F.p] in
theorem one_steps (U : Silence.Usual F) {g h : ℤ} (hg : g ≤ 0) (hh : 0 ≤ h) : Steps (F := F) g h ⟨1, 0⟩ := by
  obtain ⟨⟨a, b⟩, c⟩ := good_one U
  obtain ⟨⟨d, e⟩, i⟩ := zero_good (F := F)
  have c' : (1 : Ieee F).val = 1 := by exact_mod_cast c
  have p1 : (1 : ℚ) ≤ 2 ^ h := one_le_zpow₀ (by norm_num) hh
  refine ⟨⟨⟨a, b, ?_⟩, d, e, ?_⟩, ⟨2 ^ (-g).toNat, ?_⟩, ⟨0, ?_⟩, .inl ?_⟩
  · show |(1 : Ieee F).val| ≤ _
    rw [c', abs_one]; exact p1
  · show |(0 : Ieee F).val| ≤ _
    rw [i, abs_zero]; positivity
  · show (1 : Ieee F).val = _
    rw [c']
    push_cast
    rw [← zpow_natCast, ← zpow_add₀ (by norm_num), show (((-g).toNat : ℕ) : ℤ) + g = 0 by omega, zpow_zero]
  · show (0 : Ieee F).val = _
    rw [i]; simp
  · show (1 : Ieee F).val ≠ 0
    rw [c']; norm_num

omit [NeZero F.p] in
theorem before_steps (U : Silence.Usual F) {g h : ℤ} (hg : g ≤ 0) (hh : 0 ≤ h) {x : ℕ → Cplx (Ieee F)} (hx : ∀ n, Steps g h (x n)) (n : ℕ) : Steps g h (before x n) := by
  cases n with
  | zero => exact one_steps U hg hh
  | succ n => exact hx n

/-- The scale as a number that is not small. -/
theorem scale_sized (hp : 10 ≤ F.p) {K : ℕ} {bw s : Ieee F} (hb : Bandwidth K bw) (c : ℝ) (h0 : 0 < c) (hc : c ≤ 7) (gs : GoodIeee s) (es : |(s.val : ℝ) - 1 / (c * bw.val)| ≤ 4.2 * (1 / 2 ^ F.p) * |1 / (c * bw.val)|) :
    Sized (-(K : ℤ) - 3) s (free s) := by
  refine ⟨(free_same gs.1 gs.2).agree, .inr ?_⟩
  rw [free_val gs.2]
  obtain ⟨b1, b2⟩ := bw_real hb
  have hu := unit_small hp
  have b0 : (0 : ℝ) < |(bw.val : ℝ)| := lt_of_lt_of_le (by positivity) b1
  have h1 : |1 / (c * (bw.val : ℝ))| = 1 / (c * |(bw.val : ℝ)|) := by rw [abs_div, abs_one, abs_mul, abs_of_pos h0]
  have h2 : 1 / (7 * (2 : ℝ) ^ (K : ℤ)) ≤ 1 / (c * |(bw.val : ℝ)|) := by gcongr
  rw [h1] at es
  have h3 : |1 / (c * (bw.val : ℝ))| - |(s.val : ℝ)| ≤ |(s.val : ℝ) - 1 / (c * bw.val)| := by
    rw [abs_sub_comm]; exact abs_sub_abs_le_abs_sub _ _
  rw [h1] at h3
  have h4 : (2 : ℝ) ^ (-(K : ℤ) - 3) = 1 / (8 * 2 ^ (K : ℤ)) := by
    rw [zpow_sub₀ (by norm_num), zpow_neg]; norm_num; ring
  have h5 : 4.2 * (1 / 2 ^ F.p) * (1 / (c * |(bw.val : ℝ)|)) ≤ 0.01 * (1 / (c * |(bw.val : ℝ)|)) := by gcongr; linarith
  have h6 : 1 / (7 * (2 : ℝ) ^ (K : ℤ)) = 8 / 7 * (1 / (8 * 2 ^ (K : ℤ))) := by field_simp
  have h7 : (0 : ℝ) < 1 / (8 * 2 ^ (K : ℤ)) := by positivity
  have : (2 : ℝ) ^ (-(K : ℤ) - 3) ≤ |(s.val : ℝ)| := by rw [h4]; linarith
  have : (((2 : ℚ) ^ (-(K : ℤ) - 3) : ℚ) : ℝ) ≤ ((|s.val| : ℚ) : ℝ) := by push_cast; exact this
  exact Rat.cast_le.mp this

/-- **C131** `FMD4` in IEEE arithmetic: for samples that are multiples of `2^g` and at most `2^h`, and not zero, every output is finite and as accurate as without limits of the exponent. -/
theorem C131_fmd4 (U : Silence.Usual F) (l : ℕ) (hp : 10 ≤ F.p) (hp' : F.p ≤ 53) (hl : F.p ≤ l) (K : ℕ) (bw : Ieee F) (hb : Bandwidth K bw) (g h : ℤ) (hg : g ≤ 0) (hh : 0 ≤ h)
    (h1 : 2 * h + K + 6 - 2 * g ≤ -(F.emin + F.p - 1)) (h2 : 2 * h + 3 ≤ F.emax) (h3 : h - g + K + 5 ≤ F.emax) (x : ℕ → Cplx (Ieee F)) (hx : ∀ n, Steps g h (x n)) (n : ℕ) :
    let y := stream (call4Ieee (scaleIeee (piIeee l F) bw)) ⟨1, 0⟩ x n
    y.Finite ∧ |(y.val : ℝ) - FM.sine (point (before x n)) (point (x n)) / bw.val| ≤ 15 / 2 ^ F.p * (‖point (before x n)‖ / ‖point (x n)‖) / (Real.pi * |(bw.val : ℝ)|) := by
  intro y
  have ha := before_steps U hg hh hx n
  have hz := hx n
  have fy : y.Finite := (C115_fmd4 U l hp hp' hl K bw hb x n).2.2 h (-g) (by omega) h2 (by omega) (by omega) hz.below hz.above ha.below
  refine ⟨fy, ?_⟩
  set a := before x n with hae
  obtain ⟨gs, es, -⟩ := scale_pi_good U l hp hp' hl K bw hb
  set s := scaleIeee (piIeee l F) bw
  have hy : y = s * ((a.re * (x n).im - a.im * (x n).re) / (x n).norm) := by
    show (call4Ieee _ _ _).2 = _
    rw [states_prev _ (fun _ _ => rfl), ← hae]
    rfl
  obtain ⟨N1, N2, N3⟩ := hz.norm hp (by omega) (by omega) (by omega)
  have cross := (ha.tied.1.mul hz.tied.2 (by omega)).sub (ha.tied.2.mul hz.tied.1 (by omega))
  have q := cross.sized.div N1 N2 N3 (by omega) (by omega)
  have r := (scale_sized hp hb Real.pi Real.pi_pos (by linarith [Real.pi_lt_d2]) gs es).mul q (by omega) (by omega)
  have S : Same y (free s * ((free a.re * free (x n).im - free a.im * free (x n).re) / (frees (x n)).norm)) := by
    rw [hy] at fy ⊢
    exact r.1 fy
  have hb' : (free bw).val = bw.val := free_val hb.valid
  obtain ⟨y', e, E⟩ := call4_ok F.p hp (free bw) (free s) (by rw [hb', free_val gs.2]; exact es) (frees a) (frees (x n)) (by rw [ha.num]; exact point_ne ha.nonzero) (by rw [hz.num]; exact point_ne hz.nonzero)
  have e' : call4 (free s) (frees a) (frees (x n)) = .ok (frees (x n), free s * ((free a.re * free (x n).im - free a.im * free (x n).re) / (frees (x n)).norm)) := by
    unfold call4
    simp only []
    rw [Fir.fdiv_ok' F.p _ _ (by exact_mod_cast N2.ne')]
    rfl
  rw [e'] at e
  have ey := congrArg Prod.snd (Except.ok.inj e)
  simp only at ey
  rw [ha.num, hz.num, hb', ← ey, ← S.2.2] at E
  exact E

/-- **C131** `FMD5` in IEEE arithmetic. -/
theorem C131_fmd5 (U : Silence.Usual F) (l : ℕ) (hp : 10 ≤ F.p) (hp' : F.p ≤ 53) (hl : F.p ≤ l) (K : ℕ) (bw : Ieee F) (hb : Bandwidth K bw) (g h : ℤ) (hg : g ≤ 0) (hh : 0 ≤ h)
    (h1 : 2 * h + K + 6 - 2 * g ≤ -(F.emin + F.p - 1)) (h2 : 2 * h + 4 ≤ F.emax) (h3 : h - g + K + 6 ≤ F.emax) (x : ℕ → Cplx (Ieee F)) (hx : ∀ n, Steps g h (x n)) (n : ℕ) :
    let y := stream (call5Ieee (scaleIeee (twoPiIeee l F) bw)) (⟨1, 0⟩, ⟨1, 0⟩) x n
    let c := point (x n)
    let b := point (before x n)
    let a := point (before (before x) n)
    y.Finite ∧ |(y.val : ℝ) - (‖c‖ / ‖b‖ * Real.sin (Complex.arg (c / b)) + ‖a‖ / ‖b‖ * Real.sin (Complex.arg (b / a))) / 2 / Real.pi / bw.val| ≤ 7.5 / 2 ^ F.p * (‖c - a‖ / ‖b‖) / (Real.pi * |(bw.val : ℝ)|) := by
  intro y
  have ha := before_steps U hg hh hx n
  have hd := before_steps U hg hh (fun n => before_steps U hg hh hx n) n
  have hz := hx n
  have fy : y.Finite := (C115_fmd5 U l hp hp' hl K bw hb x n).2.2 h (-g) (by omega) h2 hh (by omega) (by omega) hz.below ha.below ha.above hd.below
  refine ⟨fy, ?_⟩
  set a := before x n with hae
  set d := before (before x) n with hde
  obtain ⟨gP, eP, P1, P2⟩ := twoPi_good U l hp hp' hl
  obtain ⟨gs, es⟩ := scale_good U hp K bw (twoPiIeee l F) hb (2 * Real.pi) (by have := Real.pi_pos; linarith) gP (by linarith) (by linarith) eP
  set s := scaleIeee (twoPiIeee l F) bw
  have hy : y = s * ((a.re * ((x n).im - d.im) - a.im * ((x n).re - d.re)) / a.norm) := by
    show (call5Ieee _ _ _).2 = _
    rw [states_prev5, ← hae, ← hde]
    rfl
  obtain ⟨N1, N2, N3⟩ := ha.norm hp (by omega) (by omega) (by omega)
  have cross := (ha.tied.1.mul (hz.tied.2.sub hd.tied.2) (by omega)).sub (ha.tied.2.mul (hz.tied.1.sub hd.tied.1) (by omega))
  have q := cross.sized.div N1 N2 N3 (by omega) (by omega)
  have r := (scale_sized hp hb (2 * Real.pi) (by linarith [Real.pi_pos]) (by linarith [Real.pi_lt_d2]) gs es).mul q (by omega) (by omega)
  have S : Same y (free s * ((free a.re * (free (x n).im - free d.im) - free a.im * (free (x n).re - free d.re)) / (frees a).norm)) := by
    rw [hy] at fy ⊢
    exact r.1 fy
  have hb' : (free bw).val = bw.val := free_val hb.valid
  obtain ⟨y', e, E⟩ := call5_ok F.p hp (free bw) (free s) (by rw [hb', free_val gs.2]; exact es) (frees a) (frees d) (frees (x n)) (by rw [ha.num]; exact point_ne ha.nonzero) (by rw [hd.num]; exact point_ne hd.nonzero)
  have e' : call5 (free s) (frees a, frees d) (frees (x n)) = .ok ((frees (x n), frees a), free s * ((free a.re * (free (x n).im - free d.im) - free a.im * (free (x n).re - free d.re)) / (frees a).norm)) := by
    unfold call5
    simp only []
    rw [Fir.fdiv_ok' F.p _ _ (by exact_mod_cast N2.ne')]
    rfl
  rw [e'] at e
  have ey := congrArg Prod.snd (Except.ok.inj e)
  simp only at ey
  rw [ha.num, hz.num, hd.num, hb', ← ey, ← S.2.2] at E
  exact E

/-! ### With angles -/

/-- An arc tangent without limits of the exponent that has the given value. -/
theorem table (atan2 : Ieee F → Ieee F → Ieee F) (ε : ℝ) (hε : 4 / 2 ^ F.p ≤ ε) (y x : Ieee F) (vy : y.Valid) (vx : x.Valid) (hv : (atan2 y x).Valid) (h : |((atan2 y x).val : ℝ) - Complex.arg ⟨x.val, y.val⟩| ≤ ε) :
    ∃ f : Binary F.p → Binary F.p → Binary F.p, Atan2Near F.p f ε ∧ f (free y) (free x) = free (atan2 y x) := by
  classical
  have hp : 0 < F.p := Nat.pos_of_ne_zero (NeZero.ne _)
  refine ⟨fun b a => if b = free y ∧ a = free x then free (atan2 y x) else ⟨Binary.roundReal F.p (Complex.arg ⟨a.val, b.val⟩), Binary.roundReal_representable F.p hp _⟩, fun b a _ => ?_, by simp⟩
  simp only []
  split_ifs with c
  · rw [c.1, c.2, free_val vy, free_val vx, free_val hv]
    exact h
  · refine (Binary.roundReal_error F.p _).trans (le_trans ?_ hε)
    have h1 := Complex.abs_arg_le_pi ⟨(a.val : ℝ), (b.val : ℝ)⟩
    have := Real.pi_lt_four
    gcongr
    linarith

omit [NeZero F.p] in
/-- What underflow can do to the last product. -/
theorem product_close [NeZero F.p] {s t : Ieee F} (gs : GoodIeee s) (gt : GoodIeee t) (hf : (s * t).Finite) : |((s * t).val : ℝ) - ((free s * free t).val : ℝ)| ≤ 2 ^ F.emin := by
  have hp : 0 < F.p := Nat.pos_of_ne_zero (NeZero.ne _)
  have e1 : (s * t).val = roundTo F (s.val * t.val) := mul_val hp s t gs.1 gt.1 gs.2 gt.2 hf
  have e2 : (free s * free t).val = Binary.round F.p (s.val * t.val) := by
    show Binary.round F.p ((free s).val * (free t).val) = _
    rw [free_val gs.2, free_val gt.2]
  rw [e1, e2]
  set v := s.val * t.val
  have key : |roundTo F v - Binary.round F.p v| ≤ 2 ^ F.emin := by
    by_cases c : (2 : ℚ) ^ (F.emin + F.p - 1) ≤ |v|
    · rw [roundTo_normal v c, sub_self, abs_zero]; positivity
    · push Not at c
      have d : |v| / 2 ^ F.p ≤ 2 ^ F.emin / 2 := by
        rw [div_le_iff₀ (by positivity)]
        refine c.le.trans (le_of_eq ?_)
        rw [zpow_sub₀ (by norm_num), zpow_add₀ (by norm_num), zpow_natCast, zpow_one]
        ring
      have h1 := (roundTo_error (F := F) v).trans (max_le d le_rfl)
      have h2 := (Binary.round_error F.p v).trans d
      calc |roundTo F v - Binary.round F.p v| = |(roundTo F v - v) - (Binary.round F.p v - v)| := by ring_nf
        _ ≤ _ := abs_sub _ _
        _ ≤ 2 ^ F.emin := by linarith
  have := (Rat.cast_le (K := ℝ)).mpr key
  push_cast at this
  exact this

omit [NeZero F.p] in
theorem Within.near {K : ℕ} {bw : Ieee F} (hb : Bandwidth K bw) {E E' δ : ℝ} {a x : ℂ} {y y' : ℝ} (h : Within bw.val E δ a x y') (hy : |y - y'| ≤ 2 ^ F.emin) (hE : E + 1 / 2 ^ F.p ≤ E') : Within bw.val E' δ a x y := by
  obtain ⟨θ, h1, h2, h3⟩ := h
  refine ⟨θ, h1, ?_, h3⟩
  obtain ⟨b1, b2⟩ := bw_real hb
  have b0 : (0 : ℝ) < |(bw.val : ℝ)| := lt_of_lt_of_le (by positivity) b1
  have hpi := Real.pi_pos
  have hpi' := Real.pi_lt_four
  have k : (2 : ℝ) ^ F.emin ≤ 1 / 2 ^ F.p / (Real.pi * |(bw.val : ℝ)|) := by
    rw [le_div_iff₀ (by positivity), le_div_iff₀ (by positivity)]
    have := hb.bottom
    calc (2 : ℝ) ^ F.emin * (Real.pi * |(bw.val : ℝ)|) * 2 ^ F.p ≤ 2 ^ F.emin * (2 ^ (2 : ℤ) * 2 ^ (K : ℤ)) * 2 ^ (F.p : ℤ) := by
          rw [zpow_natCast 2 F.p]
          gcongr
          norm_num
          linarith
      _ = 2 ^ (F.emin + (2 + K) + F.p) := by rw [zpow_add₀ (by norm_num), zpow_add₀ (by norm_num), zpow_add₀ (by norm_num)]
      _ ≤ 2 ^ (0 : ℤ) := zpow_le_zpow_right₀ (by norm_num) (by omega)
      _ = 1 := zpow_zero _
  calc |y - θ / Real.pi / bw.val| = |(y - y') + (y' - θ / Real.pi / bw.val)| := by ring_nf
    _ ≤ _ := abs_add_le _ _
    _ ≤ 1 / 2 ^ F.p / (Real.pi * |(bw.val : ℝ)|) + E / (Real.pi * |(bw.val : ℝ)|) := add_le_add (hy.trans k) h2
    _ = (E + 1 / 2 ^ F.p) / (Real.pi * |(bw.val : ℝ)|) := by ring
    _ ≤ _ := by gcongr

omit [NeZero F.p] in
theorem round_ne (p : ℕ) (hp : 2 ≤ p) {x : ℚ} (h : x ≠ 0) : Binary.round p x ≠ 0 := by
  rcases round_size p hp (.inr (Binary.pow_le_of_log x h)) with c | c
  · exfalso
    have hl := Binary.pow_le_of_log x h
    have hr : Binary.Representable p (2 ^ Int.log 2 |x|) := ⟨1, Int.log 2 |x|, by rw [abs_one]; exact one_lt_pow₀ (by norm_num) (by omega), by simp⟩
    have hr' : Binary.Representable p (-2 ^ Int.log 2 |x|) := ⟨-1, Int.log 2 |x|, by rw [abs_neg, abs_one]; exact one_lt_pow₀ (by norm_num) (by omega), by simp⟩
    have hpos : (0 : ℚ) < 2 ^ Int.log 2 |x| := by positivity
    rcases le_abs.mp hl with h' | h'
    · have := Binary.le_round p (by omega) x _ hr h'
      linarith
    · have := Binary.round_le p (by omega) x (-2 ^ Int.log 2 |x|) hr' (by linarith)
      linarith
  · intro e
    rw [e, abs_zero] at c
    exact absurd c (not_le.mpr (by positivity))

/-- The product with the conjugate is the same number, and not zero. -/
theorem conj_same (hp : 10 ≤ F.p) {g h : ℤ} {a x : Cplx (Ieee F)} (ha : Steps g h a) (hx : Steps g h x) (h1 : F.emin ≤ 2 * h) (h2 : 2 * h + 2 ≤ F.emax) (hg : F.emin + F.p - 1 ≤ 2 * g) :
    Same (x * a.conj).re (frees x * (frees a).conj).re ∧ Same (x * a.conj).im (frees x * (frees a).conj).im ∧ ((frees x * (frees a).conj).re.val ≠ 0 ∨ (frees x * (frees a).conj).im.val ≠ 0) := by
  have hp0 : 0 < F.p := by omega
  have neg : Range.Within (2 ^ h) (-a.im) := ⟨neg_finite _ ha.below.2.1, neg_valid _ ha.below.2.2.1, by rw [neg_val, abs_neg]; exact ha.below.2.2.2⟩
  have w1 := (two_within hp0 hx.below.1 ha.below.1 hx.below.2 neg h1 h2).2
  have w2 := (two_within hp0 hx.below.1 neg hx.below.2 ha.below.1 h1 h2).1
  have t1 := (hx.tied.1.mul ha.tied.1 (by omega)).sub (hx.tied.2.mul ha.tied.2.neg (by omega))
  have t2 := (hx.tied.1.mul ha.tied.2.neg (by omega)).add (hx.tied.2.mul ha.tied.1 (by omega))
  refine ⟨t1.1 w1.1, t2.1 w2.1, ?_⟩
  by_contra c
  push Not at c
  have e : num F.p (frees x * (frees a).conj) = 0 := by
    apply Complex.ext
    · show (((frees x * (frees a).conj).re.val : ℚ) : ℝ) = 0
      rw [c.1]; norm_num
    · show (((frees x * (frees a).conj).im.val : ℚ) : ℝ) = 0
      rw [c.2]; norm_num
  have k := conj_mul F.p (frees x) (frees a) hp
  have n1 : num F.p (frees x) ≠ 0 := by rw [hx.num]; exact point_ne hx.nonzero
  have n2 : num F.p (frees a) ≠ 0 := by rw [ha.num]; exact point_ne ha.nonzero
  rw [e, zero_sub, norm_neg] at k
  have pos : 0 < ‖num F.p (frees x) * (starRingEnd ℂ) (num F.p (frees a))‖ := norm_pos_iff.mpr (mul_ne_zero n1 (by rwa [map_ne_zero]))
  have hu := unit_small hp
  nlinarith

/-- The scaled angle of a number. -/
theorem angle_within (U : Silence.Usual F) (l : ℕ) (hp : 10 ≤ F.p) (hp' : F.p ≤ 53) (hl : F.p ≤ l) (atan2 : Ieee F → Ieee F → Ieee F) (hA : ArcTangent (piIeee l F).val atan2) (ε : ℝ) (hε : 4 / 2 ^ F.p ≤ ε)
    (hc : Atan2Close atan2 ε) (K : ℕ) (bw : Ieee F) (hb : Bandwidth K bw) (w : Cplx (Ieee F)) (w' : Cplx (Binary F.p)) (s1 : Same w.re w'.re) (s2 : Same w.im w'.im) (hw : w'.re.val ≠ 0 ∨ w'.im.val ≠ 0)
    (hn : ¬(w.im = Ieee.num true 0 ∧ w.re.val < 0)) (a x : ℂ)
    (H : ∀ f s : _, Atan2Near F.p f ε → |(s.val : ℝ) - 1 / (Real.pi * (free bw).val)| ≤ 4.2 * (1 / 2 ^ F.p) * |1 / (Real.pi * (free bw).val)| → Within (free bw).val (1.01 * ε + 22 / 2 ^ F.p) (5 / 2 ^ F.p) a x ((s * w'.arg f).val : ℝ)) :
    (scaleIeee (piIeee l F) bw * w.arg atan2).Finite ∧ Within bw.val (1.01 * ε + 23 / 2 ^ F.p) (5 / 2 ^ F.p) a x ((scaleIeee (piIeee l F) bw * w.arg atan2).val : ℝ) := by
  obtain ⟨gs, es, -⟩ := scale_pi_good U l hp hp' hl K bw hb
  have nn : ¬HasNan w := by
    rintro (e | e)
    · have := s1.1; rw [e] at this; exact this
    · have := s2.1; rw [e] at this; exact this
  have fin := ((angle_out U l hp hp' hl atan2 hA K bw hb w).2 nn).1
  refine ⟨fin, ?_⟩
  obtain ⟨ga, -⟩ := arg_good hA w nn
  have e1 : free w.re = w'.re := Binary.eq_of_val (by rw [free_val s1.2.1, s1.2.2])
  have e2 : free w.im = w'.im := Binary.eq_of_val (by rw [free_val s2.2.1, s2.2.2])
  have near : |((atan2 w.im w.re).val : ℝ) - Complex.arg ⟨w.re.val, w.im.val⟩| ≤ ε :=
    hc w.im w.re s2.1 s2.2.1 s1.1 s1.2.1 (by rw [s1.2.2, s2.2.2]; exact hw) hn
  obtain ⟨f, hf, ef⟩ := table atan2 ε hε w.im w.re s2.2.1 s1.2.1 ga.2 near
  have hb' : (free bw).val = bw.val := free_val hb.valid
  have k := H f (free (scaleIeee (piIeee l F) bw)) hf (by rw [hb', free_val gs.2]; exact es)
  rw [hb'] at k
  refine k.near hb ?_ (by rw [add_assoc, ← add_div]; norm_num)
  have ea : w'.arg f = free (w.arg atan2) := by
    show f w'.im w'.re = _
    rw [← e1, ← e2, ef]
    rfl
  rw [ea]
  exact product_close gs ga fin

/-- **C131** `FMD3` in IEEE arithmetic, with an `atan2` whose errors are at most `ε`: the increment of the phase, up to `1.01 ε` and 23 units of rounding. -/
theorem C131_fmd3 (U : Silence.Usual F) (l : ℕ) (hp : 10 ≤ F.p) (hp' : F.p ≤ 53) (hl : F.p ≤ l) (atan2 : Ieee F → Ieee F → Ieee F) (hA : ArcTangent (piIeee l F).val atan2) (ε : ℝ) (hε : 4 / 2 ^ F.p ≤ ε)
    (hc : Atan2Close atan2 ε) (K : ℕ) (bw : Ieee F) (hb : Bandwidth K bw) (g h : ℤ) (hg : g ≤ 0) (hh : 0 ≤ h)
    (h1 : F.emin + F.p - 1 ≤ 2 * g) (h2 : 2 * h + 2 ≤ F.emax) (x : ℕ → Cplx (Ieee F)) (hx : ∀ n, Steps g h (x n)) (n : ℕ)
    (hn : ¬((x n * (before x n).conj).im = Ieee.num true 0 ∧ (x n * (before x n).conj).re.val < 0)) :
    let y := stream (call3Ieee atan2 (scaleIeee (piIeee l F) bw)) ⟨1, 0⟩ x n
    y.Finite ∧ Within bw.val (1.01 * ε + 23 / 2 ^ F.p) (5 / 2 ^ F.p) (point (before x n)) (point (x n)) (y.val : ℝ) := by
  intro y
  have ha := before_steps U hg hh hx n
  have hz := hx n
  have u1 := U.emin
  obtain ⟨c1, c2, c3⟩ := conj_same hp ha hz (by omega) h2 h1
  set a := before x n with hae
  have hy : y = scaleIeee (piIeee l F) bw * ((x n) * a.conj).arg atan2 := by
    show (call3Ieee _ _ _ _).2 = _
    rw [states_prev _ (fun _ _ => rfl), ← hae]
    rfl
  rw [hy]
  refine angle_within U l hp hp' hl atan2 hA ε hε hc K bw hb _ _ c1 c2 c3 hn _ _ fun f s hf hs => ?_
  have hb0 : (((free bw).val : ℚ) : ℝ) ≠ 0 := by
    rw [free_val hb.valid]
    obtain ⟨b1, -⟩ := bw_real hb
    exact abs_pos.mp (lt_of_lt_of_le (by positivity) b1)
  obtain ⟨y', e, E⟩ := call3_ok F.p hp f ε hf (free bw) s hb0 hs (frees a) (frees (x n)) (by rw [ha.num]; exact point_ne ha.nonzero) (by rw [hz.num]; exact point_ne hz.nonzero)
  have ey := congrArg Prod.snd (Except.ok.inj e)
  simp only at ey
  rw [ha.num, hz.num, ← ey] at E
  exact E

omit [NeZero F.p] in
theorem quotient_finite (hp : 0 < F.p) {a n : Ieee F} {A N : ℤ} (fa : a.Finite) (fn : n.Finite) (hA : |a.val| ≤ 2 ^ A) (hN : 2 ^ N ≤ n.val) (h1 : F.emin ≤ A - N) (h2 : A - N < F.emax) : (a / n).Finite := by
  have n0 : (0 : ℚ) < n.val := lt_of_lt_of_le (by positivity) hN
  rw [div_finite a n fa fn n0.ne', roundTo_abs hp]
  refine lt_of_le_of_lt (roundTo_le hp _ (2 ^ (A - N)) (Range.fits_pow hp _ h1) ?_) (zpow_lt_zpow_right₀ (by norm_num) h2)
  rw [abs_div, abs_of_pos n0, zpow_sub₀ (by norm_num)]
  gcongr

/-- **C131** `FMD2` in IEEE arithmetic. -/
theorem C131_fmd2 (U : Silence.Usual F) (l : ℕ) (hp : 10 ≤ F.p) (hp' : F.p ≤ 53) (hl : F.p ≤ l) (atan2 : Ieee F → Ieee F → Ieee F) (hA : ArcTangent (piIeee l F).val atan2) (ε : ℝ) (hε : 4 / 2 ^ F.p ≤ ε)
    (hc : Atan2Close atan2 ε) (K : ℕ) (bw : Ieee F) (hb : Bandwidth K bw) (g h : ℤ) (hg : g ≤ 0) (hh : 0 ≤ h)
    (h1 : 2 * h + 1 - 2 * g ≤ -(F.emin + F.p - 1)) (h2 : 2 * h + 2 - 2 * g ≤ F.emax) (x : ℕ → Cplx (Ieee F)) (hx : ∀ n, Steps g h (x n)) (n : ℕ)
    (hn : ¬(((x n).div (before x n)).im = Ieee.num true 0 ∧ ((x n).div (before x n)).re.val < 0)) :
    let y := stream (call2Ieee atan2 (scaleIeee (piIeee l F) bw)) ⟨1, 0⟩ x n
    y.Finite ∧ Within bw.val (1.01 * ε + 23 / 2 ^ F.p) (5 / 2 ^ F.p) (point (before x n)) (point (x n)) (y.val : ℝ) := by
  intro y
  have hp0 : 0 < F.p := by omega
  have ha := before_steps U hg hh hx n
  have hz := hx n
  have u1 := U.emin
  set a := before x n with hae
  obtain ⟨N1, N2, N3⟩ := ha.norm hp (by omega) (by omega) (by omega)
  have hy : y = scaleIeee (piIeee l F) bw * ((x n).div a).arg atan2 := by
    show (call2Ieee _ _ _ _).2 = _
    rw [states_prev _ (fun _ _ => rfl), ← hae]
    rfl
  have w1 := (two_within hp0 hz.below.1 ha.below.1 hz.below.2 ha.below.2 (by omega) (by omega)).1
  have w2 := (two_within hp0 hz.below.2 ha.below.1 hz.below.1 ha.below.2 (by omega) (by omega)).2
  have t1 := (hz.tied.1.mul ha.tied.1 (by omega)).add (hz.tied.2.mul ha.tied.2 (by omega))
  have t2 := (hz.tied.2.mul ha.tied.1 (by omega)).sub (hz.tied.1.mul ha.tied.2 (by omega))
  have q1 := t1.sized.div N1 N2 N3 (by omega) (by omega)
  have q2 := t2.sized.div N1 N2 N3 (by omega) (by omega)
  have nlow : (2 : ℚ) ^ (2 * g) ≤ a.norm.val := by
    have tn := (ha.tied.1.mul ha.tied.1 (by omega)).add (ha.tied.2.mul ha.tied.2 (by omega))
    rw [N1.2.2]
    have := (multiple_size tn.2).resolve_left N2.ne'
    rw [show g + g = 2 * g by ring] at this
    refine this.trans (le_of_eq (abs_of_pos N2))
  have f1 := quotient_finite hp0 w1.1 N1.1 w1.2.2 nlow (by omega) (by omega)
  have f2 := quotient_finite hp0 w2.1 N1.1 w2.2.2 nlow (by omega) (by omega)
  have S1 := q1.1 f1
  have S2 := q2.1 f2
  have hn0 : ((frees a).norm.val : ℝ) ≠ 0 := by exact_mod_cast N2.ne'
  have ec : cdiv (frees (x n)) (frees a) = .ok ⟨(free (x n).re * free a.re + free (x n).im * free a.im) / (frees a).norm, (free (x n).im * free a.re - free (x n).re * free a.im) / (frees a).norm⟩ := by
    unfold cdiv
    show (do
      let re ← Fir.Rounded.fdiv _ (frees a).norm
      let im ← Fir.Rounded.fdiv _ (frees a).norm
      return (⟨re, im⟩ : Cplx (Binary F.p))) = _
    rw [Fir.fdiv_ok' F.p _ _ hn0, Fir.fdiv_ok' F.p _ _ hn0]
    rfl
  have ed := cdiv_eq F.p (frees (x n)) (frees a) hn0
  rw [ec] at ed
  have ed' := Except.ok.inj ed
  obtain ⟨-, -, c3⟩ := conj_same hp ha hz (by omega) (by omega) (by omega)
  rw [hy]
  refine angle_within U l hp hp' hl atan2 hA ε hε hc K bw hb _ ⟨_, _⟩ S1 S2 ?_ hn _ _ fun f s hf hs => ?_
  · rw [congrArg (fun z : Cplx (Binary F.p) => z.re) ed', congrArg (fun z : Cplx (Binary F.p) => z.im) ed']
    rcases c3 with c | c
    · exact .inl (round_ne F.p (by omega) (div_ne_zero c N2.ne'))
    · exact .inr (round_ne F.p (by omega) (div_ne_zero c N2.ne'))
  · have hb0 : (((free bw).val : ℚ) : ℝ) ≠ 0 := by
      rw [free_val hb.valid]
      obtain ⟨b1, -⟩ := bw_real hb
      exact abs_pos.mp (lt_of_lt_of_le (by positivity) b1)
    obtain ⟨y', e, E⟩ := call2_ok F.p hp f ε hf (free bw) s hb0 hs (frees a) (frees (x n)) (by rw [ha.num]; exact point_ne ha.nonzero) (by rw [hz.num]; exact point_ne hz.nonzero)
    unfold call2 at e
    rw [ec] at e
    have ey := congrArg Prod.snd (Except.ok.inj e)
    simp only at ey
    rw [ha.num, hz.num, ← ey] at E
    exact E

theorem const_same (U : Silence.Usual F) (l : ℕ) (hp : 10 ≤ F.p) (hp' : F.p ≤ 53) (hl : F.p ≤ l) : Same (piIeee l F) (constPi l F.p) ∧ Same (twoPiIeee l F) (constTwoPi l F.p) := by
  have hu := unit_small hp
  have h1 := Real.pi_gt_d2
  have h2 := Real.pi_lt_d4
  have u0 : (0 : ℝ) ≤ 1 / 2 ^ F.p := by positivity
  have h3 : 2.01 / 2 ^ F.p * Real.pi ≤ 0.0065 := by
    rw [show (2.01 : ℝ) / 2 ^ F.p = 2.01 * (1 / 2 ^ F.p) by ring]
    nlinarith
  obtain ⟨a, b⟩ := abs_le.mp ((pi_error l F.p hp' hl).trans h3)
  obtain ⟨a', b'⟩ := abs_le.mp (twoPi_error l F.p hp' hl)
  have h4 : 2.01 / 2 ^ F.p * (2 * Real.pi) ≤ 0.013 := by linarith
  obtain ⟨g, e⟩ := literal_normal U (constPi l F.p) (by linarith) (by linarith)
  obtain ⟨g', e'⟩ := literal_normal U (constTwoPi l F.p) (by linarith) (by linarith)
  exact ⟨⟨g.1, g.2, e⟩, g'.1, g'.2, e'⟩

/-- Wrapping the difference is the same as well. -/
theorem wrap_same {P T d : Ieee F} {P' T' d' : Binary F.p} (hP : Same P P') (hT : Same T T') (hd : Same d d') (hf : (wrapAround P T d).Finite) : Same (wrapAround P T d) (wrapAround P' T' d') := by
  have n1 : d < -P ↔ d' < -P' := by
    rw [lt_val hd.1 (neg_finite _ hP.1), neg_val, hd.2.2, hP.2.2, Rat.cast_lt]; rfl
  have n2 : P < d ↔ P' < d' := by rw [lt_val hP.1 hd.1, hd.2.2, hP.2.2, Rat.cast_lt]; rfl
  unfold wrapAround at hf ⊢
  by_cases c1 : d < -P
  · rw [if_pos c1] at hf ⊢
    rw [if_pos (n1.mp c1)]
    exact hd.agree.add hT.agree hf
  · rw [if_neg c1] at hf ⊢
    rw [if_neg (mt n1.mpr c1)]
    by_cases c2 : P < d
    · rw [if_pos c2] at hf ⊢
      rw [if_pos (n2.mp c2)]
      exact hd.agree.sub hT.agree hf
    · rw [if_neg c2, if_neg (mt n2.mpr c2)]
      exact hd

/-- **C131** `FMD1` in IEEE arithmetic. The samples may be as small or as large as the numbers are. -/
theorem C131_fmd1 (U : Silence.Usual F) (l : ℕ) (hp : 10 ≤ F.p) (hp' : F.p ≤ 53) (hl : F.p ≤ l) (atan2 : Ieee F → Ieee F → Ieee F) (hA : ArcTangent (piIeee l F).val atan2) (ε : ℝ) (hε : 4 / 2 ^ F.p ≤ ε) (hε' : ε ≤ 1 / 10)
    (hc : Atan2Close atan2 ε) (K : ℕ) (bw : Ieee F) (hb : Bandwidth K bw) (x : ℕ → Cplx (Ieee F))
    (hx : ∀ n, GoodIeee (x n).re ∧ GoodIeee (x n).im ∧ ((x n).re.val ≠ 0 ∨ (x n).im.val ≠ 0) ∧ ¬((x n).im = Ieee.num true 0 ∧ (x n).re.val < 0)) (n : ℕ) :
    let y := stream (call1Ieee atan2 (piIeee l F) (twoPiIeee l F) (scaleIeee (piIeee l F) bw)) 0 x n
    y.Finite ∧ Within bw.val (2.02 * ε + 43 / 2 ^ F.p) (2 * ε + 46 / 2 ^ F.p) (point (before x n)) (point (x n)) (y.val : ℝ) := by
  obtain ⟨gP, eP, P1, P2⟩ := pi_good U l hp hp' hl
  obtain ⟨gT, -, T1, T2⟩ := twoPi_good U l hp hp' hl
  obtain ⟨gs, es, -⟩ := scale_pi_good U l hp hp' hl K bw hb
  obtain ⟨sP, sT⟩ := const_same U l hp hp' hl
  have hε0 : 0 ≤ ε := le_trans (by positivity) hε
  intro y
  set s := scaleIeee (piIeee l F) bw
  set P := piIeee l F
  set T := twoPiIeee l F
  set st := states (call1Ieee atan2 P T s) 0 x n with hst
  have hy : y = s * wrapAround P T ((x n).arg atan2 - st) := rfl
  have nn : ∀ n, ¬HasNan (x n) := by
    rintro n (e | e)
    · have := (hx n).1.1; rw [e] at this; exact this
    · have := (hx n).2.1.1; rw [e] at this; exact this
  have near : ∀ n, |(((x n).arg atan2).val : ℝ) - Complex.arg (point (x n))| ≤ ε := fun n =>
    hc _ _ (hx n).2.1.1 (hx n).2.1.2 (hx n).1.1 (hx n).1.2 (hx n).2.2.1 (hx n).2.2.2
  have hprev : GoodIeee st ∧ |(st.val : ℝ)| ≤ P.val ∧ |(st.val : ℝ) - Complex.arg (point (before x n))| ≤ ε ∧ point (before x n) ≠ 0 := by
    cases n with
    | zero =>
      have e1 : point (before x 0) = 1 := by
        apply Complex.ext
        · show (((1 : Ieee F).val : ℚ) : ℝ) = 1
          rw [one_eq U]
          simp [Ieee.val, signed]
        · show (((0 : Ieee F).val : ℚ) : ℝ) = 0
          rw [(zero_good (F := F)).2, Rat.cast_zero]
      refine ⟨(zero_good (F := F)).1, ?_, ?_, by rw [e1]; exact one_ne_zero⟩
      · show |((0 : Ieee F).val : ℝ)| ≤ _
        rw [(zero_good (F := F)).2]
        simp only [Rat.cast_zero, abs_zero]
        linarith
      · rw [e1, Complex.arg_one, sub_zero]
        show |((0 : Ieee F).val : ℝ)| ≤ _
        rw [(zero_good (F := F)).2]
        simpa using hε0
    | succ n =>
      have e : st = (x n).arg atan2 := rfl
      rw [e]
      obtain ⟨g1, g2⟩ := arg_good hA _ (nn n)
      exact ⟨g1, g2, near n, point_ne (hx n).2.2.1⟩
  obtain ⟨gst, bst, est, ane⟩ := hprev
  obtain ⟨ga, ba⟩ := arg_good hA _ (nn n)
  obtain ⟨gw, hw⟩ := wrap_good U hp P T _ st gP gT P1 P2 T1 T2 ga gst ba bst
  obtain ⟨fin, -⟩ := scaled_good U hp K bw s _ hb gs es gw hw
  rw [hy]
  refine ⟨fin, ?_⟩
  obtain ⟨f, hf, ef⟩ := table atan2 ε hε (x n).im (x n).re (hx n).2.1.2 (hx n).1.2 ga.2 (near n)
  have hb' : (free bw).val = bw.val := free_val hb.valid
  have hb0 : (((free bw).val : ℚ) : ℝ) ≠ 0 := by
    rw [hb']
    obtain ⟨b1, -⟩ := bw_real hb
    exact abs_pos.mp (lt_of_lt_of_le (by positivity) b1)
  have ex : num F.p (frees (x n)) = point (x n) := frees_num (hx n).1.2 (hx n).2.1.2
  obtain ⟨-, k⟩ := call1_ok l F.p hp hp' hl f ε hε' hf (free bw) (free s) hb0 (by rw [hb', free_val gs.2]; exact es) (point (before x n)) (free st) (frees (x n)) ane (by rw [free_val gst.2]; exact est) (by rw [ex]; exact point_ne (hx n).2.2.1)
  rw [hb', ex] at k
  refine k.near hb ?_ (by rw [add_assoc, ← add_div]; norm_num)
  have ea : (frees (x n)).arg f = free ((x n).arg atan2) := ef
  have fd : ((x n).arg atan2 - st).Finite := by
    have e8 : (8 : ℝ) ≤ 2 ^ (F.emax - 1) := by
      have u2 := U.emax
      have := zpow_mono2 (show (3 : ℤ) ≤ F.emax - 1 by omega)
      norm_num at this ⊢; exact this
    obtain ⟨a1, a2⟩ := abs_le.mp ba
    obtain ⟨b1, b2⟩ := abs_le.mp bst
    exact (good_sub U _ st ga gst ((abs_le.mpr ⟨by linarith, by linarith⟩ : |(((x n).arg atan2).val : ℝ) - st.val| ≤ 6.3).trans (by linarith))).1.1
  have sd : Same ((x n).arg atan2 - st) ((frees (x n)).arg f - free st) := by
    rw [ea]
    exact (free_same ga.1 ga.2).agree.sub (free_same gst.1 gst.2).agree fd
  have sw := wrap_same sP sT sd gw.1
  have ew : free (wrapAround P T ((x n).arg atan2 - st)) = wrapAround (constPi l F.p) (constTwoPi l F.p) ((frees (x n)).arg f - free st) := Binary.eq_of_val (by rw [free_val gw.2, sw.2.2])
  have e2 : (call1 f (constPi l F.p) (constTwoPi l F.p) (free s) (free st) (frees (x n))).2 = free s * free (wrapAround P T ((x n).arg atan2 - st)) := by
    rw [ew]; rfl
  rw [e2]
  exact product_close gs gw fin

end

/-! ### The hypotheses can be met -/

example : Steps (-15) 0 (⟨literal (-3 / 4), literal (12345 / 32768)⟩ : Cplx (Ieee .single)) :=
  ⟨⟨⟨by decide +kernel, pack_valid (by decide) _ _, by decide +kernel⟩, by decide +kernel, pack_valid (by decide) _ _, by decide +kernel⟩, ⟨-24576, by decide +kernel⟩, ⟨12345, by decide +kernel⟩, .inl (by decide +kernel)⟩

/-- 16 bit audio in single precision, with a bandwidth of at least `2^-84` in magnitude. -/
example : 2 * (0 : ℤ) + 84 + 6 - 2 * (-15) ≤ -(Format.single.emin + Format.single.p - 1) ∧ (0 : ℤ) - (-15) + 84 + 6 ≤ Format.single.emax := by decide

/-- There is such an `atan2`: the angle rounded, but not beyond the constant π. -/
example : ∃ atan2 : Ieee .single → Ieee .single → Ieee .single, ArcTangent (piIeee 64 .single).val atan2 ∧ Atan2Close atan2 (12 / 2 ^ 24) := by
  have U : Silence.Usual .single := Silence.usual_single
  obtain ⟨gP, eP, P1, P2⟩ := pi_good (F := .single) U 64 (by decide) (by decide) (by decide)
  set P := (piIeee 64 .single).val with hP
  let t (y x : Ieee .single) : ℚ := max (-P) (min P (Binary.roundReal 24 (Complex.arg ⟨x.val, y.val⟩)))
  have P0 : 0 ≤ P := by
    have : (0 : ℝ) ≤ P := by linarith
    exact_mod_cast this
  have ht : ∀ y x, |t y x| ≤ P := fun y x => abs_le.mpr ⟨le_max_left _ _, max_le (by linarith) (min_le_left _ _)⟩
  have hr : ∀ y x, |roundTo .single (t y x)| ≤ P := fun y x => by
    rw [roundTo_abs (by decide)]
    exact roundTo_le (by decide) _ _ (valid_fits gP.2) (ht y x)
  have P4 : P < 2 ^ Format.single.emax := by
    have : ((P : ℚ) : ℝ) < ((4 : ℚ) : ℝ) := by push_cast; linarith
    refine lt_trans (Rat.cast_lt.mp this) (by decide +kernel)
  have hfin : ∀ y x, (literal (t y x) : Ieee .single).Finite := fun y x => (pack_finite _ _).mpr (lt_of_le_of_lt (hr y x) P4)
  have hval : ∀ y x, (literal (t y x) : Ieee .single).val = roundTo .single (t y x) := fun y x => by
    show (pack _ _ : Ieee .single).val = _
    rw [pack_val (by decide) _ _ (hfin y x), signed_decide]
  refine ⟨fun y x => if y = nan ∨ x = nan then nan else literal (t y x), ⟨fun x => by simp, fun y => by simp, fun y x hy hx => ?_⟩, fun y x fy _ fx _ h0 _ => ?_⟩
  · rw [if_neg (not_or.mpr ⟨hy, hx⟩)]
    exact ⟨hfin y x, pack_valid (by decide) _ _, by rw [hval]; exact hr y x⟩
  · show |(((if y = nan ∨ x = nan then nan else literal (t y x) : Ieee .single).val : ℚ) : ℝ) - _| ≤ _
    rw [if_neg (not_or.mpr ⟨finite_ne_nan fy, finite_ne_nan fx⟩), hval]
    have b := Complex.abs_arg_le_pi ⟨(x.val : ℝ), (y.val : ℝ)⟩
    have a := Binary.roundReal_error 24 (Complex.arg ⟨(x.val : ℝ), (y.val : ℝ)⟩)
    have hq : ((t y x : ℚ) : ℝ) = max (-P : ℝ) (min P (Binary.roundReal 24 (Complex.arg ⟨(x.val : ℝ), (y.val : ℝ)⟩))) := by push_cast [t]; rfl
    have c := roundTo_error (F := .single) (t y x)
    have c' : |roundTo .single (t y x) - t y x| ≤ 4 / 2 ^ 24 := by
      refine c.trans (max_le (div_le_div_of_nonneg_right ((ht y x).trans ?_) (by positivity)) (by decide +kernel))
      have : ((P : ℚ) : ℝ) ≤ ((4 : ℚ) : ℝ) := by push_cast; linarith
      exact Rat.cast_le.mp this
    have d := (Rat.cast_le (K := ℝ)).mpr c'
    push_cast at d
    generalize Complex.arg ⟨(x.val : ℝ), (y.val : ℝ)⟩ = θ at a b hq
    have pi4 := Real.pi_lt_d2
    have e1 : |((Binary.roundReal 24 θ : ℚ) : ℝ) - θ| ≤ 3.15 / 2 ^ 24 := a.trans (div_le_div_of_nonneg_right (by linarith) (by positivity))
    have e2 : |((P : ℚ) : ℝ) - Real.pi| ≤ 7 / 2 ^ 24 := by
      refine eP.trans ?_
      rw [show Format.single.p = 24 from rfl]
      rw [div_mul_eq_mul_div]
      exact div_le_div_of_nonneg_right (by linarith) (by positivity)
    obtain ⟨d1, d2⟩ := abs_le.mp d
    obtain ⟨e3, e4⟩ := abs_le.mp e1
    obtain ⟨e5, e6⟩ := abs_le.mp e2
    obtain ⟨b1, b2⟩ := abs_le.mp b
    norm_num at d1 d2 e3 e4 e5 e6 ⊢
    rw [hq] at d1 d2
    refine abs_le.mpr ?_
    rcases max_cases (-P : ℝ) (min P (Binary.roundReal 24 θ)) with ⟨m1, m2⟩ | ⟨m1, m2⟩ <;> rcases min_cases (P : ℝ) (Binary.roundReal 24 θ) with ⟨k1, k2⟩ | ⟨k1, k2⟩ <;> rw [m1] at d1 d2 <;> rw [k1] at m2 <;>
      (try rw [k1] at d1 d2) <;> constructor <;> linarith

end FMDRounded
end DSP
