import Verif.Props.LMSError
import Verif.Props.ComplexRounding

/-!
# Rounding in the complex adaptive filter (C112)
-/

namespace DSP

open Spec LMS

namespace LMS

/-! ### Lists of complex numbers as vectors -/

/-- The length of a vector. -/
noncomputable def clen (a : List ℂ) : ℝ := √(energy a)

/-- `Σ |a[i]| |b[i]|` -/
noncomputable def csize (a b : List ℂ) : ℝ := dot (a.map norm) (b.map norm)

theorem energy_norms (a : List ℂ) : energy (a.map norm) = energy a := by
  simp only [energy, List.map_map, Function.comp_def, Real.norm_eq_abs, abs_norm]

theorem len_norms (a : List ℂ) : len (a.map norm) = clen a := by rw [len, clen, energy_norms]

theorem size_norms (a b : List ℂ) : size (a.map norm) (b.map norm) = csize a b := by
  simp only [size, csize, List.map_map, Function.comp_def, abs_norm]

theorem clen_nonneg (a : List ℂ) : 0 ≤ clen a := Real.sqrt_nonneg _

theorem clen_sq (a : List ℂ) : clen a ^ 2 = energy a := Real.sq_sqrt (energy_nonneg a)

theorem csize_nonneg (a b : List ℂ) : 0 ≤ csize a b := by rw [← size_norms]; exact size_nonneg _ _

theorem csize_le (a b : List ℂ) : csize a b ≤ clen a * clen b := by rw [← size_norms, ← len_norms, ← len_norms]; exact size_le _ _

theorem cdot_norm_le (a b : List ℂ) : ‖dot a b‖ ≤ csize a b := by
  induction a generalizing b with
  | nil => simp [csize, dot]
  | cons x a ih =>
    cases b with
    | nil => simp [csize, dot]
    | cons y b =>
      have := ih b
      simp only [csize, dot, List.map_cons, List.zipWith_cons_cons, List.sum_cons] at this ⊢
      rw [← norm_mul]
      exact (norm_add_le _ _).trans (add_le_add_right this _)

theorem cdistance_cons (x y : ℂ) (a b : List ℂ) : distance (x :: a) (y :: b) = ‖x - y‖ ^ 2 + distance a b := by simp [distance, energy]

theorem cdistance_triangle (a b c : List ℂ) (h1 : a.length = b.length) (h2 : b.length = c.length) : √(distance a c) ≤ √(distance a b) + √(distance b c) := by
  induction a generalizing b c with
  | nil =>
    have : distance ([] : List ℂ) c = 0 := by simp [distance, energy]
    rw [this, Real.sqrt_zero]
    positivity
  | cons x a ih =>
    cases b with
    | nil => simp at h1
    | cons y b =>
      cases c with
      | nil => simp at h2
      | cons z c =>
        have := ih b c (by simpa using h1) (by simpa using h2)
        have n1 : 0 ≤ distance a b := energy_nonneg _
        have n2 : 0 ≤ distance b c := energy_nonneg _
        have n3 : 0 ≤ distance a c := energy_nonneg _
        rw [cdistance_cons, cdistance_cons, cdistance_cons]
        have h := plane ‖x - y‖ ‖y - z‖ √(distance a b) √(distance b c)
        rw [Real.sq_sqrt n1, Real.sq_sqrt n2] at h
        refine le_trans (Real.sqrt_le_sqrt ?_) h
        have e1 : ‖x - z‖ ^ 2 ≤ (‖x - y‖ + ‖y - z‖) ^ 2 := by
          refine pow_le_pow_left₀ (norm_nonneg _) ?_ 2
          have := norm_add_le (x - y) (y - z)
          rwa [sub_add_sub_cancel] at this
        have e2 : distance a c ≤ (√(distance a b) + √(distance b c)) ^ 2 := by
          rw [← Real.sq_sqrt n3]
          exact pow_le_pow_left₀ (Real.sqrt_nonneg _) this 2
        linarith

/-- Taps that differ little from others. -/
theorem cdistance_small (a b g w : List ℂ) (s t : ℝ) (hs : 0 ≤ s) (ht : 0 ≤ t) (h1 : a.length = b.length) (h2 : a.length = g.length) (h3 : a.length = w.length)
    (h : ∀ i (h : i < a.length), ‖a[i] - b[i]‖ ≤ s * ‖g[i]‖ + t * ‖w[i]‖) : √(distance a b) ≤ s * clen g + t * clen w := by
  have key := distance_small ((List.zipWith (· - ·) a b).map norm) (List.replicate a.length 0) (g.map norm) (w.map norm) s t hs ht (by simp [h1]) (by simp [← h1, h2]) (by simp [← h1, h3]) (by
    intro i hi
    have := h i (by simpa [← h1] using hi)
    simpa using this)
  rw [len_norms, len_norms] at key
  refine le_trans (le_of_eq ?_) key
  congr 1
  rw [distance, ← energy_norms, distance]
  congr 1
  refine List.ext_getElem (by simp [h1]) fun i _ _ => ?_
  simp

theorem clen_le (g h : List ℂ) (hl : g.length = h.length) : clen g ≤ clen h + √(distance g h) := by
  have hz : ∀ a : List ℂ, distance a (List.replicate a.length 0) = energy a := by
    intro a
    induction a with
    | nil => rfl
    | cons x a ih => simp only [distance, energy, List.length_cons, List.replicate_succ, List.zipWith_cons_cons, List.map_cons, List.sum_cons, sub_zero] at *; rw [ih]
  have := cdistance_triangle g h (List.replicate h.length 0) hl (by simp)
  rw [hz h, ← hl, hz g] at this
  unfold clen
  linarith

end LMS

/-! ### Errors of complex numbers -/

/-- `a` stands for `z` with an error of about `K` roundings of numbers of the size `s`. -/
def CRel (u : ℝ) (K : ℕ) (a z : ℂ) (s : ℝ) : Prop := ‖a - z‖ ≤ ((1 + u) ^ K - 1) * s ∧ ‖z‖ ≤ s

namespace CRel

variable {u : ℝ}

theorem refl (a : ℂ) : CRel u 0 a a ‖a‖ := by simp [CRel]

theorem mono (hu : 0 ≤ u) {K L : ℕ} {a z : ℂ} {s : ℝ} (h : CRel u K a z s) (hK : K ≤ L) : CRel u L a z s := by
  refine ⟨h.1.trans (mul_le_mul_of_nonneg_right ?_ ((norm_nonneg _).trans h.2)), h.2⟩
  have := pow_le_pow_right₀ (by linarith : 1 ≤ 1 + u) hK
  linarith

theorem size {K : ℕ} {a z : ℂ} {s : ℝ} (h : CRel u K a z s) : ‖a‖ ≤ (1 + u) ^ K * s := by
  have := norm_add_le (a - z) z
  rw [sub_add_cancel] at this
  linarith [h.1, h.2]

theorem round (hu : 0 ≤ u) {K L : ℕ} {a z r : ℂ} {s : ℝ} (h : CRel u K a z s) (hr : ‖r - a‖ ≤ ((1 + u) ^ L - 1) * ‖a‖) : CRel u (K + L) r z s := by
  refine ⟨?_, h.2⟩
  have hL : 0 ≤ (1 + u) ^ L - 1 := sub_nonneg.mpr (one_le_pow₀ (by linarith))
  have h1 := mul_le_mul_of_nonneg_left h.size hL
  calc ‖r - z‖ ≤ ‖r - a‖ + ‖a - z‖ := by
        have := norm_add_le (r - a) (a - z)
        rwa [sub_add_sub_cancel] at this
    _ ≤ ((1 + u) ^ L - 1) * ((1 + u) ^ K * s) + ((1 + u) ^ K - 1) * s := add_le_add (hr.trans h1) h.1
    _ = _ := by rw [pow_add]; ring

theorem add (hu : 0 ≤ u) {K : ℕ} {a z b w r : ℂ} {s t : ℝ} (h : CRel u K a z s) (g : CRel u K b w t) (hr : ‖r - (a + b)‖ ≤ u * ‖a + b‖) : CRel u (K + 1) r (z + w) (s + t) := by
  refine round (L := 1) hu (K := K) (a := a + b) ⟨?_, (norm_add_le _ _).trans (add_le_add h.2 g.2)⟩ (by rw [pow_one, add_sub_cancel_left]; exact hr)
  rw [show a + b - (z + w) = (a - z) + (b - w) by ring]
  exact (norm_add_le _ _).trans (by linarith [h.1, g.1])

theorem sub (hu : 0 ≤ u) {K : ℕ} {a z b w r : ℂ} {s t : ℝ} (h : CRel u K a z s) (g : CRel u K b w t) (hr : ‖r - (a - b)‖ ≤ u * ‖a - b‖) : CRel u (K + 1) r (z - w) (s + t) := by
  refine round (L := 1) hu (K := K) (a := a - b) ⟨?_, (norm_sub_le _ _).trans (add_le_add h.2 g.2)⟩ (by rw [pow_one, add_sub_cancel_left]; exact hr)
  rw [show a - b - (z - w) = (a - z) - (b - w) by ring]
  exact (norm_sub_le _ _).trans (by linarith [h.1, g.1])

theorem mul_exact (hu : 0 ≤ u) {K L : ℕ} {a z b w : ℂ} {s t : ℝ} (h : CRel u K a z s) (g : CRel u L b w t) : CRel u (K + L) (a * b) (z * w) (s * t) := by
  have hs : 0 ≤ s := (norm_nonneg _).trans h.2
  refine ⟨?_, by rw [norm_mul]; exact mul_le_mul h.2 g.2 (norm_nonneg _) hs⟩
  rw [show a * b - z * w = (a - z) * b + z * (b - w) by ring]
  refine (norm_add_le _ _).trans ?_
  rw [norm_mul, norm_mul]
  have hK : 0 ≤ (1 + u) ^ K - 1 := sub_nonneg.mpr (one_le_pow₀ (by linarith))
  calc _ ≤ ((1 + u) ^ K - 1) * s * ((1 + u) ^ L * t) + s * (((1 + u) ^ L - 1) * t) :=
        add_le_add (mul_le_mul h.1 g.size (norm_nonneg _) (by positivity)) (mul_le_mul h.2 g.1 (norm_nonneg _) hs)
    _ = _ := by rw [pow_add]; ring

theorem conj {K : ℕ} {a z : ℂ} {s : ℝ} (h : CRel u K a z s) : CRel u K ((starRingEnd ℂ) a) ((starRingEnd ℂ) z) s := by
  refine ⟨?_, by rw [RCLike.norm_conj]; exact h.2⟩
  rw [← map_sub, RCLike.norm_conj]
  exact h.1

end CRel

/-- A real number with a relative error. -/
theorem Rel.complex {u : ℝ} {K : ℕ} {a z : ℝ} (h : Rel u K a z) : CRel u K (a : ℂ) (z : ℂ) |z| := by
  refine ⟨?_, by simp⟩
  rw [← Complex.ofReal_sub, Complex.norm_real, Real.norm_eq_abs]
  exact h

namespace NCLMS.Rounded

open LMS.Rounded ComplexConjugate

variable {V : Type} [Zero V] [Add V] [Sub V] [Mul V] [IntCast V] [Neg V] [Div V] [BEq V] {val : V → ℝ} {u : ℝ}

/-- The inputs in a buffer: it stores conjugates. -/
noncomputable def inputs (val : V → ℝ) (w : List (Cplx V)) : List ℂ := w.map fun z => conj (z.toComplex val)

/-- The coefficients. -/
noncomputable def taps (val : V → ℝ) (g : List (Cplx V)) : List ℂ := g.map fun z => z.toComplex val

/-- The error returned. -/
def err (g w : List (Cplx V)) (d : Cplx V) : Cplx V := (d.conj - estimate (cplx V) g w).conj

/-- The coefficients after a call. -/
def newTaps (g w : List (Cplx V)) (d : Cplx V) (mu : V) : List (Cplx V) :=
  if power (cplx V) w == 0 then g else List.zipWith ((cplx V).change (mu / power (cplx V) w) (err g w d)) g w

section
variable (hR : RoundedField V val u) (hu0 : 0 ≤ u)

include hR hu0

theorem csum_rel {B : Type} (l : List B) (t : B → Cplx V) (T : B → ℂ) (s : B → ℝ) (K : ℕ) (h : ∀ b ∈ l, CRel u K ((t b).toComplex val) (T b) (s b)) :
    CRel u (K + l.length) ((l.foldl (fun a b => a.addAssign (t b)) (Cplx.ofReal 0)).toComplex val) (l.map T).sum (l.map s).sum := by
  induction l using List.reverseRecOn with
  | nil =>
    have := (Cplx.C111_exact hR (Cplx.ofReal 0) 0).2.2
    simp [CRel, this, hR.zero]
  | append_singleton l b ih =>
    have i1 := ih fun b hb => h b (by simp [hb])
    have i2 := h b (by simp)
    rw [List.foldl_append, List.map_append, List.map_append, List.sum_append, List.sum_append, List.length_append]
    simp only [List.foldl_cons, List.foldl_nil, List.map_cons, List.map_nil, List.sum_cons, List.sum_nil, add_zero, List.length_cons, List.length_nil, zero_add, ← Nat.add_assoc]
    have h1 := (Cplx.C111_linear hR hu0 (t b) (l.foldl (fun a b => a.addAssign (t b)) (Cplx.ofReal 0)) 0).1
    rw [add_comm (List.map T l).sum, add_comm (List.map s l).sum]
    exact (i2.mono hu0 (by omega)).add hu0 i1 h1

theorem error_rel (g w : List (Cplx V)) (hl : g.length = w.length) (d : Cplx V) :
    CRel u (w.length + 4) ((err g w d).toComplex val) (d.toComplex val - dot (taps val g) (inputs val w)) (‖d.toComplex val‖ + csize (taps val g) (inputs val w)) := by
  have h := csum_rel hR hu0 (g.zip w) (fun ch => ch.1.conj * ch.2) (fun ch => conj (ch.1.toComplex val) * ch.2.toComplex val) (fun ch => ‖ch.1.toComplex val‖ * ‖ch.2.toComplex val‖) 3 fun ch _ => by
    have := Cplx.C111_mul hR hu0 ch.1.conj ch.2
    rw [(Cplx.C111_exact hR ch.1 0).1] at this
    refine ⟨?_, by rw [norm_mul, RCLike.norm_conj]⟩
    rw [norm_mul, RCLike.norm_conj] at this
    exact this
  have e1 : ((g.zip w).map fun ch => conj (ch.1.toComplex val) * ch.2.toComplex val).sum = conj (dot (taps val g) (inputs val w)) := by
    rw [dot, taps, inputs, List.zipWith_map, List.zip, List.map_zipWith, map_list_sum, List.map_zipWith]
    simp only [map_mul, Complex.conj_conj]
  have e2 : ((g.zip w).map fun ch => ‖ch.1.toComplex val‖ * ‖ch.2.toComplex val‖).sum = csize (taps val g) (inputs val w) := by
    rw [csize, dot, taps, inputs, List.map_map, List.map_map, List.zipWith_map, List.zip, List.map_zipWith]
    simp only [Function.comp_apply, RCLike.norm_conj]
  rw [e1, e2, List.length_zip, hl, Nat.min_self] at h
  have hd : CRel u (3 + w.length) (d.conj.toComplex val) (conj (d.toComplex val)) ‖d.toComplex val‖ := by
    rw [(Cplx.C111_exact hR d 0).1]
    have := (CRel.refl (u := u) (d.toComplex val)).conj
    exact this.mono hu0 (Nat.zero_le _)
  have h2 := (hd.sub hu0 h (Cplx.C111_linear hR hu0 d.conj (estimate (cplx V) g w) 0).2.1).conj
  rw [map_sub, Complex.conj_conj, Complex.conj_conj, show 3 + w.length + 1 = w.length + 4 by omega, ← (Cplx.C111_exact hR (d.conj.sub (estimate (cplx V) g w)) 0).1] at h2
  exact h2

theorem power_rel (w : List (Cplx V)) : Rel u (w.length + 2) (val (power (cplx V) w)) (energy (inputs val w)) := by
  have h := NLMS.Rounded.sum_rel hR hu0 w (fun h => h.norm) (fun h => ‖h.toComplex val‖ ^ 2) 2 fun ch _ => Cplx.norm_rel hR hu0 ch
  have e1 : (w.map fun h => ‖h.toComplex val‖ ^ 2).sum = energy (inputs val w) := by
    rw [energy, inputs, List.map_map]
    simp only [Function.comp_def, RCLike.norm_conj]
  have e2 : (w.map fun h => |‖h.toComplex val‖ ^ 2|).sum = |energy (inputs val w)| := by
    rw [abs_of_nonneg (energy_nonneg _), ← e1]
    simp only [abs_pow, abs_norm]
  rw [e1, e2, Nat.add_comm] at h
  exact h.1

theorem change_rel (hu1 : u ≤ 1) (w : List (Cplx V)) (hw : energy (inputs val w) ≠ 0) (hs : 8 * ((w.length : ℝ) + 2) ^ 2 * u ≤ 1) (mu : V) (e c h : Cplx V) :
    ‖((cplx V).change (mu / power (cplx V) w) e c h).toComplex val - (c.toComplex val + (val mu / energy (inputs val w) : ℝ) * e.toComplex val * h.toComplex val)‖ ≤
      u * ‖c.toComplex val‖ + ((1 + u) ^ (w.length + 9) - 1) * (|val mu| / energy (inputs val w) * ‖e.toComplex val‖ * ‖h.toComplex val‖) := by
  obtain ⟨-, r1⟩ := (Rel.refl u (val mu)).div hu0 hu1 (power_rel hR hu0 w) hw (by push_cast; exact hs) (hR.div mu (power (cplx V) w))
  have hP : 0 ≤ energy (inputs val w) := energy_nonneg _
  have r2 := (r1.complex.mul_exact hu0 (CRel.refl (e.toComplex val))).round hu0 (L := 1) (r := ((mu / power (cplx V) w) • e).toComplex val) (by
    rw [pow_one, add_sub_cancel_left]
    exact (Cplx.C111_linear hR hu0 e e (mu / power (cplx V) w)).2.2.1)
  have r3 := (r2.mul_exact hu0 (CRel.refl (h.toComplex val))).round hu0 (Cplx.C111_mul hR hu0 ((mu / power (cplx V) w) • e) h)
  rw [show 0 + (w.length + 2) + 2 + 0 + 1 + 0 + 3 = w.length + 8 by omega, abs_div, abs_of_nonneg hP] at r3
  have ha := (Cplx.C111_linear hR hu0 ((mu / power (cplx V) w) • e * h) c 0).1
  have hz := r3.size
  set T := ((val mu / energy (inputs val w) : ℝ) : ℂ) * e.toComplex val * h.toComplex val
  set S := |val mu| / energy (inputs val w) * ‖e.toComplex val‖ * ‖h.toComplex val‖
  have hS : 0 ≤ S := by positivity
  change CRel u _ (((mu / power (cplx V) w) • e * h).toComplex val) _ _ at r3
  change ‖((mu / power (cplx V) w) • e * h).toComplex val‖ ≤ _ at hz
  set t := ((mu / power (cplx V) w) • e * h).toComplex val
  change ‖((cplx V).change (mu / power (cplx V) w) e c h).toComplex val - (t + c.toComplex val)‖ ≤ u * ‖t + c.toComplex val‖ at ha
  set N := ((cplx V).change (mu / power (cplx V) w) e c h).toComplex val
  have h4 : ‖t + c.toComplex val‖ ≤ ‖t‖ + ‖c.toComplex val‖ := norm_add_le _ _
  calc ‖N - (c.toComplex val + T)‖ ≤ ‖N - (t + c.toComplex val)‖ + ‖t + c.toComplex val - (c.toComplex val + T)‖ := by
        have := norm_add_le (N - (t + c.toComplex val)) (t + c.toComplex val - (c.toComplex val + T))
        rwa [sub_add_sub_cancel] at this
    _ ≤ u * ((1 + u) ^ (w.length + 8) * S + ‖c.toComplex val‖) + ((1 + u) ^ (w.length + 8) - 1) * S := by
      rw [show t + c.toComplex val - (c.toComplex val + T) = t - T by ring]
      refine add_le_add (ha.trans (mul_le_mul_of_nonneg_left ?_ hu0)) r3.1
      linarith
    _ = _ := by rw [pow_succ]; ring

end

theorem taps_length (g : List (Cplx V)) : (taps val g).length = g.length := List.length_map _

theorem inputs_length (w : List (Cplx V)) : (inputs val w).length = w.length := List.length_map _

theorem newTaps_length (g w : List (Cplx V)) (hl : g.length = w.length) (d : Cplx V) (mu : V) : (newTaps g w d mu).length = w.length := by
  unfold newTaps
  split
  · exact hl
  · rw [List.length_zipWith, hl, Nat.min_self]

section
variable (hR : RoundedField V val u) (hu0 : 0 ≤ u) (hu1 : u ≤ 1) (hz : ∀ a : V, (a == 0) = true ↔ val a = 0)

include hR hu0 hz

theorem newTaps_zero (g w : List (Cplx V)) (d : Cplx V) (mu : V) (hw : energy (inputs val w) = 0) : newTaps g w d mu = g := by
  have h := power_rel hR hu0 w
  rw [Rel, hw, abs_zero, mul_zero, sub_zero] at h
  have : val (power (cplx V) w) = 0 := abs_eq_zero.mp (le_antisymm h (abs_nonneg _))
  rw [newTaps, if_pos ((hz _).mpr this)]

include hu1

theorem newTaps_close (g w : List (Cplx V)) (hl : g.length = w.length) (d : Cplx V) (mu : V) (hw : energy (inputs val w) ≠ 0) (hs : 8 * ((w.length : ℝ) + 2) ^ 2 * u ≤ 1) (i : ℕ) (hi : i < w.length)
    (h1 : i < (taps val (newTaps g w d mu)).length) (h2 : i < (taps val g).length) (h3 : i < (inputs val w).length) :
    ‖(taps val (newTaps g w d mu))[i] - ((taps val g)[i] + (val mu / energy (inputs val w) : ℝ) * (err g w d).toComplex val * conj (inputs val w)[i])‖ ≤
      u * ‖(taps val g)[i]‖ + ((1 + u) ^ (w.length + 9) - 1) * (|val mu| / energy (inputs val w) * ‖(err g w d).toComplex val‖ * ‖(inputs val w)[i]‖) := by
  obtain ⟨hp, -⟩ := (power_rel hR hu0 w).inv hu0 hu1 hw (by push_cast; exact hs)
  have e : newTaps g w d mu = List.zipWith ((cplx V).change (mu / power (cplx V) w) (err g w d)) g w := by
    rw [newTaps, if_neg (by rw [hz]; exact hp)]
  have h := change_rel hR hu0 hu1 w hw hs mu (err g w d) (g[i]'(by omega)) w[i]
  simp only [taps, inputs, List.getElem_map, e, List.getElem_zipWith, Complex.conj_conj, RCLike.norm_conj] at h ⊢
  exact h

/-- With `mu = 1` the new taps nearly reproduce the desired output. -/
theorem newTaps_posterior (g w : List (Cplx V)) (hl : g.length = w.length) (d : Cplx V) (mu : V) (hmu : val mu = 1) (hw : energy (inputs val w) ≠ 0) (hs : 8 * ((w.length : ℝ) + 2) ^ 2 * u ≤ 1) :
    ‖d.toComplex val - dot (taps val (newTaps g w d mu)) (inputs val w)‖ ≤ ((1 + u) ^ (2 * w.length + 14) - 1) * (‖d.toComplex val‖ + csize (taps val g) (inputs val w)) := by
  have he := error_rel hR hu0 g w hl d
  have hc := newTaps_close hR hu0 hu1 hz g w hl d mu hw hs
  have hl' := newTaps_length g w hl d mu
  set e := (err g w d).toComplex val
  set P := energy (inputs val w) with hP
  have hP0 : 0 < P := lt_of_le_of_ne (energy_nonneg _) (Ne.symm hw)
  set K := w.length + 9
  have hK : 0 ≤ (1 + u) ^ K - 1 := sub_nonneg.mpr (one_le_pow₀ (by linarith))
  have key : ∀ (a b c : List ℂ), a.length = c.length → b.length = c.length → (∀ i (hi : i < c.length) (ha : i < a.length) (hb : i < b.length), ‖a[i] - (b[i] + ((1 / P : ℝ) : ℂ) * e * conj c[i])‖ ≤ u * ‖b[i]‖ + ((1 + u) ^ K - 1) * (1 / P * ‖e‖ * ‖c[i]‖)) →
      ‖dot a c - (dot b c + ((1 / P : ℝ) : ℂ) * e * (energy c : ℝ))‖ ≤ u * csize b c + ((1 + u) ^ K - 1) * (1 / P * ‖e‖) * energy c := by
    intro a
    induction a with
    | nil =>
      intro b c h1 h2 h
      obtain rfl : c = [] := List.length_eq_zero_iff.mp (by simpa using h1.symm)
      obtain rfl : b = [] := List.length_eq_zero_iff.mp (by simpa using h2)
      simp [dot, csize, energy]
    | cons x a ih =>
      intro b c h1 h2 h
      cases c with
      | nil => simp at h1
      | cons z c =>
        cases b with
        | nil => simp at h2
        | cons y b =>
          have h0 := h 0 (by simp) (by simp) (by simp)
          simp only [List.getElem_cons_zero] at h0
          have := ih b c (by simpa using h1) (by simpa using h2) fun i hi ha hb => by
            have := h (i + 1) (by simpa using hi) (by simpa using ha) (by simpa using hb)
            simpa using this
          have d1 : ∀ (x y : ℂ) (a b : List ℂ), dot (x :: a) (y :: b) = x * y + dot a b := fun x y a b => by simp [dot]
          have d2 : energy (z :: c) = ‖z‖ ^ 2 + energy c := by simp [energy]
          have d3 : csize (y :: b) (z :: c) = ‖y‖ * ‖z‖ + csize b c := by simp [csize, dot]
          rw [d1, d1, d2, d3]
          have h4 : ‖x * z - (y * z + ((1 / P : ℝ) : ℂ) * e * (‖z‖ ^ 2 : ℝ))‖ ≤ u * (‖y‖ * ‖z‖) + ((1 + u) ^ K - 1) * (1 / P * ‖e‖) * ‖z‖ ^ 2 := by
            have e5 : ((‖z‖ ^ 2 : ℝ) : ℂ) = conj z * z := by rw [Complex.sq_norm, Complex.normSq_eq_conj_mul_self]
            rw [e5, show x * z - (y * z + ((1 / P : ℝ) : ℂ) * e * (conj z * z)) = (x - (y + ((1 / P : ℝ) : ℂ) * e * conj z)) * z by ring, norm_mul]
            refine (mul_le_mul_of_nonneg_right h0 (norm_nonneg z)).trans (le_of_eq ?_)
            ring
          calc _ = ‖(x * z - (y * z + ((1 / P : ℝ) : ℂ) * e * (‖z‖ ^ 2 : ℝ))) + (dot a c - (dot b c + ((1 / P : ℝ) : ℂ) * e * (energy c : ℝ)))‖ := by congr 1; push_cast; ring
            _ ≤ _ := (norm_add_le _ _).trans (add_le_add h4 this)
            _ = _ := by ring
  have h := key (taps val (newTaps g w d mu)) (taps val g) (inputs val w) (by simp [taps_length, inputs_length, hl']) (by simp [taps_length, inputs_length, hl]) (fun i hi h1 h2 => by
    have := hc i (by simpa [inputs_length] using hi) h1 h2 hi
    rw [hmu, abs_one] at this
    exact this)
  have e6 : ((1 / P : ℝ) : ℂ) * e * (energy (inputs val w) : ℝ) = e := by
    rw [← hP, mul_right_comm, ← Complex.ofReal_mul, one_div_mul_cancel hP0.ne', Complex.ofReal_one, one_mul]
  have e7 : ((1 + u) ^ K - 1) * (1 / P * ‖e‖) * energy (inputs val w) = ((1 + u) ^ K - 1) * ‖e‖ := by rw [← hP]; field_simp
  rw [e6, e7] at h
  obtain ⟨h1, h2⟩ := he
  have h3 := CRel.size ⟨h1, h2⟩
  set S := ‖d.toComplex val‖ + csize (taps val g) (inputs val w) with hS
  have hsz : csize (taps val g) (inputs val w) ≤ S := by rw [hS]; linarith [norm_nonneg (d.toComplex val)]
  have hS0 : 0 ≤ S := (norm_nonneg _).trans h2
  calc _ = ‖-(e - (d.toComplex val - dot (taps val g) (inputs val w))) - (dot (taps val (newTaps g w d mu)) (inputs val w) - (dot (taps val g) (inputs val w) + e))‖ := by
        congr 1; ring
    _ ≤ _ := norm_sub_le _ _
    _ ≤ ((1 + u) ^ (w.length + 4) - 1) * S + (u * S + ((1 + u) ^ K - 1) * ((1 + u) ^ (w.length + 4) * S)) := by
      rw [norm_neg]
      refine add_le_add h1 (h.trans (add_le_add (mul_le_mul_of_nonneg_left hsz hu0) (mul_le_mul_of_nonneg_left h3 hK)))
    _ = (((1 + u) ^ K - 1) * (1 + u) ^ (w.length + 4) + ((1 + u) ^ (w.length + 4) - 1) + u) * S := by ring
    _ ≤ _ := by
      refine mul_le_mul_of_nonneg_right ?_ hS0
      rw [NLMS.Rounded.growth, show 2 * w.length + 14 = K + (w.length + 4) + 1 by omega, pow_succ]
      have : 1 ≤ (1 + u) ^ (K + (w.length + 4)) := one_le_pow₀ (by linarith)
      nlinarith

/-- Nearly no farther from taps that reproduce the desired output. -/
theorem newTaps_nearer (g w : List (Cplx V)) (hl : g.length = w.length) (d : Cplx V) (mu : V) (hmu0 : 0 ≤ val mu) (hmu2 : val mu ≤ 2) (hs : 8 * ((w.length : ℝ) + 2) ^ 2 * u ≤ 1)
    (H : List ℂ) (hH : H.length = w.length) (hd : dot H (inputs val w) = d.toComplex val) :
    √(distance (taps val (newTaps g w d mu)) H) ≤ √(distance (taps val g) H) + 3 * ((1 + u) ^ (2 * w.length + 13) - 1) * (clen H + clen (taps val g)) := by
  have hγ : 0 ≤ (1 + u) ^ (2 * w.length + 13) - 1 := sub_nonneg.mpr (one_le_pow₀ (by linarith))
  have hlg := clen_nonneg (taps val g)
  have hlH := clen_nonneg H
  by_cases hw : energy (inputs val w) = 0
  · rw [newTaps_zero hR hu0 hz g w d mu hw]
    have : 0 ≤ 3 * ((1 + u) ^ (2 * w.length + 13) - 1) * (clen H + clen (taps val g)) := by positivity
    linarith
  have he := error_rel hR hu0 g w hl d
  have hc := newTaps_close hR hu0 hu1 hz g w hl d mu hw hs
  have hl' := newTaps_length g w hl d mu
  set e := (err g w d).toComplex val
  have hnear := adapt_nearer (val mu) hmu0 hmu2 (taps val g) H (inputs val w) (by simp [taps_length, inputs_length, hl]) (by simp [inputs_length, hH]) (d.toComplex val) hd
  set X := adapt (val mu) (d.toComplex val - dot (taps val g) (inputs val w)) (taps val g) (inputs val w) with hX
  have hXl : X.length = w.length := by rw [hX, adapt_length _ _ _ _ (by simp [taps_length, inputs_length, hl])]; simp [taps_length, hl]
  have hWl : (inputs val w).length = w.length := inputs_length w
  have hGl : (taps val g).length = w.length := by rw [taps_length, hl]
  have hNl : (taps val (newTaps g w d mu)).length = w.length := by rw [taps_length, hl']
  generalize inputs val w = W at *
  generalize taps val g = G at *
  generalize taps val (newTaps g w d mu) = N at *
  set P := energy W with hP
  set S := ‖d.toComplex val‖ + csize G W with hS
  have hP0 : 0 < P := lt_of_le_of_ne (energy_nonneg _) (Ne.symm hw)
  obtain ⟨h1, h2⟩ := he
  have h3 := CRel.size ⟨h1, h2⟩
  have hS0 : 0 ≤ S := (norm_nonneg _).trans h2
  have hK : 0 ≤ (1 + u) ^ (w.length + 9) - 1 := sub_nonneg.mpr (one_le_pow₀ (by linarith))
  have hL0 : 0 < clen W := Real.sqrt_pos.mpr hP0
  have hsmall := cdistance_small N X G W u (((1 + u) ^ (2 * w.length + 13) - 1) * (val mu / P * S)) hu0 (by positivity) (by rw [hNl, hXl]) (by rw [hNl, hGl]) (by rw [hNl, hWl]) (by
    intro i hi
    have hi' : i < w.length := by omega
    have hXi : X[i]'(by omega) = G[i]'(by omega) + (val mu / P : ℝ) * (d.toComplex val - dot G W) * conj (W[i]'(by omega)) := by
      simp only [hX, adapt, if_neg hw, move, List.getElem_zipWith, ← hP]
      rfl
    rw [hXi]
    have a1 := hc i hi' hi (by omega) (by omega)
    rw [abs_of_nonneg hmu0] at a1
    generalize G[i]'(by omega) = G' at *
    generalize W[i]'(by omega) = w' at *
    generalize N[i]'hi = N' at *
    set E := d.toComplex val - dot G W
    have hm0 : 0 ≤ val mu / P := by positivity
    have a3 : ‖(G' + (val mu / P : ℝ) * e * conj w') - (G' + (val mu / P : ℝ) * E * conj w')‖ = val mu / P * ‖e - E‖ * ‖w'‖ := by
      rw [show (G' + (val mu / P : ℝ) * e * conj w') - (G' + (val mu / P : ℝ) * E * conj w') = (val mu / P : ℝ) * (e - E) * conj w' by ring, norm_mul, norm_mul, RCLike.norm_conj, Complex.norm_real, Real.norm_eq_abs, abs_of_nonneg hm0]
    calc _ ≤ ‖N' - (G' + (val mu / P : ℝ) * e * conj w')‖ + ‖(G' + (val mu / P : ℝ) * e * conj w') - (G' + (val mu / P : ℝ) * E * conj w')‖ := by
          have := norm_add_le (N' - (G' + (val mu / P : ℝ) * e * conj w')) ((G' + (val mu / P : ℝ) * e * conj w') - (G' + (val mu / P : ℝ) * E * conj w'))
          rwa [sub_add_sub_cancel] at this
      _ ≤ (u * ‖G'‖ + ((1 + u) ^ (w.length + 9) - 1) * (val mu / P * ((1 + u) ^ (w.length + 4) * S) * ‖w'‖)) + val mu / P * (((1 + u) ^ (w.length + 4) - 1) * S) * ‖w'‖ := by
        rw [a3]
        refine add_le_add (a1.trans (add_le_add_right (mul_le_mul_of_nonneg_left ?_ hK) _)) ?_
        · gcongr
        · gcongr
      _ = u * ‖G'‖ + (((1 + u) ^ (w.length + 9) - 1) * (1 + u) ^ (w.length + 4) + ((1 + u) ^ (w.length + 4) - 1)) * (val mu / P * S) * ‖w'‖ := by ring
      _ = _ := by rw [NLMS.Rounded.growth, show w.length + 9 + (w.length + 4) = 2 * w.length + 13 by omega])
  have hSle : S ≤ (clen H + clen G) * clen W := by
    have b1 := csize_le G W
    have b2 := (cdot_norm_le H W).trans (csize_le H W)
    rw [hd] at b2
    rw [hS]
    linarith
  have hlast : val mu / P * S * clen W ≤ 2 * (clen H + clen G) := by
    have hPW : P = clen W ^ 2 := (clen_sq W).symm
    have c1 : val mu / P * S * clen W = val mu * (S / clen W) := by rw [hPW]; field_simp
    rw [c1]
    have c2 : S / clen W ≤ clen H + clen G := by rw [div_le_iff₀ hL0]; exact hSle
    exact mul_le_mul hmu2 c2 (by positivity) (by norm_num)
  have htri := cdistance_triangle N X H (by rw [hNl, hXl]) (by rw [hXl, hH])
  have hs1 : √(distance X H) ≤ √(distance G H) := Real.sqrt_le_sqrt hnear
  have hug : u ≤ (1 + u) ^ (2 * w.length + 13) - 1 := by
    have : 1 + u ≤ (1 + u) ^ (2 * w.length + 13) := by
      conv_lhs => rw [← pow_one (1 + u)]
      exact pow_le_pow_right₀ (by linarith) (by omega)
    linarith
  have d1 : ((1 + u) ^ (2 * w.length + 13) - 1) * (val mu / P * S) * clen W ≤ ((1 + u) ^ (2 * w.length + 13) - 1) * (2 * (clen H + clen G)) := by
    rw [mul_assoc]
    exact mul_le_mul_of_nonneg_left hlast hγ
  have d2 : u * clen G ≤ ((1 + u) ^ (2 * w.length + 13) - 1) * (clen H + clen G) := mul_le_mul hug (by linarith) hlg hγ
  linarith

end

section
variable (hR : RoundedField V val u) (hu0 : 0 ≤ u) (hu1 : u ≤ 1) (hz : ∀ a : V, (a == 0) = true ↔ val a = 0)

theorem map_window {α β : Type} (f : α → β) (N : ℕ) (e : α) (h : List α) : (Spec.window N e h).map f = Spec.window N (f e) (h.map f) := by
  simp only [Spec.window, Spec.lastN, List.map_drop, List.map_append, List.map_replicate, List.length_append, List.length_replicate, List.length_map]

/-- What the buffer of the machine holds. -/
theorem final_lists (SIZE : ℕ) (hS : 0 < SIZE) (calls : List (Cplx V × Cplx V × V)) :
    (final (step (cplx V)) (List.replicate SIZE (Cplx.ofReal 0), List.replicate SIZE (Cplx.ofReal 0)) calls).1 = Spec.window SIZE (Cplx.ofReal 0) (calls.map fun a => a.1.conj) ∧
    (final (step (cplx V)) (List.replicate SIZE (Cplx.ofReal 0), List.replicate SIZE (Cplx.ofReal 0)) calls).2.length = SIZE := by
  induction calls using List.reverseRecOn with
  | nil => exact ⟨by rw [List.map_nil, Spec.window_nil]; rfl, by simp [final]⟩
  | append_singleton l a ih =>
    rw [final_append, List.map_append, List.map_singleton, Spec.window_append _ hS, ← ih.1]
    refine ⟨rfl, ?_⟩
    show (newTaps _ ((final (step (cplx V)) (List.replicate SIZE (Cplx.ofReal 0), List.replicate SIZE (Cplx.ofReal 0)) l).1.tail ++ [a.1.conj]) _ _).length = SIZE
    have hl : (final (step (cplx V)) (List.replicate SIZE (Cplx.ofReal 0), List.replicate SIZE (Cplx.ofReal 0)) l).1.length = SIZE := by rw [ih.1, Spec.window_length]
    have hl2 : ((final (step (cplx V)) (List.replicate SIZE (Cplx.ofReal 0), List.replicate SIZE (Cplx.ofReal 0)) l).1.tail ++ [a.1.conj]).length = SIZE := by simp [hl]; omega
    rw [newTaps_length _ _ (by rw [hl2]; exact ih.2), hl2]

include hR in
theorem inputs_window (SIZE : ℕ) (xs : List (Cplx V)) : inputs val (Spec.window SIZE (Cplx.ofReal 0) (xs.map Cplx.conj)) = Spec.window SIZE 0 (xs.map fun z => z.toComplex val) := by
  have h0 := (Cplx.C111_exact hR (Cplx.ofReal 0) 0).2.2
  rw [inputs, map_window, h0, hR.zero, List.map_map]
  congr 1
  · simp
  · refine List.map_congr_left fun z _ => ?_
    simp [(Cplx.C111_exact hR z 0).1]

include hR hu0 hu1 hz

/-- **C112** After every history, one call in rounded arithmetic: the error returned, what the new taps make of the same inputs, and how far they are from taps that reproduce the desired output. -/
theorem C112_call (SIZE : ℕ) (hS : 0 < SIZE) (hs : 8 * ((SIZE : ℝ) + 2) ^ 2 * u ≤ 1) (hist : List (Cplx V × Cplx V × V)) (x d : Cplx V) (mu : V) :
    ∃ f es f' e G G' W D, run call (init SIZE) hist = .ok (f, es) ∧ f.call (x, d, mu) = .ok (f', e) ∧
      G = f.filter.map (fun z => z.toComplex val) ∧ G' = f'.filter.map (fun z => z.toComplex val) ∧ W = Spec.window SIZE 0 ((hist.map Prod.fst ++ [x]).map fun z => z.toComplex val) ∧ D = d.toComplex val ∧ G'.length = SIZE ∧
      ‖e.toComplex val - (D - dot G W)‖ ≤ ((1 + u) ^ (SIZE + 4) - 1) * (‖D‖ + csize G W) ∧
      (val mu = 1 → (∃ v ∈ W, v ≠ 0) → ‖D - dot G' W‖ ≤ ((1 + u) ^ (2 * SIZE + 14) - 1) * (‖D‖ + csize G W)) ∧
      (0 ≤ val mu → val mu ≤ 2 → ∀ H : List ℂ, H.length = SIZE → dot H W = D →
        √(distance G' H) ≤ √(distance G H) + 3 * ((1 + u) ^ (2 * SIZE + 13) - 1) * (clen H + clen G)) ∧
      ((∀ v ∈ W, v = 0) → G' = G) := by
  obtain ⟨f, e, h⟩ := run_call SIZE hist _ _ (agrees_init (V := V) SIZE hS)
  obtain ⟨f', e', h'⟩ := agrees_call SIZE f _ h (x, d, mu)
  obtain ⟨l1, l2⟩ := final_lists SIZE hS hist
  obtain ⟨h1, -⟩ := h
  obtain ⟨h2, -⟩ := h'
  set s := final (step (cplx V)) (List.replicate SIZE (Cplx.ofReal 0), List.replicate SIZE (Cplx.ofReal 0)) hist
  have hwin : s.1.tail ++ [x.conj] = Spec.window SIZE (Cplx.ofReal 0) ((hist.map Prod.fst ++ [x]).map Cplx.conj) := by
    rw [l1, ← Spec.window_append _ hS, List.map_append, List.map_map]
    rfl
  change f'.filter = newTaps s.2 (s.1.tail ++ [x.conj]) d mu at h2
  change f.call (x, d, mu) = .ok (f', err s.2 (s.1.tail ++ [x.conj]) d) at e'
  rw [← h1] at e' h2 l2
  rw [hwin] at e' h2
  have hI := inputs_window hR SIZE (hist.map Prod.fst ++ [x])
  have hw : (Spec.window SIZE (Cplx.ofReal (0 : V)) ((hist.map Prod.fst ++ [x]).map Cplx.conj)).length = SIZE := Spec.window_length _ _ _
  rw [← hI]
  set w := Spec.window SIZE (Cplx.ofReal (0 : V)) ((hist.map Prod.fst ++ [x]).map Cplx.conj)
  have hl : f.filter.length = w.length := by rw [l2, hw]
  have hs' : 8 * ((w.length : ℝ) + 2) ^ 2 * u ≤ 1 := by rw [hw]; exact hs
  refine ⟨f, _, f', _, _, _, _, _, e, e', rfl, rfl, rfl, rfl, ?_, ?_, ?_, ?_, ?_⟩
  · rw [List.length_map, h2, newTaps_length _ _ hl, hw]
  · have := (error_rel hR hu0 f.filter w hl d).1
    rw [hw] at this
    exact this
  · intro hmu hv
    rw [h2]
    have := newTaps_posterior hR hu0 hu1 hz f.filter w hl d mu hmu (by rw [Ne, energy_eq_zero]; push Not; exact hv) hs'
    rw [hw] at this
    exact this
  · intro m0 m2 H hH hd
    rw [h2]
    have := newTaps_nearer hR hu0 hu1 hz f.filter w hl d mu m0 m2 hs' H (by rw [hH, hw]) hd
    rw [hw] at this
    exact this
  · intro hv
    rw [h2, newTaps_zero hR hu0 hz _ _ _ _ ((energy_eq_zero _).mpr hv)]

/-- **C112** However long the filter runs: if the desired outputs are made by taps `H` from the inputs, rounding takes the taps of the filter away from `H` only slowly. -/
theorem C112_drift (SIZE : ℕ) (hS : 0 < SIZE) (hs : 8 * ((SIZE : ℝ) + 2) ^ 2 * u ≤ 1) (H : List ℂ) (hH : H.length = SIZE) (calls : List (Cplx V × Cplx V × V))
    (hf : ∀ hist x d mu, hist ++ [(x, d, mu)] <+: calls → 0 ≤ val mu ∧ val mu ≤ 2 ∧ dot H (Spec.window SIZE 0 ((hist.map Prod.fst ++ [x]).map fun z => z.toComplex val)) = d.toComplex val) :
    ∃ f es, run call (init SIZE) calls = .ok (f, es) ∧ √(distance (f.filter.map fun z => z.toComplex val) H) ≤ (3 * (1 + 3 * ((1 + u) ^ (2 * SIZE + 13) - 1)) ^ calls.length - 2) * clen H := by
  obtain ⟨f, e, h⟩ := run_call SIZE calls _ _ (agrees_init (V := V) SIZE hS)
  refine ⟨f, _, e, ?_⟩
  rw [h.1]
  clear e h
  set c := 3 * ((1 + u) ^ (2 * SIZE + 13) - 1) with hc
  have hc0 : 0 ≤ c := by have : 0 ≤ (1 + u) ^ (2 * SIZE + 13) - 1 := sub_nonneg.mpr (one_le_pow₀ (by linarith)); positivity
  change √(distance (taps val _) H) ≤ _
  induction calls using List.reverseRecOn with
  | nil =>
    have h0 := (Cplx.C111_exact hR (Cplx.ofReal 0) 0).2.2
    have : taps val (final (step (cplx V)) (List.replicate SIZE (Cplx.ofReal 0), List.replicate SIZE (Cplx.ofReal 0)) []).2 = List.replicate SIZE 0 := by simp [taps, final, h0, hR.zero]
    rw [this, distance_zero SIZE H hH]
    simp only [List.length_nil, pow_zero, mul_one]
    norm_num
    exact le_of_eq rfl
  | append_singleton l a ih =>
    have ih := ih fun hist x d mu hp => hf hist x d mu (hp.trans (List.prefix_append _ _))
    obtain ⟨x, d, mu⟩ := a
    obtain ⟨m0, m2, hd⟩ := hf l x d mu (List.prefix_refl _)
    obtain ⟨l1, l2⟩ := final_lists SIZE hS l
    have hw : (Spec.window SIZE (Cplx.ofReal (0 : V)) ((l.map Prod.fst ++ [x]).map Cplx.conj)).length = SIZE := Spec.window_length _ _ _
    rw [← inputs_window hR] at hd
    have e1 : (final (step (cplx V)) (List.replicate SIZE (Cplx.ofReal 0), List.replicate SIZE (Cplx.ofReal 0)) (l ++ [(x, d, mu)])).2 =
        newTaps (final (step (cplx V)) (List.replicate SIZE (Cplx.ofReal 0), List.replicate SIZE (Cplx.ofReal 0)) l).2 (Spec.window SIZE (Cplx.ofReal 0) ((l.map Prod.fst ++ [x]).map Cplx.conj)) d mu := by
      rw [final_append, List.map_append, List.map_map, List.map_singleton, Spec.window_append _ hS]
      change _ = newTaps _ ((Spec.window SIZE (Cplx.ofReal 0) (l.map fun a => a.1.conj)).tail ++ [x.conj]) d mu
      rw [← l1]
      rfl
    rw [e1]
    set g := (final (step (cplx V)) (List.replicate SIZE (Cplx.ofReal 0), List.replicate SIZE (Cplx.ofReal 0)) l).2
    have := newTaps_nearer hR hu0 hu1 hz g _ (by rw [l2, hw]) d mu m0 m2 (by rw [hw]; exact hs) H (by rw [hH, hw]) hd
    rw [hw, ← hc] at this
    have hlen := clen_le (taps val g) H (by rw [taps_length, l2, hH])
    have hD : 0 ≤ √(distance (taps val g) H) := Real.sqrt_nonneg _
    rw [List.length_append, List.length_singleton, pow_succ]
    set D := √(distance (taps val g) H)
    have t1 : c * (clen H + clen (taps val g)) ≤ c * (2 * clen H + D) := mul_le_mul_of_nonneg_left (by linarith) hc0
    have t2 : (1 + c) * (D + 2 * clen H) ≤ (1 + c) * (3 * (1 + c) ^ l.length * clen H) := mul_le_mul_of_nonneg_left (by linarith) (by linarith)
    linarith

end

/-- Single precision: up to 1446 taps. -/
example (hist : List (Cplx (Binary 24) × Cplx (Binary 24) × Binary 24)) (x d : Cplx (Binary 24)) (mu : Binary 24) :=
  C112_call (binary_roundedField 24) (by positivity) (by norm_num) (NLMS.Rounded.binary_zero 24) 1446 (by norm_num) (by norm_num) hist x d mu

/-- Calls that follow the taps 2, i (the newest input is weighted with i). -/
example : ∃ f es, run call (init 2 : NCLMS.Rounded (Binary 24)) [(⟨1, 0⟩, ⟨0, 1⟩, 1), (⟨0, 1⟩, ⟨1, 0⟩, 1)] = .ok (f, es) ∧
    √(distance (f.filter.map fun z => z.toComplex fun a => (a.val : ℝ)) [2, Complex.I]) ≤ 3 * clen [2, Complex.I] := by
  have h1 : ((1 : Binary 24).val : ℝ) = 1 := (binary_roundedMul 24).one
  have h0 : ((0 : Binary 24).val : ℝ) = 0 := (binary_rounded 24).zero
  have e1 : (⟨1, 0⟩ : Cplx (Binary 24)).toComplex (fun a => (a.val : ℝ)) = 1 := Complex.ext h1 h0
  have e2 : (⟨0, 1⟩ : Cplx (Binary 24)).toComplex (fun a => (a.val : ℝ)) = Complex.I := Complex.ext h0 h1
  obtain ⟨f, es, e, h⟩ := C112_drift (binary_roundedField 24) (by positivity) (by norm_num) (NLMS.Rounded.binary_zero 24) 2 (by norm_num) (by norm_num) [2, Complex.I] rfl [(⟨1, 0⟩, ⟨0, 1⟩, 1), (⟨0, 1⟩, ⟨1, 0⟩, 1)] (by
    intro hist x d m hp
    rcases hist with _ | ⟨a, _ | ⟨b, _ | ⟨c, t⟩⟩⟩
    · simp only [List.nil_append, List.cons_prefix_cons, List.nil_prefix, and_true, Prod.mk.injEq] at hp
      obtain ⟨rfl, rfl, rfl⟩ := hp
      simp [h1, e1, e2, dot, Spec.window, Spec.lastN]
    · simp only [List.cons_append, List.nil_append, List.cons_prefix_cons, List.nil_prefix, and_true, Prod.mk.injEq] at hp
      obtain ⟨rfl, rfl, rfl, rfl⟩ := hp
      simp [h1, e1, e2, dot, Spec.window, Spec.lastN]
      norm_num
    · simp at hp
    · simp at hp)
  refine ⟨f, es, e, h.trans (mul_le_mul_of_nonneg_right ?_ (clen_nonneg _))⟩
  norm_num

end NCLMS.Rounded
end DSP
