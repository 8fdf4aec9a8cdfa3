import Verif.Lemmas.LMSRounded
import Verif.Lemmas.RelSize
import Verif.Lemmas.BinaryRounded
import Verif.Lemmas.Window
import Verif.Model.BinaryOrder

/-!
# Rounding in the adaptive filter (C101)
-/

namespace DSP

open Spec LMS

namespace LMS

/-! ### Lists as vectors -/

/-- The length of a vector. -/
noncomputable def len (a : List ℝ) : ℝ := √(energy a)

theorem len_nonneg (a : List ℝ) : 0 ≤ len a := Real.sqrt_nonneg _

theorem len_sq (a : List ℝ) : len a ^ 2 = energy a := Real.sq_sqrt (energy_nonneg a)

theorem energy_cons (x : ℝ) (a : List ℝ) : energy (x :: a) = x ^ 2 + energy a := by simp [energy]

theorem dot_cons (x y : ℝ) (a b : List ℝ) : dot (x :: a) (y :: b) = x * y + dot a b := by simp [dot]

theorem plane (p q P Q : ℝ) : √((p + q) ^ 2 + (P + Q) ^ 2) ≤ √(p ^ 2 + P ^ 2) + √(q ^ 2 + Q ^ 2) := by
  have h1 := Real.sqrt_nonneg (p ^ 2 + P ^ 2)
  have h2 := Real.sqrt_nonneg (q ^ 2 + Q ^ 2)
  have s1 := Real.sq_sqrt (show 0 ≤ p ^ 2 + P ^ 2 by positivity)
  have s2 := Real.sq_sqrt (show 0 ≤ q ^ 2 + Q ^ 2 by positivity)
  refine Real.sqrt_le_iff.mpr ⟨by linarith, ?_⟩
  have h3 : p * q + P * Q ≤ √(p ^ 2 + P ^ 2) * √(q ^ 2 + Q ^ 2) := by
    refine abs_le_of_sq_le_sq' ?_ (by positivity) |>.2
    rw [mul_pow, s1, s2]
    nlinarith [sq_nonneg (p * Q - P * q)]
  nlinarith

theorem distance_triangle (a b c : List ℝ) (h1 : a.length = b.length) (h2 : b.length = c.length) : √(distance a c) ≤ √(distance a b) + √(distance b c) := by
  induction a generalizing b c with
  | nil =>
    have : distance ([] : List ℝ) c = 0 := by simp [distance, energy]
    rw [this, Real.sqrt_zero]
    positivity
  | cons x a ih =>
    cases b with
    | nil => simp at h1
    | cons y b =>
      cases c with
      | nil => simp at h2
      | cons z c =>
        have := ih b c (by simpa using h1) (by simpa using h2)
        have n1 : 0 ≤ distance a b := energy_nonneg _
        have n2 : 0 ≤ distance b c := energy_nonneg _
        have n3 : 0 ≤ distance a c := energy_nonneg _
        have e : ∀ (x y : ℝ) (a b : List ℝ), distance (x :: a) (y :: b) = (x - y) ^ 2 + distance a b := fun x y a b => by simp [distance, energy]
        rw [e, e, e]
        have h := plane (x - y) (y - z) √(distance a b) √(distance b c)
        rw [Real.sq_sqrt n1, Real.sq_sqrt n2] at h
        refine le_trans (Real.sqrt_le_sqrt ?_) h
        rw [show x - y + (y - z) = x - z by ring]
        have : distance a c ≤ (√(distance a b) + √(distance b c)) ^ 2 := by
          rw [← Real.sq_sqrt n3]
          exact pow_le_pow_left₀ (Real.sqrt_nonneg _) this 2
        linarith

/-- `Σ |a[i]| |b[i]|` -/
noncomputable def size (a b : List ℝ) : ℝ := dot (a.map abs) (b.map abs)

theorem size_cons (x y : ℝ) (a b : List ℝ) : size (x :: a) (y :: b) = |x| * |y| + size a b := by simp [size, dot]

theorem size_nonneg (a b : List ℝ) : 0 ≤ size a b := by
  induction a generalizing b with
  | nil => simp [size, dot]
  | cons x a ih =>
    cases b with
    | nil => simp [size, dot]
    | cons y b => rw [size_cons]; have := ih b; positivity

theorem size_le (a b : List ℝ) : size a b ≤ len a * len b := by
  induction a generalizing b with
  | nil => simp only [size, dot, List.map_nil, List.zipWith_nil_left, List.sum_nil]; have := len_nonneg []; have := len_nonneg b; positivity
  | cons x a ih =>
    cases b with
    | nil => simp only [size, dot, List.map_nil, List.zipWith_nil_right, List.sum_nil]; have := len_nonneg (x :: a); have := len_nonneg []; positivity
    | cons y b =>
      rw [size_cons]
      have h := ih b
      have a0 := len_nonneg a
      have b0 := len_nonneg b
      have e1 := len_sq a
      have e2 := len_sq b
      refine le_trans (add_le_add_right h _) ?_
      refine abs_le_of_sq_le_sq' ?_ (mul_nonneg (len_nonneg _) (len_nonneg _)) |>.2
      rw [mul_pow, len_sq, len_sq, energy_cons, energy_cons, ← e1, ← e2, ← sq_abs x, ← sq_abs y]
      nlinarith [sq_nonneg (|x| * len b - len a * |y|)]

theorem dot_abs_le (a b : List ℝ) : |dot a b| ≤ size a b := by
  induction a generalizing b with
  | nil => simp [size, dot]
  | cons x a ih =>
    cases b with
    | nil => simp [size, dot]
    | cons y b =>
      rw [dot_cons, size_cons, ← abs_mul]
      exact (abs_add_le _ _).trans (add_le_add_right (ih b) _)

/-- Taps that differ little from others. -/
theorem distance_small (a b g w : List ℝ) (s t : ℝ) (hs : 0 ≤ s) (ht : 0 ≤ t) (h1 : a.length = b.length) (h2 : a.length = g.length) (h3 : a.length = w.length)
    (h : ∀ i (h : i < a.length), |a[i] - b[i]| ≤ s * |g[i]| + t * |w[i]|) : √(distance a b) ≤ s * len g + t * len w := by
  have key : distance a b ≤ s ^ 2 * energy g + 2 * s * t * size g w + t ^ 2 * energy w := by
    induction a generalizing b g w with
    | nil =>
      have := energy_nonneg g
      have := energy_nonneg w
      have := size_nonneg g w
      simp only [distance, List.zipWith_nil_left, energy, List.map_nil, List.sum_nil] at *
      positivity
    | cons x a ih =>
      cases b with
      | nil => simp at h1
      | cons y b =>
        cases g with
        | nil => simp at h2
        | cons c g =>
          cases w with
          | nil => simp at h3
          | cons d w =>
            have h0 := h 0 (by simp)
            simp only [List.getElem_cons_zero] at h0
            have := ih b g w (by simpa using h1) (by simpa using h2) (by simpa using h3) fun i hi => by
              have := h (i + 1) (by simpa using hi)
              simpa using this
            have e : distance (x :: a) (y :: b) = (x - y) ^ 2 + distance a b := by simp [distance, energy]
            rw [e, energy_cons, energy_cons, size_cons]
            have : (x - y) ^ 2 ≤ (s * |c| + t * |d|) ^ 2 := by rw [← sq_abs (x - y)]; exact pow_le_pow_left₀ (abs_nonneg _) h0 2
            have e2 : (s * |c| + t * |d|) ^ 2 = s ^ 2 * c ^ 2 + 2 * s * t * (|c| * |d|) + t ^ 2 * d ^ 2 := by rw [← sq_abs c, ← sq_abs d]; ring
            linarith
  have g0 := len_nonneg g
  have w0 := len_nonneg w
  refine Real.sqrt_le_iff.mpr ⟨by positivity, key.trans ?_⟩
  rw [← len_sq, ← len_sq]
  have := mul_le_mul_of_nonneg_left (size_le g w) (show 0 ≤ 2 * s * t by positivity)
  nlinarith

theorem len_le (g h : List ℝ) (hl : g.length = h.length) : len g ≤ len h + √(distance g h) := by
  have hz : ∀ a : List ℝ, distance a (List.replicate a.length 0) = energy a := by
    intro a
    induction a with
    | nil => rfl
    | cons x a ih => simp only [distance, energy, List.length_cons, List.replicate_succ, List.zipWith_cons_cons, List.map_cons, List.sum_cons, sub_zero] at *; rw [ih]
  have := distance_triangle g h (List.replicate h.length 0) hl (by simp)
  rw [hz h, ← hl, hz g] at this
  unfold len
  linarith

end LMS

namespace NLMS.Rounded

open LMS.Rounded

variable {V : Type} [Zero V] [Add V] [Sub V] [Mul V] [IntCast V] [Neg V] [Div V] [BEq V] {val : V → ℝ} {u : ℝ}

section
variable (hR : RoundedField V val u) (hu0 : 0 ≤ u)

include hR hu0

theorem sum_rel {B : Type} (l : List B) (t : B → V) (T : B → ℝ) (K : ℕ) (h : ∀ b ∈ l, Rel u K (val (t b)) (T b)) :
    RelS u (K + l.length) (val (l.foldl (fun a b => a + t b) 0)) (l.map T).sum (l.map fun b => |T b|).sum := by
  induction l using List.reverseRecOn with
  | nil => simp [RelS, hR.zero]
  | append_singleton l b ih =>
    have i1 := ih fun b hb => h b (by simp [hb])
    have i2 := h b (by simp)
    rw [List.foldl_append, List.map_append, List.map_append, List.sum_append, List.sum_append, List.length_append]
    simp only [List.foldl_cons, List.foldl_nil, List.map_cons, List.map_nil, List.sum_cons, List.sum_nil, add_zero, List.length_cons, List.length_nil, zero_add, ← Nat.add_assoc]
    exact i1.add hu0 (i2.sized hu0 (by omega) le_rfl) (hR.add _ _)

theorem error_rel (g w : List V) (hl : g.length = w.length) (d : V) :
    RelS u (w.length + 2) (val (d - estimate (real V) g w)) (val d - dot (g.map val) (w.map val)) (|val d| + size (g.map val) (w.map val)) := by
  have h := sum_rel hR hu0 (g.zip w) (fun ch => ch.1 * ch.2) (fun ch => val ch.1 * val ch.2) 1 fun ch _ => by
    have := (Rel.refl u (val ch.1)).mul hu0 (Rel.refl u (val ch.2)) (hR.mul ch.1 ch.2)
    exact this
  have e1 : ((g.zip w).map fun ch => val ch.1 * val ch.2).sum = dot (g.map val) (w.map val) := by
    rw [dot, List.zipWith_map, List.zip, List.map_zipWith]
  have e2 : ((g.zip w).map fun ch => |val ch.1 * val ch.2|).sum = size (g.map val) (w.map val) := by
    rw [size, dot, List.map_map, List.map_map, List.zipWith_map, List.zip, List.map_zipWith]
    simp only [abs_mul, Function.comp_apply]
  rw [e1, e2, List.length_zip, hl, Nat.min_self] at h
  have h2 := ((Rel.refl u (val d)).sized hu0 (Nat.zero_le (1 + w.length)) le_rfl).sub hu0 h (hR.sub d (estimate (real V) g w))
  rw [show 1 + w.length + 1 = w.length + 2 by omega] at h2
  exact h2

theorem power_rel (w : List V) : Rel u (w.length + 1) (val (power (real V) w)) (energy (w.map val)) := by
  have h := sum_rel hR hu0 w (fun h => h * h) (fun h => val h * val h) 1 fun ch _ => by
    have := (Rel.refl u (val ch)).mul hu0 (Rel.refl u (val ch)) (hR.mul ch ch)
    exact this
  have e1 : (w.map fun h => val h * val h).sum = energy (w.map val) := by
    rw [energy, List.map_map]
    congr 1
    refine List.map_congr_left fun a _ => ?_
    simp [sq]
  have e2 : (w.map fun h => |val h * val h|).sum = |energy (w.map val)| := by
    rw [abs_of_nonneg (energy_nonneg _), ← e1]
    congr 1
    refine List.map_congr_left fun a _ => ?_
    exact abs_mul_self _
  rw [e1, e2, Nat.add_comm] at h
  exact h.1

theorem change_rel (hu1 : u ≤ 1) (w : List V) (hw : energy (w.map val) ≠ 0) (hs : 8 * ((w.length : ℝ) + 1) ^ 2 * u ≤ 1) (mu e c h : V) :
    |val ((real V).change (mu / power (real V) w) e c h) - (val c + val mu / energy (w.map val) * val e * val h)| ≤
      u * |val c| + ((1 + u) ^ (w.length + 6) - 1) * |val mu / energy (w.map val) * val e * val h| := by
  obtain ⟨-, r1⟩ := (Rel.refl u (val mu)).div hu0 hu1 (power_rel hR hu0 w) hw (by push_cast; exact hs) (hR.div mu (power (real V) w))
  have r2 := r1.mul hu0 (Rel.refl u (val e)) (hR.mul (mu / power (real V) w) e)
  have r3 := r2.mul hu0 (Rel.refl u (val h)) (hR.mul (mu / power (real V) w * e) h)
  rw [show 0 + (w.length + 1) + 2 + 0 + 1 + 0 + 1 = w.length + 5 by omega] at r3
  have ha := hR.add c (mu / power (real V) w * e * h)
  have hz := r3.size
  set T := val mu / energy (w.map val) * val e * val h
  set t := val (mu / power (real V) w * e * h)
  have : |val c + t| ≤ |val c| + |t| := abs_add_le _ _
  unfold Rel at r3
  calc |val (c + mu / power (real V) w * e * h) - (val c + T)| ≤ |val (c + mu / power (real V) w * e * h) - (val c + t)| + |val c + t - (val c + T)| := abs_sub_le _ _ _
    _ ≤ u * (|val c| + (1 + u) ^ (w.length + 5) * |T|) + ((1 + u) ^ (w.length + 5) - 1) * |T| := by
      rw [show val c + t - (val c + T) = t - T by ring]
      refine add_le_add (ha.trans (mul_le_mul_of_nonneg_left ?_ hu0)) r3
      linarith
    _ = _ := by rw [pow_succ]; ring

end

theorem growth (K L : ℕ) : ((1 + u) ^ K - 1) * (1 + u) ^ L + ((1 + u) ^ L - 1) = (1 + u) ^ (K + L) - 1 := by rw [pow_add]; ring

/-- The coefficients after a call. -/
def newTaps (g w : List V) (d mu : V) : List V :=
  if power (real V) w == 0 then g else List.zipWith ((real V).change (mu / power (real V) w) (d - estimate (real V) g w)) g w

theorem newTaps_length (g w : List V) (hl : g.length = w.length) (d mu : V) : (newTaps g w d mu).length = w.length := by
  unfold newTaps
  split
  · exact hl
  · rw [List.length_zipWith, hl, Nat.min_self]

section
variable (hR : RoundedField V val u) (hu0 : 0 ≤ u) (hu1 : u ≤ 1) (hz : ∀ a : V, (a == 0) = true ↔ val a = 0)

include hR hu0 hz

theorem newTaps_zero (g w : List V) (d mu : V) (hw : energy (w.map val) = 0) : newTaps g w d mu = g := by
  have h := power_rel hR hu0 w
  rw [Rel, hw, abs_zero, mul_zero, sub_zero] at h
  have : val (power (real V) w) = 0 := abs_eq_zero.mp (le_antisymm h (abs_nonneg _))
  rw [newTaps, if_pos ((hz _).mpr this)]

include hu1

theorem newTaps_close (g w : List V) (hl : g.length = w.length) (d mu : V) (hw : energy (w.map val) ≠ 0) (hs : 8 * ((w.length : ℝ) + 1) ^ 2 * u ≤ 1) (i : ℕ) (hi : i < w.length) :
    |((newTaps g w d mu).map val)[i]'(by rw [List.length_map, newTaps_length g w hl]; exact hi) -
      ((g.map val)[i]'(by rw [List.length_map, hl]; exact hi) + val mu / energy (w.map val) * val (d - estimate (real V) g w) * (w.map val)[i]'(by rw [List.length_map]; exact hi))| ≤
      u * |(g.map val)[i]'(by rw [List.length_map, hl]; exact hi)| + ((1 + u) ^ (w.length + 6) - 1) * |val mu / energy (w.map val) * val (d - estimate (real V) g w) * (w.map val)[i]'(by rw [List.length_map]; exact hi)| := by
  obtain ⟨hp, -⟩ := (power_rel hR hu0 w).inv hu0 hu1 hw (by push_cast; exact hs)
  have e : newTaps g w d mu = List.zipWith ((real V).change (mu / power (real V) w) (d - estimate (real V) g w)) g w := by
    rw [newTaps, if_neg (by rw [hz]; exact hp)]
  have h := change_rel hR hu0 hu1 w hw hs mu (d - estimate (real V) g w) (g[i]'(by omega)) w[i]
  simp only [List.getElem_map, e, List.getElem_zipWith]
  exact h

/-- With `mu = 1` the new taps nearly reproduce the desired output. -/
theorem newTaps_posterior (g w : List V) (hl : g.length = w.length) (d mu : V) (hmu : val mu = 1) (hw : energy (w.map val) ≠ 0) (hs : 8 * ((w.length : ℝ) + 1) ^ 2 * u ≤ 1) :
    |val d - dot ((newTaps g w d mu).map val) (w.map val)| ≤ ((1 + u) ^ (2 * w.length + 9) - 1) * (|val d| + size (g.map val) (w.map val)) := by
  have he := error_rel hR hu0 g w hl d
  have hc := newTaps_close hR hu0 hu1 hz g w hl d mu hw hs
  have hl' := newTaps_length g w hl d mu
  set e := val (d - estimate (real V) g w)
  set P := energy (w.map val) with hP
  have hP0 : 0 < P := lt_of_le_of_ne (energy_nonneg _) (Ne.symm hw)
  set K := w.length + 6
  have hK : 0 ≤ (1 + u) ^ K - 1 := sub_nonneg.mpr (one_le_pow₀ (by linarith))
  have key : ∀ (a b c : List ℝ), a.length = c.length → b.length = c.length → (∀ i (hi : i < c.length) (ha : i < a.length) (hb : i < b.length), |a[i] - (b[i] + 1 / P * e * c[i])| ≤ u * |b[i]| + ((1 + u) ^ K - 1) * |1 / P * e * c[i]|) →
      |dot a c - (dot b c + e / P * energy c)| ≤ u * size b c + ((1 + u) ^ K - 1) * (|e| / P) * energy c := by
    intro a
    induction a with
    | nil =>
      intro b c h1 h2 h
      obtain rfl : c = [] := List.length_eq_zero_iff.mp (by simpa using h1.symm)
      obtain rfl : b = [] := List.length_eq_zero_iff.mp (by simpa using h2)
      simp [dot, size, energy]
    | cons x a ih =>
      intro b c h1 h2 h
      cases c with
      | nil => simp at h1
      | cons z c =>
        cases b with
        | nil => simp at h2
        | cons y b =>
          have h0 := h 0 (by simp) (by simp) (by simp)
          simp only [List.getElem_cons_zero] at h0
          have := ih b c (by simpa using h1) (by simpa using h2) fun i hi ha hb => by
            have := h (i + 1) (by simpa using hi) (by simpa using ha) (by simpa using hb)
            simpa using this
          rw [dot_cons, dot_cons, energy_cons, size_cons]
          have h4 : |x * z - (y * z + e / P * z ^ 2)| ≤ u * (|y| * |z|) + ((1 + u) ^ K - 1) * (|e| / P) * z ^ 2 := by
            rw [show x * z - (y * z + e / P * z ^ 2) = (x - (y + 1 / P * e * z)) * z by ring, abs_mul]
            refine (mul_le_mul_of_nonneg_right h0 (abs_nonneg z)).trans (le_of_eq ?_)
            rw [abs_mul, abs_mul, abs_of_pos (show 0 < 1 / P by positivity), ← sq_abs z]
            ring
          calc _ = |(x * z - (y * z + e / P * z ^ 2)) + (dot a c - (dot b c + e / P * energy c))| := by congr 1; ring
            _ ≤ _ := (abs_add_le _ _).trans (add_le_add h4 this)
            _ = _ := by ring
  have h := key ((newTaps g w d mu).map val) (g.map val) (w.map val) (by simp [hl']) (by simp [hl]) (fun i hi _ _ => by
    have := hc i (by simpa using hi)
    rw [hmu] at this
    exact this)
  rw [← hP, div_mul_cancel₀ _ hP0.ne', mul_assoc _ (|e| / P), div_mul_cancel₀ _ hP0.ne'] at h
  obtain ⟨h1, h2⟩ := he
  have h3 := RelS.size ⟨h1, h2⟩
  set S := |val d| + size (g.map val) (w.map val) with hS
  have hsz : size (g.map val) (w.map val) ≤ S := by rw [hS]; linarith [abs_nonneg (val d)]
  have hS0 : 0 ≤ S := (abs_nonneg _).trans h2
  calc _ = |-(e - (val d - dot (g.map val) (w.map val))) - (dot ((newTaps g w d mu).map val) (w.map val) - (dot (g.map val) (w.map val) + e))| := by
        congr 1; ring
    _ ≤ _ := abs_sub _ _
    _ ≤ ((1 + u) ^ (w.length + 2) - 1) * S + (u * S + ((1 + u) ^ K - 1) * ((1 + u) ^ (w.length + 2) * S)) := by
      rw [abs_neg]
      refine add_le_add h1 (h.trans (add_le_add (mul_le_mul_of_nonneg_left hsz hu0) (mul_le_mul_of_nonneg_left h3 hK)))
    _ = (((1 + u) ^ K - 1) * (1 + u) ^ (w.length + 2) + ((1 + u) ^ (w.length + 2) - 1) + u) * S := by ring
    _ ≤ _ := by
      refine mul_le_mul_of_nonneg_right ?_ hS0
      rw [growth, show 2 * w.length + 9 = K + (w.length + 2) + 1 by omega, pow_succ]
      have : 1 ≤ (1 + u) ^ (K + (w.length + 2)) := one_le_pow₀ (by linarith)
      nlinarith

/-- Nearly no farther from taps that reproduce the desired output. -/
theorem newTaps_nearer (g w : List V) (hl : g.length = w.length) (d mu : V) (hmu0 : 0 ≤ val mu) (hmu2 : val mu ≤ 2) (hs : 8 * ((w.length : ℝ) + 1) ^ 2 * u ≤ 1)
    (H : List ℝ) (hH : H.length = w.length) (hd : dot H (w.map val) = val d) :
    √(distance ((newTaps g w d mu).map val) H) ≤ √(distance (g.map val) H) + 3 * ((1 + u) ^ (2 * w.length + 8) - 1) * (len H + len (g.map val)) := by
  have hγ : 0 ≤ (1 + u) ^ (2 * w.length + 8) - 1 := sub_nonneg.mpr (one_le_pow₀ (by linarith))
  have hlg := len_nonneg (g.map val)
  have hlH := len_nonneg H
  by_cases hw : energy (w.map val) = 0
  · rw [newTaps_zero hR hu0 hz g w d mu hw]
    have : 0 ≤ 3 * ((1 + u) ^ (2 * w.length + 8) - 1) * (len H + len (g.map val)) := by positivity
    linarith
  have he := error_rel hR hu0 g w hl d
  have hc := newTaps_close hR hu0 hu1 hz g w hl d mu hw hs
  have hl' := newTaps_length g w hl d mu
  set e := val (d - estimate (real V) g w)
  have hnear := adapt_nearer (val mu) hmu0 hmu2 (g.map val) H (w.map val) (by simp [hl]) (by simp [hH]) (val d) hd
  set X := adapt (val mu) (val d - dot (g.map val) (w.map val)) (g.map val) (w.map val) with hX
  have hXl : X.length = w.length := by rw [hX, adapt_length _ _ _ _ (by simp [hl])]; simp [hl]
  set W := w.map val with hW
  set P := energy W with hP
  set S := |val d| + size (g.map val) W with hS
  have hP0 : 0 < P := lt_of_le_of_ne (energy_nonneg _) (Ne.symm hw)
  have hWl : W.length = w.length := by simp [hW]
  obtain ⟨h1, h2⟩ := he
  have h3 := RelS.size ⟨h1, h2⟩
  have hS0 : 0 ≤ S := (abs_nonneg _).trans h2
  have hK : 0 ≤ (1 + u) ^ (w.length + 6) - 1 := sub_nonneg.mpr (one_le_pow₀ (by linarith))
  have hL0 : 0 < len W := Real.sqrt_pos.mpr hP0
  have hsmall := distance_small ((newTaps g w d mu).map val) X (g.map val) W u (((1 + u) ^ (2 * w.length + 8) - 1) * (val mu / P * S)) hu0 (by positivity) (by simp [hl', hXl]) (by simp [hl', hl]) (by simp [hl', hWl]) (by
    intro i hi
    have hi' : i < w.length := by simpa [hl'] using hi
    have hXi : X[i]'(by omega) = (g.map val)[i]'(by simp [hl, hi']) + val mu / P * (val d - dot (g.map val) W) * W[i]'(by omega) := by
      simp only [hX, adapt, if_neg hw, move, List.getElem_zipWith, RCLike.ofReal_real_eq_id, id_eq, conj_trivial, ← hP]
    rw [hXi]
    have a1 := hc i hi'
    set G := (g.map val)[i]'(by simp [hl, hi'])
    set w' := W[i]'(by omega)
    set E := val d - dot (g.map val) W
    set N := ((newTaps g w d mu).map val)[i]'hi
    have hm0 : 0 ≤ val mu / P := by positivity
    have a2 : |val mu / P * e * w'| = val mu / P * |e| * |w'| := by rw [abs_mul, abs_mul, abs_of_nonneg hm0]
    have a3 : |(G + val mu / P * e * w') - (G + val mu / P * E * w')| = val mu / P * |e - E| * |w'| := by
      rw [show (G + val mu / P * e * w') - (G + val mu / P * E * w') = val mu / P * (e - E) * w' by ring, abs_mul, abs_mul, abs_of_nonneg hm0]
    rw [a2] at a1
    calc _ ≤ |N - (G + val mu / P * e * w')| + |(G + val mu / P * e * w') - (G + val mu / P * E * w')| := abs_sub_le _ _ _
      _ ≤ (u * |G| + ((1 + u) ^ (w.length + 6) - 1) * (val mu / P * ((1 + u) ^ (w.length + 2) * S) * |w'|)) + val mu / P * (((1 + u) ^ (w.length + 2) - 1) * S) * |w'| := by
        rw [a3]
        refine add_le_add (a1.trans (add_le_add_right (mul_le_mul_of_nonneg_left ?_ hK) _)) ?_
        · gcongr
        · gcongr
      _ = u * |G| + (((1 + u) ^ (w.length + 6) - 1) * (1 + u) ^ (w.length + 2) + ((1 + u) ^ (w.length + 2) - 1)) * (val mu / P * S) * |w'| := by ring
      _ = _ := by rw [growth, show w.length + 6 + (w.length + 2) = 2 * w.length + 8 by omega])
  have hSle : S ≤ (len H + len (g.map val)) * len W := by
    have b1 := size_le (g.map val) W
    have b2 := (dot_abs_le H W).trans (size_le H W)
    rw [hd] at b2
    rw [hS]
    linarith
  have hlast : val mu / P * S * len W ≤ 2 * (len H + len (g.map val)) := by
    have hPW : P = len W ^ 2 := (len_sq W).symm
    have c1 : val mu / P * S * len W = val mu * (S / len W) := by rw [hPW]; field_simp
    rw [c1]
    have c2 : S / len W ≤ len H + len (g.map val) := by rw [div_le_iff₀ hL0]; exact hSle
    exact mul_le_mul hmu2 c2 (by positivity) (by norm_num)
  have htri := distance_triangle ((newTaps g w d mu).map val) X H (by simp [hl', hXl]) (by rw [hXl, hH])
  have hs1 : √(distance X H) ≤ √(distance (g.map val) H) := Real.sqrt_le_sqrt hnear
  have hug : u ≤ (1 + u) ^ (2 * w.length + 8) - 1 := by
    have : 1 + u ≤ (1 + u) ^ (2 * w.length + 8) := by
      conv_lhs => rw [← pow_one (1 + u)]
      exact pow_le_pow_right₀ (by linarith) (by omega)
    linarith
  have d1 : ((1 + u) ^ (2 * w.length + 8) - 1) * (val mu / P * S) * len W ≤ ((1 + u) ^ (2 * w.length + 8) - 1) * (2 * (len H + len (g.map val))) := by
    rw [mul_assoc]
    exact mul_le_mul_of_nonneg_left hlast hγ
  have d2 : u * len (g.map val) ≤ ((1 + u) ^ (2 * w.length + 8) - 1) * (len H + len (g.map val)) := mul_le_mul hug (by linarith) hlg hγ
  linarith

end

section
variable (hR : RoundedField V val u) (hu0 : 0 ≤ u) (hu1 : u ≤ 1) (hz : ∀ a : V, (a == 0) = true ↔ val a = 0)

theorem step_real (s : List V × List V) (a : V × V × V) : step (real V) s a = ((s.1.tail ++ [a.1], newTaps s.2 (s.1.tail ++ [a.1]) a.2.1 a.2.2), a.2.1 - estimate (real V) s.2 (s.1.tail ++ [a.1])) := rfl

theorem final_lists (SIZE : ℕ) (hS : 0 < SIZE) (calls : List (V × V × V)) :
    (final (step (real V)) (List.replicate SIZE 0, List.replicate SIZE 0) calls).1 = Spec.window SIZE 0 (calls.map Prod.fst) ∧
    (final (step (real V)) (List.replicate SIZE 0, List.replicate SIZE 0) calls).2.length = SIZE := by
  induction calls using List.reverseRecOn with
  | nil => exact ⟨by rw [List.map_nil, Spec.window_nil]; rfl, by simp [final]⟩
  | append_singleton l a ih =>
    rw [final_append, List.map_append, List.map_singleton, Spec.window_append _ hS, ← ih.1]
    refine ⟨rfl, ?_⟩
    show (newTaps _ ((final (step (real V)) (List.replicate SIZE 0, List.replicate SIZE 0) l).1.tail ++ [a.1]) _ _).length = SIZE
    have hl : (final (step (real V)) (List.replicate SIZE 0, List.replicate SIZE 0) l).1.length = SIZE := by rw [ih.1, Spec.window_length]
    have hl2 : ((final (step (real V)) (List.replicate SIZE 0, List.replicate SIZE 0) l).1.tail ++ [a.1]).length = SIZE := by simp [hl]; omega
    rw [newTaps_length _ _ (by rw [hl2]; exact ih.2), hl2]

include hR hu0 hu1 hz

/-- **C101** After every history, one call in rounded arithmetic: the error returned, what the new taps make of the same inputs, and how far they are from taps that reproduce the desired output. -/
theorem C101_call (SIZE : ℕ) (hS : 0 < SIZE) (hs : 8 * ((SIZE : ℝ) + 1) ^ 2 * u ≤ 1) (hist : List (V × V × V)) (x d mu : V) :
    ∃ f es f' e G G' W, run call (init SIZE) hist = .ok (f, es) ∧ f.call (x, d, mu) = .ok (f', e) ∧
      G = f.filter.map val ∧ G' = f'.filter.map val ∧ W = (Spec.window SIZE 0 (hist.map Prod.fst ++ [x])).map val ∧ G'.length = SIZE ∧
      |val e - (val d - dot G W)| ≤ ((1 + u) ^ (SIZE + 2) - 1) * (|val d| + size G W) ∧
      (val mu = 1 → (∃ v ∈ W, v ≠ 0) → |val d - dot G' W| ≤ ((1 + u) ^ (2 * SIZE + 9) - 1) * (|val d| + size G W)) ∧
      (0 ≤ val mu → val mu ≤ 2 → ∀ H : List ℝ, H.length = SIZE → dot H W = val d →
        √(distance G' H) ≤ √(distance G H) + 3 * ((1 + u) ^ (2 * SIZE + 8) - 1) * (len H + len G)) ∧
      ((∀ v ∈ W, v = 0) → G' = G) := by
  obtain ⟨f, e, h⟩ := run_call SIZE hist _ _ (agrees_init (V := V) SIZE hS)
  obtain ⟨f', e', h'⟩ := agrees_call SIZE f _ h (x, d, mu)
  obtain ⟨l1, l2⟩ := final_lists SIZE hS hist
  rw [step_real, l1, ← Spec.window_append _ hS] at e' h'
  obtain ⟨h1, -⟩ := h
  obtain ⟨h2, -⟩ := h'
  rw [← h1] at e' h2 l2
  have hw : (Spec.window SIZE 0 (hist.map Prod.fst ++ [x])).length = SIZE := Spec.window_length _ _ _
  set w := Spec.window SIZE 0 (hist.map Prod.fst ++ [x])
  have hl : f.filter.length = w.length := by rw [l2, hw]
  have hs' : 8 * ((w.length : ℝ) + 1) ^ 2 * u ≤ 1 := by rw [hw]; exact hs
  refine ⟨f, _, f', _, _, _, _, e, e', rfl, rfl, rfl, ?_, ?_, ?_, ?_, ?_⟩
  · rw [List.length_map, h2, newTaps_length _ _ hl, hw]
  · have := (error_rel hR hu0 f.filter w hl d).1
    rw [hw] at this
    exact this
  · intro hmu hv
    rw [h2]
    have := newTaps_posterior hR hu0 hu1 hz f.filter w hl d mu hmu (by rw [Ne, energy_eq_zero]; push Not; exact hv) hs'
    rw [hw] at this
    exact this
  · intro m0 m2 H hH hd
    rw [h2]
    have := newTaps_nearer hR hu0 hu1 hz f.filter w hl d mu m0 m2 hs' H (by rw [hH, hw]) hd
    rw [hw] at this
    exact this
  · intro hv
    rw [h2, newTaps_zero hR hu0 hz _ _ _ _ ((energy_eq_zero _).mpr hv)]

/-- **C101** However long the filter runs: if the desired outputs are made by taps `H` from the inputs, rounding takes the taps of the filter away from `H` only slowly. -/
theorem C101_drift (SIZE : ℕ) (hS : 0 < SIZE) (hs : 8 * ((SIZE : ℝ) + 1) ^ 2 * u ≤ 1) (H : List ℝ) (hH : H.length = SIZE) (calls : List (V × V × V))
    (hf : ∀ hist x d mu, hist ++ [(x, d, mu)] <+: calls → 0 ≤ val mu ∧ val mu ≤ 2 ∧ dot H ((Spec.window SIZE 0 (hist.map Prod.fst ++ [x])).map val) = val d) :
    ∃ f es, run call (init SIZE) calls = .ok (f, es) ∧ √(distance (f.filter.map val) H) ≤ (3 * (1 + 3 * ((1 + u) ^ (2 * SIZE + 8) - 1)) ^ calls.length - 2) * len H := by
  obtain ⟨f, e, h⟩ := run_call SIZE calls _ _ (agrees_init (V := V) SIZE hS)
  refine ⟨f, _, e, ?_⟩
  rw [h.1]
  clear e h
  set c := 3 * ((1 + u) ^ (2 * SIZE + 8) - 1) with hc
  have hc0 : 0 ≤ c := by have : 0 ≤ (1 + u) ^ (2 * SIZE + 8) - 1 := sub_nonneg.mpr (one_le_pow₀ (by linarith)); positivity
  induction calls using List.reverseRecOn with
  | nil =>
    have : (List.map val (final (step (real V)) (List.replicate SIZE 0, List.replicate SIZE 0) []).2) = List.replicate SIZE 0 := by simp [final, hR.zero]
    rw [this, distance_zero SIZE H hH]
    simp only [List.length_nil, pow_zero, mul_one]
    norm_num
    exact le_of_eq rfl
  | append_singleton l a ih =>
    have ih := ih fun hist x d mu hp => hf hist x d mu (hp.trans (List.prefix_append _ _))
    obtain ⟨x, d, mu⟩ := a
    obtain ⟨m0, m2, hd⟩ := hf l x d mu (List.prefix_refl _)
    obtain ⟨l1, l2⟩ := final_lists SIZE hS l
    have hw : (Spec.window SIZE 0 (l.map Prod.fst ++ [x])).length = SIZE := Spec.window_length _ _ _
    have e1 : (final (step (real V)) (List.replicate SIZE 0, List.replicate SIZE 0) (l ++ [(x, d, mu)])).2 =
        newTaps (final (step (real V)) (List.replicate SIZE 0, List.replicate SIZE 0) l).2 (Spec.window SIZE 0 (l.map Prod.fst ++ [x])) d mu := by
      rw [final_append, Spec.window_append _ hS, ← l1]
      rfl
    rw [e1]
    set g := (final (step (real V)) (List.replicate SIZE 0, List.replicate SIZE 0) l).2
    have := newTaps_nearer hR hu0 hu1 hz g _ (by rw [l2, hw]) d mu m0 m2 (by rw [hw]; exact hs) H (by rw [hH, hw]) hd
    rw [hw, ← hc] at this
    have hlen := len_le (g.map val) H (by rw [List.length_map, l2, hH])
    have hD : 0 ≤ √(distance (g.map val) H) := Real.sqrt_nonneg _
    rw [List.length_append, List.length_singleton, pow_succ]
    set D := √(distance (g.map val) H)
    have t1 : c * (len H + len (g.map val)) ≤ c * (2 * len H + D) := mul_le_mul_of_nonneg_left (by linarith) hc0
    have t2 : (1 + c) * (D + 2 * len H) ≤ (1 + c) * (3 * (1 + c) ^ l.length * len H) := mul_le_mul_of_nonneg_left (by linarith) (by linarith)
    linarith

end

/-- In binary floating point the test for zero is exact. -/
theorem binary_zero (p : ℕ) [NeZero p] (a : Binary p) : (a == 0) = true ↔ (a.val : ℝ) = 0 := by
  rw [beq_iff_eq]
  constructor
  · rintro rfl
    exact Rat.cast_zero
  · intro h
    exact Binary.val_injective p (by exact_mod_cast h)

/-- Single precision: up to 1446 taps. -/
example (hist : List (Binary 24 × Binary 24 × Binary 24)) (x d mu : Binary 24) := C101_call (binary_roundedField 24) (by positivity) (by norm_num) (binary_zero 24) 1446 (by norm_num) (by norm_num) hist x d mu

/-- Calls that follow the taps 2, 3 (the newest input is weighted with 3). -/
example : ∃ f es, run call (init 2 : NLMS.Rounded (Binary 24)) [(1, 3, 1), (0, 2, 1), (1, 3, 1)] = .ok (f, es) ∧ √(distance (f.filter.map fun a => (a.val : ℝ)) [2, 3]) ≤ 3 * len [2, 3] := by
  have h1 : ((1 : Binary 24).val : ℝ) = 1 := (binary_roundedMul 24).one
  have h0 : ((0 : Binary 24).val : ℝ) = 0 := (binary_rounded 24).zero
  have h2 : ((2 : Binary 24).val : ℝ) = 2 := by exact_mod_cast (by decide +kernel : (2 : Binary 24).val = 2)
  have h3 : ((3 : Binary 24).val : ℝ) = 3 := by exact_mod_cast (by decide +kernel : (3 : Binary 24).val = 3)
  obtain ⟨f, es, e, h⟩ := C101_drift (binary_roundedField 24) (by positivity) (by norm_num) (binary_zero 24) 2 (by norm_num) (by norm_num) [2, 3] rfl [(1, 3, 1), (0, 2, 1), (1, 3, 1)] (by
    intro hist x d m hp
    rcases hist with _ | ⟨a, _ | ⟨b, _ | ⟨c, _ | ⟨d, t⟩⟩⟩⟩ <;> simp_all [List.prefix_iff_eq_take, dot, Spec.window, Spec.lastN])
  refine ⟨f, es, e, h.trans (mul_le_mul_of_nonneg_right ?_ (len_nonneg _))⟩
  norm_num

end NLMS.Rounded
end DSP
