import Verif.Model.Cordic
import Verif.Spec.Angle
import Verif.Lemmas.Rotation
import Verif.Lemmas.Digits
import Verif.Lemmas.Loops
import Verif.Props.Constants

/-!
# C41: the CORDIC arcus tangent
-/

namespace DSP.Cordic
open Complex Rotation

theorem sums : ∀ i ∈ List.range 15, constants.getD (i + 1) 0 * (Digits.pi + 1 / 10 ^ 76) ≤ Digits.arcSum ((1 / 2) ^ (i + 1)) (2 * 60) ∧
    Digits.arcSum ((1 / 2) ^ (i + 1)) (2 * 60 + 1) < (constants.getD (i + 1) 0 + 1 / 10 ^ 67) * (Digits.pi - 1 / 10 ^ 76) := by
  decide +kernel

/-- The printed angles are the exact ones cut off after the last digit. -/
theorem C41_constants (i : ℕ) (h : i < 16) : Const.Truncated ((constants.getD i 0 : ℚ) : ℝ) (Real.arctan ((1 / 2) ^ i) / Real.pi) (1 / 10 ^ 67) := by
  rcases Nat.eq_zero_or_pos i with rfl | hi
  · rw [pow_zero, Real.arctan_one, show constants.getD 0 0 = 1 / 4 by decide +kernel]
    rw [show Real.pi / 4 / Real.pi = 1 / 4 by field_simp]
    constructor <;> norm_num
  · obtain ⟨j, rfl⟩ : ∃ j, i = j + 1 := ⟨i - 1, by omega⟩
    obtain ⟨s1, s2⟩ := sums j (List.mem_range.mpr (by omega))
    have a := Digits.arctan_enclosed ((1 / 2) ^ (j + 1)) (by positivity) (pow_lt_one₀ (by norm_num) (by norm_num) (by omega)) 60
    push_cast at a
    have p := abs_le.mp Digits.pi_digits
    have s1' : ((constants.getD (j + 1) 0 * (Digits.pi + 1 / 10 ^ 76) : ℚ) : ℝ) ≤ ((Digits.arcSum ((1 / 2) ^ (j + 1)) (2 * 60) : ℚ) : ℝ) := by exact_mod_cast s1
    have s2' : ((Digits.arcSum ((1 / 2) ^ (j + 1)) (2 * 60 + 1) : ℚ) : ℝ) < (((constants.getD (j + 1) 0 + 1 / 10 ^ 67) * (Digits.pi - 1 / 10 ^ 76) : ℚ) : ℝ) := by exact_mod_cast s2
    have c0 : (0 : ℝ) ≤ ((constants.getD (j + 1) 0 : ℚ) : ℝ) := by
      have : ∀ i ∈ List.range 15, 0 ≤ constants.getD (i + 1) 0 := by decide +kernel
      exact_mod_cast this j (List.mem_range.mpr (by omega))
    push_cast at s1' s2'
    generalize ((constants.getD (j + 1) 0 : ℚ) : ℝ) = c at *
    generalize ((Digits.pi : ℚ) : ℝ) = q at *
    constructor
    · rw [le_div_iff₀ Real.pi_pos]
      have := mul_le_mul_of_nonneg_left (show Real.pi ≤ q + 1 / 10 ^ 76 by linarith [p.2]) c0
      linarith [a.1]
    · rw [div_lt_iff₀ Real.pi_pos]
      have := mul_le_mul_of_nonneg_left (show q - 1 / 10 ^ 76 ≤ Real.pi by linarith [p.1]) (show 0 ≤ c + 1 / 10 ^ 67 by positivity)
      linarith [a.2]

theorem lut_one : lut 1 = [64, 38, 20, 10, 5, 3, 1, 1, 0, 0, 0, 0, 0, 0, 0, 0] := by decide +kernel
theorem lut_two : lut 2 = [32768, 19344, 10221, 5188, 2604, 1303, 652, 326, 163, 81, 41, 20, 10, 5, 3, 1] := by decide +kernel

/-- What a step computes. -/
def next (L : List ℤ) (s : State) (i : ℕ) : State :=
  if s.imag < 0 then ⟨s.angle - L.getD i 0, s.real - s.imag / 2 ^ i, s.imag + s.real / 2 ^ i⟩
  else ⟨s.angle + L.getD i 0, s.real + s.imag / 2 ^ i, s.imag - s.real / 2 ^ i⟩

/-- Bound of the sum of the absolute values before step `i`. -/
def bound : ℕ → ℚ
  | 0 => 2 ^ 17
  | i + 1 => bound i + bound i / 2 ^ i + 2

theorem bound_le : ∀ i ∈ List.range 17, bound i ≤ 10 ^ 6 := by decide +kernel

theorem shift_abs (a : ℤ) (i : ℕ) : |((a / 2 ^ i : ℤ) : ℚ)| ≤ |(a : ℚ)| / 2 ^ i + 1 := by
  have p : (0 : ℚ) < 2 ^ i := by positivity
  have h1 := Int.emod_nonneg a (show (2 ^ i : ℤ) ≠ 0 by positivity)
  have h2 := Int.emod_lt_of_pos a (show (0 : ℤ) < 2 ^ i by positivity)
  have e : ((a / 2 ^ i : ℤ) : ℚ) = (a - ((a % 2 ^ i : ℤ) : ℚ)) / 2 ^ i := by
    have := Int.emod_add_mul_ediv a (2 ^ i)
    have : ((a % 2 ^ i : ℤ) : ℚ) + 2 ^ i * ((a / 2 ^ i : ℤ) : ℚ) = a := by exact_mod_cast this
    rw [← this]
    field_simp
    ring
  have q1 : (0 : ℚ) ≤ ((a % 2 ^ i : ℤ) : ℚ) := by exact_mod_cast h1
  have q2 : ((a % 2 ^ i : ℤ) : ℚ) < 2 ^ i := by exact_mod_cast h2
  rw [e, abs_div, abs_of_pos p, div_add_one p.ne', div_le_div_iff_of_pos_right p]
  refine (abs_sub _ _).trans ?_
  rw [abs_of_nonneg q1]
  linarith

theorem int32_ok (v : ℤ) (h : |(v : ℚ)| ≤ 2 * 10 ^ 9) : int32 v = .ok v := by
  have h' : |v| ≤ 2 * 10 ^ 9 := by exact_mod_cast h
  have := abs_le.mp h'
  rw [int32, if_pos (by omega)]

theorem lut_bound (BYTES : ℕ) (hB : BYTES = 1 ∨ BYTES = 2) (i : ℕ) (h : i < 16) : rd (lut BYTES) i = .ok ((lut BYTES).getD i 0) ∧ |(((lut BYTES).getD i 0 : ℤ) : ℚ)| ≤ 32768 := by
  have l : ∀ i ∈ List.range 16, (0 ≤ (lut 1).getD i 0 ∧ (lut 1).getD i 0 ≤ 32768) ∧ (0 ≤ (lut 2).getD i 0 ∧ (lut 2).getD i 0 ≤ 32768) := by decide +kernel
  have l' := l i (List.mem_range.mpr h)
  constructor
  · have len : (lut BYTES).length = 16 := rfl
    rw [rd_ok (i := (i : ℤ)) (by omega) (by omega)]
    simp only [Int.toNat_natCast, List.getD_eq_getElem?_getD]
    rw [List.getElem?_eq_getElem (by omega), Option.getD_some]
  · rcases hB with rfl | rfl
    · have : |(lut 1).getD i 0| ≤ 32768 := abs_le.mpr ⟨by omega, by omega⟩
      exact_mod_cast this
    · have : |(lut 2).getD i 0| ≤ 32768 := abs_le.mpr ⟨by omega, by omega⟩
      exact_mod_cast this

/-- Bounds on the variables before step `i`. -/
def Small (s : State) (i : ℕ) : Prop := |(s.angle : ℚ)| ≤ 32768 * i ∧ |(s.real : ℚ)| + |(s.imag : ℚ)| ≤ bound i

theorem next_small (L : List ℤ) (s : State) (i : ℕ) (hL : |((L.getD i 0 : ℤ) : ℚ)| ≤ 32768) (h : Small s i) : Small (next L s i) (i + 1) := by
  obtain ⟨h1, h2⟩ := h
  have r := shift_abs s.real i
  have m := shift_abs s.imag i
  have c : |(s.real : ℚ)| / 2 ^ i + |(s.imag : ℚ)| / 2 ^ i ≤ bound i / 2 ^ i := by
    rw [← add_div]
    exact div_le_div_of_nonneg_right h2 (by positivity)
  have push : ∀ a b : ℤ, |((a - b : ℤ) : ℚ)| ≤ |(a : ℚ)| + |(b : ℚ)| ∧ |((a + b : ℤ) : ℚ)| ≤ |(a : ℚ)| + |(b : ℚ)| := fun a b => by
    push_cast
    exact ⟨abs_sub _ _, abs_add_le _ _⟩
  unfold next Small
  rw [bound]
  push_cast [Nat.cast_add, Nat.cast_one]
  split
  · have a := (push s.angle (L.getD i 0)).1
    have b := (push s.real (s.imag / 2 ^ i)).1
    have d := (push s.imag (s.real / 2 ^ i)).2
    push_cast at a b d
    constructor <;> simp only <;> push_cast <;> linarith
  · have a := (push s.angle (L.getD i 0)).2
    have b := (push s.real (s.imag / 2 ^ i)).2
    have d := (push s.imag (s.real / 2 ^ i)).1
    push_cast at a b d
    constructor <;> simp only <;> push_cast <;> linarith

theorem step_ok (BYTES : ℕ) (hB : BYTES = 1 ∨ BYTES = 2) (s : State) (i : ℕ) (hi : i < 16) (h : Small s i) : step BYTES s i = .ok (next (lut BYTES) s i) := by
  obtain ⟨r, l⟩ := lut_bound BYTES hB i hi
  have n := next_small (lut BYTES) s i l h
  have b := bound_le (i + 1) (List.mem_range.mpr (by omega))
  have hi' : (i : ℚ) + 1 ≤ 16 := by exact_mod_cast hi
  obtain ⟨n1, n2⟩ := n
  push_cast at n1
  have a1 : |((next (lut BYTES) s i).angle : ℚ)| ≤ 2 * 10 ^ 9 := by linarith
  have a2 : |((next (lut BYTES) s i).real : ℚ)| ≤ 2 * 10 ^ 9 := by linarith [abs_nonneg ((next (lut BYTES) s i).imag : ℚ)]
  have a3 : |((next (lut BYTES) s i).imag : ℚ)| ≤ 2 * 10 ^ 9 := by linarith [abs_nonneg ((next (lut BYTES) s i).real : ℚ)]
  have b1 := int32_ok _ a1
  have b2 := int32_ok _ a2
  have b3 := int32_ok _ a3
  unfold next at b1 b2 b3 ⊢
  unfold step
  rw [r]
  simp only [bind, Except.bind, pure, Except.pure]
  split
  · rename_i c
    rw [if_pos c] at b1 b2 b3
    simp only at b1 b2 b3
    rw [b1, b2, b3]
  · rename_i c
    rw [if_neg c] at b1 b2 b3
    simp only at b1 b2 b3
    rw [b1, b2, b3]

theorem loop_ok (BYTES : ℕ) (hB : BYTES = 1 ∨ BYTES = 2) (s : State) (h : Small s 0) (k : ℕ) (hk : k ≤ 16) :
    (List.range k).foldlM (step BYTES) s = .ok ((List.range k).foldl (next (lut BYTES)) s) ∧ Small ((List.range k).foldl (next (lut BYTES)) s) k := by
  induction k with
  | zero => exact ⟨rfl, h⟩
  | succ k ih =>
    obtain ⟨i1, i2⟩ := ih (by omega)
    rw [List.range_succ, List.foldlM_append, List.foldl_append, i1]
    simp only [List.foldlM_cons, List.foldlM_nil, List.foldl_cons, List.foldl_nil, bind, Except.bind, pure, Except.pure]
    rw [step_ok BYTES hB _ k (by omega) i2]
    exact ⟨rfl, next_small _ _ _ (lut_bound BYTES hB k (by omega)).2 i2⟩

/-- The values of `TYPE`. -/
def InType (BYTES : ℕ) (v : ℤ) : Prop := -2 ^ (8 * BYTES - 1) ≤ v ∧ v < 2 ^ (8 * BYTES - 1)

/-- The angle of the loop. -/
def loopAngle (BYTES : ℕ) (y x : ℤ) : ℤ := ((List.range (bits BYTES)).foldl (next (lut BYTES)) ⟨0, if x < 0 then -(x * 2) else x * 2, y * 2⟩).angle

theorem atan2_eq (BYTES : ℕ) (hB : BYTES = 1 ∨ BYTES = 2) (y x : ℤ) (hy : InType BYTES y) (hx : InType BYTES x) :
    atan2 BYTES y x = .ok (((if x < 0 then fac BYTES - loopAngle BYTES y x else loopAngle BYTES y x) / 2 ^ BYTES).bmod (2 ^ bits BYTES)) := by
  have ty : ∀ v, InType BYTES v → -32768 ≤ v ∧ v ≤ 32768 := fun v hv => by
    unfold InType at hv
    rcases hB with rfl | rfl <;> norm_num at hv <;> omega
  have hy' := ty y hy
  have hx' := ty x hx
  have r : int32 (x * 2) = .ok (x * 2) := by rw [int32, if_pos (by omega)]
  have m : int32 (y * 2) = .ok (y * 2) := by rw [int32, if_pos (by omega)]
  have n : int32 (-(x * 2)) = .ok (-(x * 2)) := by rw [int32, if_pos (by omega)]
  have n' : (if x < 0 then int32 (-(x * 2)) else pure (x * 2) : M ℤ) = .ok (if x < 0 then -(x * 2) else x * 2) := by split <;> first | exact n | rfl
  have k16 : bits BYTES ≤ 16 := by rcases hB with rfl | rfl <;> decide
  have small : Small ⟨0, if x < 0 then -(x * 2) else x * 2, y * 2⟩ 0 := by
    have a : |(if x < 0 then -(x * 2) else x * 2)| + |y * 2| ≤ 2 ^ 17 := by
      have h1 : |y * 2| ≤ 2 ^ 16 := abs_le.mpr ⟨by omega, by omega⟩
      have h2 : |(if x < 0 then -(x * 2) else x * 2)| ≤ 2 ^ 16 := by
        split <;> exact abs_le.mpr ⟨by omega, by omega⟩
      omega
    refine ⟨by simp, ?_⟩
    show |(((if x < 0 then -(x * 2) else x * 2 : ℤ)) : ℚ)| + |((y * 2 : ℤ) : ℚ)| ≤ 2 ^ 17
    exact_mod_cast a
  obtain ⟨l1, l2⟩ := loop_ok BYTES hB _ small (bits BYTES) k16
  have ang : |((loopAngle BYTES y x : ℤ) : ℚ)| ≤ 2 ^ 19 := by
    have : ((bits BYTES : ℕ) : ℚ) ≤ 16 := by exact_mod_cast k16
    exact l2.1.trans (by linarith)
  have ang' : |loopAngle BYTES y x| ≤ 2 ^ 19 := by exact_mod_cast ang
  have ang'' := abs_le.mp ang'
  have f : 0 ≤ fac BYTES ∧ fac BYTES ≤ 2 ^ 17 := by rcases hB with rfl | rfl <;> decide
  have e : (if x < 0 then int32 (fac BYTES - loopAngle BYTES y x) else pure (loopAngle BYTES y x) : M ℤ) =
      .ok (if x < 0 then fac BYTES - loopAngle BYTES y x else loopAngle BYTES y x) := by
    split
    · rw [int32, if_pos (by omega)]
    · rfl
  unfold atan2
  rw [r, m]
  simp only [bind, Except.bind, pure, Except.pure] at *
  rw [n']
  simp only
  rw [l1]
  simp only
  exact (congrArg (fun r : M ℤ => Except.bind r fun angle => Except.ok ((angle / 2 ^ BYTES).bmod (2 ^ bits BYTES))) e)

/-- No operation on integers overflows, no access to the table is out of bounds and the result is a value of the type, whatever the operands. -/
theorem C41_defined (BYTES : ℕ) (hB : BYTES = 1 ∨ BYTES = 2) (y x : ℤ) (hy : InType BYTES y) (hx : InType BYTES x) : ∃ v, atan2 BYTES y x = .ok v ∧ InType BYTES v := by
  refine ⟨_, atan2_eq BYTES hB y x hy hx, ?_⟩
  unfold InType
  generalize (if x < 0 then fac BYTES - loopAngle BYTES y x else loopAngle BYTES y x) / 2 ^ BYTES = a
  rcases hB with rfl | rfl
  · have h1 := Int.le_bmod (x := a) (m := 2 ^ bits 1) (by decide)
    have h2 := Int.bmod_lt (x := a) (m := 2 ^ bits 1) (by decide)
    norm_num [bits] at h1 h2 ⊢
    omega
  · have h1 := Int.le_bmod (x := a) (m := 2 ^ bits 2) (by decide)
    have h2 := Int.bmod_lt (x := a) (m := 2 ^ bits 2) (by decide)
    norm_num [bits] at h1 h2 ⊢
    omega

/-- The vector being turned. -/
noncomputable def vec (s : State) : ℂ := ⟨s.real, s.imag⟩

theorem shift_real (a : ℤ) (i : ℕ) : ∃ f : ℝ, 0 ≤ f ∧ f ≤ 1 ∧ (i = 0 → f = 0) ∧ ((a / 2 ^ i : ℤ) : ℝ) = (1 / 2) ^ i * a - f := by
  have p : (0 : ℝ) < 2 ^ i := by positivity
  have h1 := Int.emod_nonneg a (show (2 ^ i : ℤ) ≠ 0 by positivity)
  have h2 := Int.emod_lt_of_pos a (show (0 : ℤ) < 2 ^ i by positivity)
  have q1 : (0 : ℝ) ≤ ((a % 2 ^ i : ℤ) : ℝ) := by exact_mod_cast h1
  have q2 : ((a % 2 ^ i : ℤ) : ℝ) < 2 ^ i := by exact_mod_cast h2
  refine ⟨((a % 2 ^ i : ℤ) : ℝ) / 2 ^ i, by positivity, by rw [div_le_one p]; exact q2.le, fun h => by subst h; simp, ?_⟩
  have := Int.emod_add_mul_ediv a (2 ^ i)
  have : ((a % 2 ^ i : ℤ) : ℝ) + 2 ^ i * ((a / 2 ^ i : ℤ) : ℝ) = a := by exact_mod_cast this
  rw [← this, one_div, inv_pow]
  field_simp
  ring

/-- A step turns the vector and rounds it. -/
theorem vec_next (L : List ℤ) (s : State) (i : ℕ) : ∃ e : ℂ, ‖e‖ ≤ 1.4143 ∧ (i = 0 → e = 0) ∧ vec (next L s i) = vec s * (1 - dir (vec s) * ((1 / 2 : ℝ) ^ i : ℝ) * I) + e ∧
    ((next L s i).angle : ℝ) = s.angle + dir (vec s) * (L.getD i 0 : ℤ) := by
  obtain ⟨f, f0, f1, fz, hf⟩ := shift_real s.imag i
  obtain ⟨g, g0, g1, gz, hg⟩ := shift_real s.real i
  have n : ∀ a b : ℝ, |a| ≤ 1 → |b| ≤ 1 → ‖(⟨a, b⟩ : ℂ)‖ ≤ 1.4143 := fun a b ha hb => by
    rw [Complex.norm_def, Real.sqrt_le_left (by norm_num), normSq_mk]
    have := abs_le.mp ha
    have := abs_le.mp hb
    nlinarith
  have im : (vec s).im < 0 ↔ s.imag < 0 := by simp [vec]
  unfold next
  by_cases c : s.imag < 0
  · have d : dir (vec s) = -1 := by rw [dir, if_pos (im.mpr c)]
    rw [if_pos c, d]
    refine ⟨⟨f, -g⟩, n _ _ (by rw [abs_of_nonneg f0]; exact f1) (by rw [abs_neg, abs_of_nonneg g0]; exact g1), fun h => by rw [fz h, gz h]; exact Complex.ext (by simp) (by simp), ?_, ?_⟩
    · have hf' : ((s.imag / 2 ^ i : ℤ) : ℝ) = (1 / 2) ^ i * s.imag - f := hf
      have hg' : ((s.real / 2 ^ i : ℤ) : ℝ) = (1 / 2) ^ i * s.real - g := hg
      apply Complex.ext
      · simp only [vec, Int.cast_sub, hf', add_re, mul_re, sub_re, one_re, sub_im, one_im, I_re, I_im, ofReal_re, ofReal_im, neg_re, neg_im, mul_im, ofReal_neg, ofReal_one]
        ring
      · simp only [vec, Int.cast_add, hg', add_im, mul_re, sub_re, one_re, sub_im, one_im, I_re, I_im, ofReal_re, ofReal_im, neg_re, neg_im, mul_im, ofReal_neg, ofReal_one]
        ring
    · push_cast
      ring
  · have d : dir (vec s) = 1 := by rw [dir, if_neg (by rw [im]; exact c)]
    rw [if_neg c, d]
    refine ⟨⟨-f, g⟩, n _ _ (by rw [abs_neg, abs_of_nonneg f0]; exact f1) (by rw [abs_of_nonneg g0]; exact g1), fun h => by rw [fz h, gz h]; exact Complex.ext (by simp) (by simp), ?_, ?_⟩
    · have hf' : ((s.imag / 2 ^ i : ℤ) : ℝ) = (1 / 2) ^ i * s.imag - f := hf
      have hg' : ((s.real / 2 ^ i : ℤ) : ℝ) = (1 / 2) ^ i * s.real - g := hg
      apply Complex.ext
      · simp only [vec, Int.cast_add, hf', add_re, mul_re, sub_re, one_re, sub_im, one_im, I_re, I_im, ofReal_re, ofReal_im, mul_im, ofReal_one]
        ring
      · simp only [vec, Int.cast_sub, hg', add_im, mul_re, sub_re, one_re, sub_im, one_im, I_re, I_im, ofReal_re, ofReal_im, mul_im, ofReal_one]
        ring
    · push_cast
      ring

/-- What rounding the table costs. -/
noncomputable def tableError (L : List ℤ) (u : ℝ) (k : ℕ) : ℝ := ∑ i ∈ Finset.range k, |(L.getD i 0 : ℤ) * u - Real.arctan ((1 / 2) ^ i)|

/-- After `k` steps. -/
theorem loop_angle (L : List ℤ) (u : ℝ) (n : ℕ) (hn : n ≤ 16) (s : State) (hs : s.angle = 0) (hr : 0 ≤ s.real) (hR : 128 ≤ ‖vec s‖) (k : ℕ) (h1 : 1 ≤ k) (hk : k ≤ n) :
    ∃ A : ℝ, |(((List.range k).foldl (next L) s).angle : ℝ) * u - A| ≤ tableError L u k ∧
      |arg (vec s) - A - arg (vec ((List.range k).foldl (next L) s))| ≤ (k - 1) * (1.18 / ‖vec s‖) ∧
      |arg (vec ((List.range k).foldl (next L) s))| ≤ rest n k + (k - 1) * (1.18 / ‖vec s‖) ∧
      1.414 * ‖vec s‖ - (k - 1) * 1.4143 ≤ ‖vec ((List.range k).foldl (next L) s)‖ := by
  have table : ∀ (d x A l t : ℝ) (T : ℝ), |d| = 1 → |x * u - A| ≤ T → |(x + d * l) * u - (A + d * t)| ≤ T + |l * u - t| := fun d x A l t T hd h => by
    have e : (x + d * l) * u - (A + d * t) = (x * u - A) + d * (l * u - t) := by ring
    rw [e]
    refine (abs_add_le _ _).trans ?_
    rw [abs_mul, hd, one_mul]
    linarith
  have dir1 : ∀ z, |dir z| = 1 := fun z => by unfold dir; split <;> simp
  have z0 : vec s ≠ 0 := norm_pos_iff.mp (by linarith)
  set R := ‖vec s‖ with hRdef
  have hε : 0 ≤ 1.18 / R := by positivity
  have hε2 : 1.18 / R ≤ 0.01 := by rw [div_le_iff₀ (by linarith)]; linarith
  induction k with
  | zero => omega
  | succ k ih =>
    rw [List.range_succ, List.foldl_append, List.foldl_cons, List.foldl_nil]
    rcases Nat.eq_zero_or_pos k with rfl | hk0
    · simp only [List.range_zero, List.foldl_nil]
      obtain ⟨e, -, e0, v, a⟩ := vec_next L s 0
      rw [e0 rfl, add_zero] at v
      have ha : |arg (vec s)| ≤ Real.pi / 2 := by
        rw [abs_arg_le_pi_div_two_iff]
        simp only [vec]
        exact_mod_cast hr
      obtain ⟨r1, r2⟩ := rotate (vec s) z0 ha ((1 / 2) ^ 0) (by positivity)
      have nt := norm_turn (vec s) ((1 / 2) ^ 0)
      rw [← v] at r1 nt
      refine ⟨dir (vec s) * Real.arctan ((1 / 2) ^ 0), ?_, ?_, ?_, ?_⟩
      · rw [a, hs, tableError, Finset.sum_range_succ, Finset.sum_range_zero]
        have := table (dir (vec s)) 0 0 (L.getD 0 0 : ℤ) (Real.arctan ((1 / 2) ^ 0)) 0 (dir1 _) (by simp)
        simpa using this
      · rw [r1]
        simp
      · rw [r1, r2, pow_zero, Real.arctan_one]
        have := le_rest n 0 (by omega)
        rw [pow_zero, Real.arctan_one] at this
        have l : |(|arg (vec s)| - Real.pi / 4)| ≤ Real.pi / 4 := abs_le.mpr ⟨by linarith [abs_nonneg (arg (vec s))], by linarith⟩
        simp
        linarith
      · rw [nt]
        have : 1.414 ≤ Real.sqrt (1 + ((1 / 2 : ℝ) ^ 0) ^ 2) := Real.le_sqrt_of_sq_le (by norm_num)
        simp only [Nat.cast_one, zero_add, sub_self, zero_mul, sub_zero]
        rw [mul_comm, ← hRdef]
        exact mul_le_mul_of_nonneg_left this (by linarith)
    · obtain ⟨A, i1, i2, i3, i4⟩ := ih hk0 (by omega)
      generalize (List.range k).foldl (next L) s = q at *
      obtain ⟨e, he, -, v, a⟩ := vec_next L q k
      have kc : (1 : ℝ) ≤ k := by exact_mod_cast hk0
      have kc' : (k : ℝ) + 1 ≤ 16 := by exact_mod_cast (show k + 1 ≤ 16 by omega)
      have kε : (k - 1) * (1.18 / R) ≤ 0.15 := by nlinarith
      have rk : rest n k ≤ 1 := by
        refine (rest_le n k hk0 (by omega)).trans ?_
        have : ((1 : ℝ) / 2) ^ k ≤ (1 / 2) ^ 1 := pow_le_pow_of_le_one (by norm_num) (by norm_num) hk0
        linarith
      obtain ⟨s1, s2, s3⟩ := Rotation.step n k (by omega) (vec q) e (1.225 * R) ((k - 1) * (1.18 / R)) (1.18 / R) (by linarith) (by nlinarith) he
        (mul_nonneg (by linarith) hε) i3 (by linarith [Real.pi_gt_three]) (by rw [div_le_div_iff₀ (by linarith) (by linarith)]; nlinarith) (by linarith)
      rw [← v] at s1 s2 s3
      refine ⟨A + dir (vec q) * Real.arctan ((1 / 2) ^ k), ?_, ?_, ?_, ?_⟩
      · rw [a, tableError, Finset.sum_range_succ]
        exact table _ _ _ _ _ _ (dir1 _) i1
      · push_cast
        have := abs_sub_le (arg (vec s) - (A + dir (vec q) * Real.arctan ((1 / 2) ^ k))) (arg (vec q) - dir (vec q) * Real.arctan ((1 / 2) ^ k)) (arg (vec (next L q k)))
        rw [show arg (vec s) - (A + dir (vec q) * Real.arctan ((1 / 2) ^ k)) - (arg (vec q) - dir (vec q) * Real.arctan ((1 / 2) ^ k)) = arg (vec s) - A - arg (vec q) by ring,
          abs_sub_comm (arg (vec q) - dir (vec q) * Real.arctan ((1 / 2) ^ k))] at this
        linarith
      · push_cast
        linarith
      · push_cast
        linarith

/-- The angle the loop finds. -/
theorem loop_error (L : List ℤ) (u : ℝ) (n : ℕ) (h1 : 1 ≤ n) (hn : n ≤ 16) (s : State) (hs : s.angle = 0) (hr : 0 ≤ s.real) (hR : 128 ≤ ‖vec s‖) :
    |(((List.range n).foldl (next L) s).angle : ℝ) * u - arg (vec s)| ≤ tableError L u n + (1 / 2) ^ (n - 1) + 2 * (n - 1) * (1.18 / ‖vec s‖) := by
  obtain ⟨A, i1, i2, i3, -⟩ := loop_angle L u n hn s hs hr hR n h1 le_rfl
  have r : rest n n ≤ (1 / 2) ^ (n - 1) := by
    refine (rest_le n n h1 le_rfl).trans (le_of_eq ?_)
    obtain ⟨m, rfl⟩ : ∃ m, n = m + 1 := ⟨n - 1, by omega⟩
    rw [pow_succ, Nat.add_sub_cancel]
    ring
  generalize (List.range n).foldl (next L) s = q at *
  have t1 := abs_sub_le ((q.angle : ℝ) * u) A (arg (vec s))
  have t2 := abs_sub_le (arg (vec s) - A) (arg (vec q)) 0
  rw [sub_zero, sub_zero, abs_sub_comm (arg (vec s)) A] at t2
  linarith

/-- The sum of the errors of the table in its own units. -/
def tableSum (BYTES n : ℕ) : ℚ := ((List.range n).map fun i => |((lut BYTES).getD i 0 : ℚ) - fac BYTES * constants.getD i 0|).sum

theorem tableError_le (BYTES n : ℕ) (hB : 0 < BYTES) (hn : n ≤ 16) : tableError (lut BYTES) (Real.pi / fac BYTES) n ≤ Real.pi / fac BYTES * (tableSum BYTES n + n * (fac BYTES / 10 ^ 67)) := by
  have f : (0 : ℝ) < fac BYTES := by
    have : 0 < fac BYTES := by unfold fac; positivity
    exact_mod_cast this
  induction n with
  | zero => simp [tableError, tableSum]
  | succ n ih =>
    have ih := ih (by omega)
    rw [tableError, Finset.sum_range_succ] at *
    have ts : tableSum BYTES (n + 1) = tableSum BYTES n + |((lut BYTES).getD n 0 : ℚ) - fac BYTES * constants.getD n 0| := by
      simp [tableSum, List.range_succ]
    rw [ts]
    push_cast
    have t := C41_constants n (by omega)
    have hx : Real.arctan ((1 / 2) ^ n) = Real.arctan ((1 / 2) ^ n) / Real.pi * Real.pi := by field_simp
    have key : |(((lut BYTES).getD n 0 : ℤ) : ℝ) * (Real.pi / fac BYTES) - Real.arctan ((1 / 2) ^ n)| ≤
        Real.pi / fac BYTES * (|(((lut BYTES).getD n 0 : ℤ) : ℝ) - fac BYTES * ((constants.getD n 0 : ℚ) : ℝ)| + fac BYTES / 10 ^ 67) := by
      generalize Real.arctan ((1 / 2) ^ n) = a at *
      generalize (((lut BYTES).getD n 0 : ℤ) : ℝ) = l at *
      generalize ((constants.getD n 0 : ℚ) : ℝ) = c at *
      have e : l * (Real.pi / fac BYTES) - a = Real.pi / fac BYTES * ((l - fac BYTES * c) + fac BYTES * (c - a / Real.pi)) := by
        field_simp
        ring
      rw [e, abs_mul, abs_of_pos (div_pos Real.pi_pos f)]
      refine mul_le_mul_of_nonneg_left ((abs_add_le _ _).trans ?_) (div_pos Real.pi_pos f).le
      rw [abs_mul, abs_of_pos f]
      have : |c - a / Real.pi| ≤ 1 / 10 ^ 67 := abs_le.mpr ⟨by linarith [t.2], by linarith [t.1, show (0 : ℝ) < 1 / 10 ^ 67 by norm_num]⟩
      have := mul_le_mul_of_nonneg_left this f.le
      rw [mul_one_div] at this
      linarith
    have e : Real.pi / (fac BYTES : ℝ) * ((tableSum BYTES n : ℝ) + |(((lut BYTES).getD n 0 : ℤ) : ℝ) - fac BYTES * ((constants.getD n 0 : ℚ) : ℝ)| + ((n : ℝ) + 1) * (fac BYTES / 10 ^ 67)) =
        Real.pi / fac BYTES * (tableSum BYTES n + n * (fac BYTES / 10 ^ 67)) +
        Real.pi / fac BYTES * (|(((lut BYTES).getD n 0 : ℤ) : ℝ) - fac BYTES * ((constants.getD n 0 : ℚ) : ℝ)| + fac BYTES / 10 ^ 67) := by ring
    rw [e]
    exact add_le_add ih key

theorem tableSum_le : tableSum 1 8 + 8 * (fac 1 / 10 ^ 67) ≤ 1.58 ∧ tableSum 2 16 + 16 * (fac 2 / 10 ^ 67) ≤ 3.43 := by decide +kernel

open Spec in
/-- Mirroring at the imaginary axis. -/
theorem mirror (τ φ : ℝ) (z : ℂ) (hz : z ≠ 0) (h : |φ - arg (⟨-z.re, z.im⟩ : ℂ)| ≤ τ) : AnglesWithin τ (arg z) (Real.pi - φ) := by
  have e : (⟨-z.re, z.im⟩ : ℂ) = -(starRingEnd ℂ) z := Complex.ext (by simp) (by simp)
  rw [e] at h
  have a : (arg (-(starRingEnd ℂ) z) : Real.Angle) = ((Real.pi - arg z : ℝ) : Real.Angle) := by
    rw [arg_neg_coe_angle (by simpa using hz), arg_conj_coe_angle, Real.Angle.coe_sub, sub_eq_add_neg, add_comm]
  obtain ⟨k, hk⟩ := Real.Angle.angle_eq_iff_two_pi_dvd_sub.mp a
  refine ⟨k, ?_⟩
  rw [show Real.pi - φ - arg z + 2 * Real.pi * k = -(φ - arg (-(starRingEnd ℂ) z)) by linear_combination -hk, abs_neg]
  exact h

open Spec in
theorem atan2_error (BYTES : ℕ) (hB : BYTES = 1 ∨ BYTES = 2) (y x : ℤ) (hy : InType BYTES y) (hx : InType BYTES x) (hr : 64 ^ 2 ≤ x ^ 2 + y ^ 2) :
    ∃ v, atan2 BYTES y x = .ok v ∧ InType BYTES v ∧ AnglesWithin (tableError (lut BYTES) (Real.pi / fac BYTES) (bits BYTES) + (1 / 2) ^ (bits BYTES - 1) +
      2 * (bits BYTES - 1) * (0.59 / Real.sqrt (x ^ 2 + y ^ 2)) + Real.pi / 2 ^ (bits BYTES - 1)) (arg ⟨x, y⟩) (v * (Real.pi / 2 ^ (bits BYTES - 1))) := by
  obtain ⟨v, h1, h2⟩ := C41_defined BYTES hB y x hy hx
  refine ⟨v, h1, h2, ?_⟩
  rw [atan2_eq BYTES hB y x hy hx] at h1
  have hv := Except.ok.inj h1
  set s : State := ⟨0, if x < 0 then -(x * 2) else x * 2, y * 2⟩ with hs
  have rc : (64 : ℝ) ^ 2 ≤ (x : ℝ) ^ 2 + (y : ℝ) ^ 2 := by exact_mod_cast hr
  have nr : ‖vec s‖ = 2 * Real.sqrt ((x : ℝ) ^ 2 + (y : ℝ) ^ 2) := by
    have e : (2 : ℝ) = Real.sqrt (2 ^ 2) := by rw [Real.sqrt_sq]; norm_num
    rw [e, ← Real.sqrt_mul (by norm_num), Complex.norm_def]
    congr 1
    rw [vec, normSq_mk, hs]
    simp only
    split <;> push_cast <;> ring
  have sq : 64 ≤ Real.sqrt ((x : ℝ) ^ 2 + (y : ℝ) ^ 2) := Real.le_sqrt_of_sq_le rc
  have le := loop_error (lut BYTES) (Real.pi / fac BYTES) (bits BYTES) (by rcases hB with rfl | rfl <;> decide) (by rcases hB with rfl | rfl <;> decide) s rfl
    (by rw [hs]; simp only; split <;> omega) (by rw [nr]; linarith)
  have la : ((List.range (bits BYTES)).foldl (next (lut BYTES)) s).angle = loopAngle BYTES y x := rfl
  rw [la, nr, show (1.18 : ℝ) / (2 * Real.sqrt ((x : ℝ) ^ 2 + (y : ℝ) ^ 2)) = 0.59 / Real.sqrt ((x : ℝ) ^ 2 + (y : ℝ) ^ 2) by field_simp; norm_num] at le
  have F : (fac BYTES : ℝ) = 2 ^ BYTES * 2 ^ (bits BYTES - 1) := by rcases hB with rfl | rfl <;> norm_num [fac, bits]
  have B2 : ((2 ^ bits BYTES : ℕ) : ℝ) = 2 * 2 ^ (bits BYTES - 1) := by rcases hB with rfl | rfl <;> norm_num [bits]
  have P : (0 : ℝ) < 2 ^ (bits BYTES - 1) := by positivity
  have Q : (0 : ℝ) < 2 ^ BYTES := by positivity
  generalize hτ : tableError (lut BYTES) (Real.pi / fac BYTES) (bits BYTES) + (1 / 2) ^ (bits BYTES - 1) + 2 * ((bits BYTES : ℝ) - 1) * (0.59 / Real.sqrt ((x : ℝ) ^ 2 + (y : ℝ) ^ 2)) = τ at le ⊢
  have mid : AnglesWithin τ (arg ⟨x, y⟩) (((if x < 0 then fac BYTES - loopAngle BYTES y x else loopAngle BYTES y x : ℤ) : ℝ) * (Real.pi / fac BYTES)) := by
    by_cases c : x < 0
    · rw [if_pos c]
      have va : arg (vec s) = arg (⟨-(x : ℝ), y⟩ : ℂ) := by
        have : vec s = ((2 : ℝ) : ℂ) * ⟨-(x : ℝ), y⟩ := by
          rw [hs, vec]
          simp only [if_pos c]
          apply Complex.ext <;> simp <;> ring
        rw [this, arg_real_mul _ (by norm_num)]
      rw [va] at le
      have z0 : (⟨x, y⟩ : ℂ) ≠ 0 := fun h => by
        have := congrArg re h
        simp at this
        omega
      have := mirror τ _ ⟨x, y⟩ z0 le
      have e : ((fac BYTES - loopAngle BYTES y x : ℤ) : ℝ) * (Real.pi / fac BYTES) = Real.pi - loopAngle BYTES y x * (Real.pi / fac BYTES) := by
        have : (fac BYTES : ℝ) ≠ 0 := by rw [F]; positivity
        push_cast
        field_simp
      rw [e]
      exact this
    · rw [if_neg c]
      have va : arg (vec s) = arg (⟨x, y⟩ : ℂ) := by
        have : vec s = ((2 : ℝ) : ℂ) * ⟨x, y⟩ := by
          rw [hs, vec]
          simp only [if_neg c]
          apply Complex.ext <;> simp <;> ring
        rw [this, arg_real_mul _ (by norm_num)]
      rw [va] at le
      exact ⟨0, by simpa using le⟩
  generalize (if x < 0 then fac BYTES - loopAngle BYTES y x else loopAngle BYTES y x : ℤ) = a at *
  obtain ⟨k, hk⟩ := mid
  obtain ⟨j, hj⟩ := Int.dvd_self_sub_bmod (x := a / 2 ^ BYTES) (m := 2 ^ bits BYTES)
  rw [hv] at hj
  obtain ⟨f, f0, f1, -, hf⟩ := shift_real a BYTES
  have hj' : ((a / 2 ^ BYTES : ℤ) : ℝ) - v = ((2 ^ bits BYTES : ℕ) : ℝ) * j := by exact_mod_cast hj
  rw [B2, hf] at hj'
  refine ⟨k + j, ?_⟩
  have e : (v : ℝ) * (Real.pi / 2 ^ (bits BYTES - 1)) - arg ⟨x, y⟩ + 2 * Real.pi * ((k + j : ℤ) : ℝ) =
      (a * (Real.pi / fac BYTES) - arg ⟨x, y⟩ + 2 * Real.pi * k) - f * (Real.pi / 2 ^ (bits BYTES - 1)) := by
    have : (v : ℝ) = (1 / 2) ^ BYTES * a - f - 2 * 2 ^ (bits BYTES - 1) * j := by linarith
    rw [this, F, one_div, inv_pow]
    push_cast
    field_simp
    ring
  rw [e]
  refine (abs_sub _ _).trans (add_le_add hk ?_)
  rw [abs_of_nonneg (by positivity)]
  have : 0 < Real.pi / 2 ^ (bits BYTES - 1) := by positivity
  nlinarith

open Spec in
/-- With 16 bits the result is within `2.2 + 185000 / r` steps of the angle, where `r` is the length of the vector; a step is the 32768th of half a turn. -/
theorem C41_short (y x : ℤ) (hy : InType 2 y) (hx : InType 2 x) (hr : 64 ^ 2 ≤ x ^ 2 + y ^ 2) :
    ∃ v, atan2 2 y x = .ok v ∧ InType 2 v ∧ AnglesWithin ((2.2 + 185000 / Real.sqrt (x ^ 2 + y ^ 2)) * (Real.pi / 32768)) (arg ⟨x, y⟩) (v * (Real.pi / 32768)) := by
  obtain ⟨v, h1, h2, k, hk⟩ := atan2_error 2 (Or.inr rfl) y x hy hx hr
  refine ⟨v, h1, h2, k, ?_⟩
  have t := tableError_le 2 16 (by norm_num) le_rfl
  have s : ((tableSum 2 16 + 16 * (fac 2 / 10 ^ 67) : ℚ) : ℝ) ≤ ((3.43 : ℚ) : ℝ) := by exact_mod_cast tableSum_le.2
  have f : (fac 2 : ℝ) = 131072 := by norm_num [fac, bits]
  push_cast at s t
  rw [f] at s t hk
  have t' := t.trans (mul_le_mul_of_nonneg_left s (by positivity))
  have b : bits 2 = 16 := rfl
  rw [b] at hk
  norm_num only [Nat.add_one_sub_one] at hk t' ⊢
  refine hk.trans ?_
  have p := Real.pi_gt_d2
  have p' := Real.pi_lt_d2
  have r0 : (0 : ℝ) < Real.sqrt ((x : ℝ) ^ 2 + (y : ℝ) ^ 2) := by
    refine Real.sqrt_pos.mpr ?_
    have : (64 : ℝ) ^ 2 ≤ (x : ℝ) ^ 2 + (y : ℝ) ^ 2 := by exact_mod_cast hr
    linarith
  generalize Real.sqrt ((x : ℝ) ^ 2 + (y : ℝ) ^ 2) = r at *
  rw [div_eq_mul_inv _ r, div_eq_mul_inv _ r]
  have i0 := inv_pos.mpr r0
  have := mul_lt_mul_of_pos_left p i0
  generalize r⁻¹ = i at *
  linarith

end DSP.Cordic
