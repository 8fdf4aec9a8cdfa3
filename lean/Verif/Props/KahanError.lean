import Verif.Model.Kahan
import Verif.Lemmas.BinaryRounded
import Verif.Spec.Rounding
import Mathlib.Tactic.Linarith
import Mathlib.Tactic.Ring
import Mathlib.Tactic.NormNum
import Mathlib.Tactic.Positivity

/-!
# C15: the error of Kahan summation
-/

namespace DSP.Kahan
open Spec

/-- One step on real numbers: `η`, `σ`, `γ`, `δ` are the four rounding errors. -/
theorem step (u X D s c x E y s' d c' : ℝ) (hu0 : 0 ≤ u) (hu : u ≤ 1 / 64) (hE : |E| ≤ X) (hD : |s - c - E| ≤ D) (hDX : D ≤ X / 16) (hc : |c| ≤ 3 * u * X)
    (hy : |y - (x - c)| ≤ u * |x - c|) (hs : |s' - (s + y)| ≤ u * |s + y|) (hd : |d - (s' - s)| ≤ u * |s' - s|) (hc' : |c' - (d - y)| ≤ u * |d - y|) :
    |s' - c' - (E + x)| ≤ D + 2 * u * |x| + 11 * u ^ 2 * (X + |x|) ∧ |c'| ≤ 3 * u * (X + |x|) ∧
    |s' - (E + x)| ≤ D + u * |x| + u * (X + |x|) + u * D + 5 * u ^ 2 * (X + |x|) := by
  have hX : 0 ≤ X := (abs_nonneg _).trans hE
  have hx := abs_nonneg x
  set A := |x - c| with hA
  set B := |s + y| with hB
  set η := y - (x - c) with hη
  set σ := s' - (s + y) with hσ
  set γ := d - (s' - s) with hγ
  set δ := c' - (d - y) with hδ
  have hA0 : 0 ≤ A := abs_nonneg _
  have hB0 : 0 ≤ B := abs_nonneg _
  have a1 : A ≤ |x| + 3 * u * X := (abs_sub x c).trans (by linarith)
  have y1 : |y| ≤ A + u * A := by
    have : y = (x - c) + η := by rw [hη]; ring
    rw [this]
    exact (abs_add_le _ _).trans (by linarith)
  have g1 : |s' - s| ≤ |y| + |σ| := by
    have : s' - s = y + σ := by rw [hσ]; ring
    rw [this]
    exact abs_add_le _ _
  have g2 : |γ| ≤ u * (A + u * A + u * B) := hd.trans (by gcongr; linarith)
  have d1 : |d - y| ≤ |σ| + |γ| := by
    have : d - y = σ + γ := by rw [hσ, hγ]; ring
    rw [this]
    exact abs_add_le _ _
  have d2 : |δ| ≤ u * (u * B + u * (A + u * A + u * B)) := hc'.trans (by gcongr; linarith)
  have b1 : B ≤ D + (X + |x|) + u * A := by
    have e : s + y = (s - c - E) + (E + x) + η := by rw [hη]; ring
    rw [hB, e]
    have t1 := abs_add_le ((s - c - E) + (E + x)) η
    have t2 := abs_add_le (s - c - E) (E + x)
    have t3 := abs_add_le E x
    linarith
  have uX : u * X ≤ X / 64 := by nlinarith
  have a2 : A ≤ 1.05 * (X + |x|) := by linarith
  have uA : u * A ≤ 1 / 64 * A := by gcongr
  have b2 : B ≤ 1.08 * (X + |x|) := by linarith
  have u2 : 0 ≤ u ^ 2 := sq_nonneg u
  have u3 : u ^ 3 ≤ u ^ 2 / 64 := by nlinarith
  have u3' : 0 ≤ u ^ 3 := by positivity
  have p1 : u ^ 2 * A ≤ u ^ 2 * (1.05 * (X + |x|)) := by gcongr
  have p2 : u ^ 2 * B ≤ u ^ 2 * (1.08 * (X + |x|)) := by gcongr
  have p3 : u ^ 3 * A ≤ u ^ 2 / 64 * A := by gcongr
  have p4 : u ^ 3 * B ≤ u ^ 2 / 64 * B := by gcongr
  have p5 : u * A ≤ u * (|x| + 3 * u * X) := by gcongr
  have p6 : u * B ≤ u * (D + (X + |x|) + u * A) := by gcongr
  have p7 : 0 ≤ u ^ 2 * |x| := by positivity
  have p8 : 0 ≤ u ^ 2 * X := by positivity
  refine ⟨?_, ?_, ?_⟩
  · have e : s' - c' - (E + x) = (s - c - E) + η - γ - δ := by rw [hη, hγ, hδ]; ring
    rw [e]
    have t1 := abs_sub ((s - c - E) + η - γ) δ
    have t2 := abs_sub ((s - c - E) + η) γ
    have t3 := abs_add_le (s - c - E) η
    linarith
  · have e : c' = σ + γ + δ := by rw [hσ, hγ, hδ]; ring
    rw [e]
    have t1 := abs_add_le (σ + γ) δ
    have t2 := abs_add_le σ γ
    have q1 : u * A ≤ u * (1.05 * (X + |x|)) := by gcongr
    have q2 : u * B ≤ u * (1.08 * (X + |x|)) := by gcongr
    have q4 : 0 ≤ u * (X + |x|) := by positivity
    have q3 : u * (u * (X + |x|)) ≤ 1 / 64 * (u * (X + |x|)) := by gcongr
    linarith
  · have e : s' - (E + x) = (s - c - E) + η + σ := by rw [hη, hσ]; ring
    rw [e]
    have t1 := abs_add_le ((s - c - E) + η) σ
    have t2 := abs_add_le (s - c - E) η
    linarith

/-- The state after any number of additions in rounded arithmetic. -/
theorem feed_error {α : Type} [Zero α] [Add α] [Sub α] (val : α → ℝ) (u : ℝ) (hR : Rounded α val u) (hu0 : 0 ≤ u) (hu : u ≤ 1 / 64) (xs : List α) :
    ∀ (k : Kahan α) (n : ℕ) (E X : ℝ), 11 * (n + xs.length) * u ^ 2 ≤ 1 / 32 → |E| ≤ X → |val k.high - val k.low - E| ≤ (2 * u + 11 * n * u ^ 2) * X → |val k.low| ≤ 3 * u * X →
      |val k.high - E| ≤ (3 * u + 12 * n * u ^ 2) * X →
      |val (k.feed xs).high - val (k.feed xs).low - (E + (xs.map val).sum)| ≤ (2 * u + 11 * (n + xs.length : ℕ) * u ^ 2) * (X + (xs.map fun x => |val x|).sum) ∧
      |val (k.feed xs).high - (E + (xs.map val).sum)| ≤ (3 * u + 12 * (n + xs.length : ℕ) * u ^ 2) * (X + (xs.map fun x => |val x|).sum) := by
  induction xs with
  | nil => intro k n E X _ _ h1 _ h2; simpa [feed] using ⟨h1, h2⟩
  | cons x xs ih =>
    intro k n E X hn hE hD hc hs
    have hX : 0 ≤ X := (abs_nonneg _).trans hE
    simp only [List.length_cons, Nat.cast_add, Nat.cast_one] at hn
    have n0 : (0 : ℝ) ≤ n := Nat.cast_nonneg n
    have m0 : (0 : ℝ) ≤ xs.length := Nat.cast_nonneg _
    have u2 : 0 ≤ u ^ 2 := sq_nonneg u
    have hsmall : 11 * (n : ℝ) * u ^ 2 ≤ 1 / 32 := by nlinarith
    have hDX : (2 * u + 11 * n * u ^ 2) * X ≤ X / 16 := by
      have : 2 * u + 11 * n * u ^ 2 ≤ 1 / 16 := by linarith
      nlinarith
    obtain ⟨r1, r2, r3⟩ := step u X _ (val k.high) (val k.low) (val x) E (val (x - k.low)) (val (k.high + (x - k.low))) (val (k.high + (x - k.low) - k.high))
      (val (k.high + (x - k.low) - k.high - (x - k.low))) hu0 hu hE hD hDX hc (hR.sub _ _) (hR.add _ _) (hR.sub _ _) (hR.sub _ _)
    have hx := abs_nonneg (val x)
    have := ih (k.call x).1 (n + 1) (E + val x) (X + |val x|) (by push_cast; linarith) ((abs_add_le _ _).trans (by linarith)) (by
        refine r1.trans ?_
        push_cast
        have : 0 ≤ n * u ^ 2 * |val x| := by positivity
        nlinarith) r2 (by
        refine r3.trans ?_
        push_cast
        have q1 : 0 ≤ n * u ^ 2 * |val x| := by positivity
        have q2 : 0 ≤ n * u ^ 2 * X := by positivity
        have q3 : u * (n * u ^ 2 * X) ≤ 1 / 64 * (n * u ^ 2 * X) := by gcongr
        have q4 : 0 ≤ u ^ 2 * |val x| := by positivity
        have q5 : 0 ≤ u ^ 2 * X := by positivity
        have q6 : 0 ≤ u * |val x| := by positivity
        nlinarith)
    simp only [feed, List.map_cons, List.sum_cons, List.length_cons]
    rw [← add_assoc E, ← add_assoc X, show n + (xs.length + 1) = n + 1 + xs.length by ring]
    exact this

/-- The error of Kahan summation in any rounded arithmetic: three units of the sum of the magnitudes, however many terms there are, plus a term of second order. -/
theorem C15_standard_model {α : Type} [Zero α] [Add α] [Sub α] (val : α → ℝ) (u : ℝ) (hR : Rounded α val u) (hu0 : 0 ≤ u) (hu : u ≤ 1 / 64) (x0 : α) (xs : List α)
    (hn : 352 * xs.length * u ^ 2 ≤ 1) :
    |val (Kahan.sum xs x0) - (val x0 + (xs.map val).sum)| ≤ (3 * u + 12 * xs.length * u ^ 2) * (|val x0| + (xs.map fun x => |val x|).sum) := by
  have := (feed_error val u hR hu0 hu xs (init x0) 0 (val x0) |val x0| (by push_cast; linarith) le_rfl (by simp [init, hR.zero]; positivity) (by simp [init, hR.zero]; positivity)
    (by simp [init]; positivity)).2
  rwa [zero_add] at this

/-- Summation in binary floating point with `p` bits, `u = 2^-p`. -/
theorem C15_binary (p : ℕ) [NeZero p] (hp : 6 ≤ p) (x0 : Binary p) (xs : List (Binary p)) (hn : 352 * (xs.length : ℝ) * (1 / 2 ^ p) ^ 2 ≤ 1) :
    |((Kahan.sum xs x0).val : ℝ) - (x0.val + (xs.map fun x => (x.val : ℝ)).sum)| ≤
      (3 * (1 / 2 ^ p) + 12 * xs.length * (1 / 2 ^ p) ^ 2) * (|(x0.val : ℝ)| + (xs.map fun x => |(x.val : ℝ)|).sum) := by
  refine C15_standard_model _ _ (binary_rounded p) (by positivity) ?_ x0 xs hn
  rw [show (1 : ℝ) / 64 = 1 / 2 ^ 6 by norm_num]
  gcongr
  norm_num

/-! ### Terms that do not exceed the sum -/

/-- If the corrected input is not larger than the sum, nothing is lost: the new state stands for the old sum plus the corrected input, exactly. -/
theorem C15_error_free (p : ℕ) [NeZero p] (k : Kahan (Binary p)) (x : Binary p) (h : |(x - k.low).val| ≤ |k.high.val|) :
    (k.call x).1.high.val - (k.call x).1.low.val = k.high.val + (x - k.low).val ∧ |(k.call x).1.low.val| ≤ |k.high.val + (x - k.low).val| / 2 ^ p := by
  have hp : 0 < p := Nat.pos_of_ne_zero (NeZero.ne p)
  obtain ⟨h1, h2⟩ := Binary.fast_two_sum p hp _ _ k.high.representable (x - k.low).representable h
  have e1 : (k.call x).1.high.val = Binary.round p (k.high.val + (x - k.low).val) := rfl
  have e2 : (k.call x).1.low.val = Binary.round p (Binary.round p (Binary.round p (k.high.val + (x - k.low).val) - k.high.val) - (x - k.low).val) := rfl
  rw [Binary.round_of_representable p _ h1, Binary.round_of_representable p _ h2] at e2
  rw [e1, e2]
  refine ⟨by ring, ?_⟩
  rw [sub_sub]
  exact Binary.round_error p _

/-- Every corrected input is at most as large as the sum it is added to. -/
def Dominant {p : ℕ} [NeZero p] (k : Kahan (Binary p)) : List (Binary p) → Prop
  | [] => True
  | x :: xs => |(x - k.low).val| ≤ |k.high.val| ∧ Dominant (k.call x).1 xs

/-- One step on real numbers. -/
theorem dominant_step (u X D s c x E y s' c' : ℝ) (hu0 : 0 ≤ u) (hu : u ≤ 1 / 64) (hE : |E| ≤ X) (hD : |s - c - E| ≤ D) (hDX : D ≤ X / 16) (hc : |c| ≤ 1.2 * u * X)
    (hy : |y - (x - c)| ≤ u * |x - c|) (hs : |s' - (s + y)| ≤ u * |s + y|) (hf : s' - c' = s + y) (hc' : |c'| ≤ u * |s + y|) :
    |s' - c' - (E + x)| ≤ D + u * |x| + 1.2 * u ^ 2 * X ∧ |c'| ≤ 1.2 * u * (X + |x|) ∧ |s' - (E + x)| ≤ D + u * |x| + u * (X + |x|) + u * D + 3 * u ^ 2 * (X + |x|) := by
  have hX : 0 ≤ X := (abs_nonneg _).trans hE
  have hx := abs_nonneg x
  have a1 : |x - c| ≤ |x| + 1.2 * u * X := (abs_sub x c).trans (by linarith)
  have uX : u * X ≤ 1 / 64 * X := by gcongr
  have p5 : u * |x - c| ≤ u * (|x| + 1.2 * u * X) := by gcongr
  have p6 : u * |x - c| ≤ 1 / 64 * |x - c| := by gcongr
  have b1 : |s + y| ≤ D + (X + |x|) + u * |x - c| := by
    have e : s + y = (s - c - E) + (E + x) + (y - (x - c)) := by ring
    rw [e]
    have t1 := abs_add_le ((s - c - E) + (E + x)) (y - (x - c))
    have t2 := abs_add_le (s - c - E) (E + x)
    have t3 := abs_add_le E x
    linarith
  have p7 : u * |s + y| ≤ u * (D + (X + |x|) + u * |x - c|) := by gcongr
  have p8 : u * (u * |x - c|) ≤ u * (u * (|x| + 1.2 * u * X)) := by gcongr
  have p9 : u * (u * (u * X)) ≤ u * (u * (1 / 64 * X)) := by gcongr
  have p10 : 0 ≤ u ^ 2 * |x| := by positivity
  have p11 : 0 ≤ u ^ 2 * X := by positivity
  have p12 : u * |s + y| ≤ u * (1.2 * (X + |x|)) := by gcongr; linarith
  refine ⟨?_, by linarith, ?_⟩
  · rw [hf, show s + y - (E + x) = (s - c - E) + (y - (x - c)) by ring]
    have t1 := abs_add_le (s - c - E) (y - (x - c))
    linarith
  · rw [show s' - (E + x) = (s - c - E) + (y - (x - c)) + (s' - (s + y)) by ring]
    have t1 := abs_add_le ((s - c - E) + (y - (x - c))) (s' - (s + y))
    have t2 := abs_add_le (s - c - E) (y - (x - c))
    linarith

theorem dominant_error (p : ℕ) [NeZero p] (hp : 6 ≤ p) (u : ℝ) (hu : u = 1 / 2 ^ p) (xs : List (Binary p)) :
    ∀ (k : Kahan (Binary p)) (n : ℕ) (E X : ℝ), 2 * (n + xs.length) * u ^ 2 ≤ 1 / 32 → |E| ≤ X → |(k.high.val : ℝ) - k.low.val - E| ≤ (u + 2 * n * u ^ 2) * X → |(k.low.val : ℝ)| ≤ 1.2 * u * X →
      |(k.high.val : ℝ) - E| ≤ (2 * u + 4 * n * u ^ 2) * X → Dominant k xs →
      |((k.feed xs).high.val : ℝ) - (E + (xs.map fun x => (x.val : ℝ)).sum)| ≤ (2 * u + 4 * (n + xs.length : ℕ) * u ^ 2) * (X + (xs.map fun x => |(x.val : ℝ)|).sum) := by
  have hR := binary_rounded p
  rw [← hu] at hR
  have hu0 : 0 ≤ u := by rw [hu]; positivity
  have hu1 : u ≤ 1 / 64 := by
    rw [hu, show (1 : ℝ) / 64 = 1 / 2 ^ 6 by norm_num]
    gcongr
    norm_num
  induction xs with
  | nil => intro k n E X _ _ _ _ h _; simpa [feed] using h
  | cons x xs ih =>
    intro k n E X hn hE hD hc hs hdom
    have hX : 0 ≤ X := (abs_nonneg _).trans hE
    simp only [List.length_cons, Nat.cast_add, Nat.cast_one] at hn
    have n0 : (0 : ℝ) ≤ n := Nat.cast_nonneg n
    have m0 : (0 : ℝ) ≤ xs.length := Nat.cast_nonneg _
    have u2 : 0 ≤ u ^ 2 := sq_nonneg u
    have hsmall : 2 * (n : ℝ) * u ^ 2 ≤ 1 / 32 := by nlinarith
    have hDX : (u + 2 * n * u ^ 2) * X ≤ X / 16 := by
      have : u + 2 * n * u ^ 2 ≤ 1 / 16 := by linarith
      nlinarith
    obtain ⟨f1, f2⟩ := C15_error_free p k x hdom.1
    have f1' : ((k.call x).1.high.val : ℝ) - (k.call x).1.low.val = k.high.val + (x - k.low).val := by exact_mod_cast f1
    have f2' : |((k.call x).1.low.val : ℝ)| ≤ u * |(k.high.val : ℝ) + (x - k.low).val| := by
      rw [hu, one_div_mul_eq_div]
      exact_mod_cast f2
    have hη := hR.sub x k.low
    have hσ : |((k.call x).1.high.val : ℝ) - (k.high.val + (x - k.low).val)| ≤ u * |(k.high.val : ℝ) + (x - k.low).val| := hR.add k.high (x - k.low)
    obtain ⟨r1, r2, r3⟩ := dominant_step u X _ _ _ _ E _ _ _ hu0 hu1 hE hD hDX hc hη hσ f1' f2'
    have hx := abs_nonneg (x.val : ℝ)
    have := ih (k.call x).1 (n + 1) (E + x.val) (X + |(x.val : ℝ)|) (by push_cast; linarith) ((abs_add_le _ _).trans (by linarith)) (by
        refine r1.trans ?_
        push_cast
        have : 0 ≤ n * u ^ 2 * |(x.val : ℝ)| := by positivity
        have : 0 ≤ u ^ 2 * |(x.val : ℝ)| := by positivity
        have : 0 ≤ u ^ 2 * X := by positivity
        linarith) r2 (by
        refine r3.trans ?_
        push_cast
        have q1 : 0 ≤ n * u ^ 2 * |(x.val : ℝ)| := by positivity
        have q2 : 0 ≤ n * u ^ 2 * X := by positivity
        have q3 : u * (n * u ^ 2 * X) ≤ 1 / 64 * (n * u ^ 2 * X) := by gcongr
        have q4 : 0 ≤ u ^ 2 * |(x.val : ℝ)| := by positivity
        have q5 : 0 ≤ u ^ 2 * X := by positivity
        linarith) hdom.2
    simp only [feed, List.map_cons, List.sum_cons, List.length_cons]
    rw [← add_assoc E, ← add_assoc X, show n + (xs.length + 1) = n + 1 + xs.length by ring]
    exact this

/-- Then the error is at most two units. -/
theorem C15_dominant (p : ℕ) [NeZero p] (hp : 6 ≤ p) (x0 : Binary p) (xs : List (Binary p)) (hn : 64 * (xs.length : ℝ) * (1 / 2 ^ p) ^ 2 ≤ 1) (hd : Dominant (init x0) xs) :
    |((Kahan.sum xs x0).val : ℝ) - (x0.val + (xs.map fun x => (x.val : ℝ)).sum)| ≤
      (2 * (1 / 2 ^ p) + 4 * xs.length * (1 / 2 ^ p) ^ 2) * (|(x0.val : ℝ)| + (xs.map fun x => |(x.val : ℝ)|).sum) := by
  have hz : ((0 : Binary p).val : ℝ) = 0 := Rat.cast_zero
  have := dominant_error p hp _ rfl xs (init x0) 0 x0.val |(x0.val : ℝ)| (by push_cast; linarith) le_rfl (by simp [init, hz]) (by simp [init, hz]; positivity)
    (by simp [init]) hd
  rwa [zero_add] at this

/-- Whole numbers that fit. -/
def ofInt (p : ℕ) (n : ℤ) (h : |n| < 2 ^ p) : Binary p := ⟨n, n, 0, h, by simp⟩

instance decidableDominant {p : ℕ} [NeZero p] : ∀ (k : Kahan (Binary p)) (xs : List (Binary p)), Decidable (Dominant k xs)
  | _, [] => .isTrue trivial
  | k, x :: xs => have := decidableDominant (k.call x).1 xs; inferInstanceAs (Decidable (_ ∧ _))

/-- Forty times one added to 64 with six bits: plain addition never gets anywhere, Kahan summation ends at 104. -/
example : ((List.replicate 40 (ofInt 6 1 (by norm_num))).foldl (· + ·) (⟨64, 1, 6, by norm_num, by norm_num⟩ : Binary 6)).val = 64 ∧
    (Kahan.sum (List.replicate 40 (ofInt 6 1 (by norm_num))) (⟨64, 1, 6, by norm_num, by norm_num⟩ : Binary 6)).val = 104 := by
  decide +kernel

/-- That sum meets the condition of `C15_dominant`: it is within two units of 104. -/
example : |((Kahan.sum (List.replicate 40 (ofInt 6 1 (by norm_num))) (⟨64, 1, 6, by norm_num, by norm_num⟩ : Binary 6)).val : ℝ) - 104| ≤ (2 / 64 + 160 / 4096) * 104 := by
  have := C15_dominant 6 le_rfl (⟨64, 1, 6, by norm_num, by norm_num⟩ : Binary 6) (List.replicate 40 (ofInt 6 1 (by norm_num))) (by norm_num) (by decide +kernel)
  norm_num [ofInt] at this ⊢
  exact this

/-- Growing terms, where part of the correction is lost, with 24 bits. -/
example : |((Kahan.sum [ofInt 24 4097 (by norm_num), ofInt 24 9999999 (by norm_num)] (ofInt 24 (-3) (by norm_num))).val : ℝ) - 10004093| ≤ (3 / 2 ^ 24 + 24 / 2 ^ 48) * 10004099 := by
  have := C15_binary 24 (by norm_num) (ofInt 24 (-3) (by norm_num)) [ofInt 24 4097 (by norm_num), ofInt 24 9999999 (by norm_num)] (by norm_num)
  norm_num [ofInt] at this ⊢
  exact this

end DSP.Kahan
