import Verif.Lemmas.Butterfly
import Mathlib.Tactic.GCongr

/-!
# Rounding errors of the butterflies

`Near K m a z`: the machine number `a` is off the complex number `z` by at most `K` roundings of a quantity of size `m`, and `z` is not larger than that.
-/

set_option linter.unusedSectionVars false

namespace DSP
namespace FFT

open Complex

variable {V A : Type} [Parts V A] [Zero V] [Add V] [Sub V] [Mul V] [IntCast V] [Zero A] [Add A] [Sub A] [Mul A] [SMul V A]

/-- What is used of the arithmetic of rounded complex numbers. -/
structure RoundedComplex (valV : V → ℝ) (val : A → ℂ) (u : ℝ) : Prop where
  nonneg : 0 ≤ u
  make : ∀ a b, val (Parts.make a b) = ⟨valV a, valV b⟩
  zero : valV 0 = 0
  sign : ∀ (s : ℤ) (c : V), s = 1 ∨ s = -1 → |valV ((s : V) * c) - s * valV c| ≤ u * |valV c|
  add : ∀ a b : A, ‖val (a + b) - (val a + val b)‖ ≤ u * ‖val a + val b‖
  sub : ∀ a b : A, ‖val (a - b) - (val a - val b)‖ ≤ u * ‖val a - val b‖
  turn : ∀ a b : A, ‖val (Parts.make (Parts.im a - Parts.im b) (Parts.re b - Parts.re a)) - -I * (val a - val b)‖ ≤ u * ‖val a - val b‖
  cross : ∀ a b : A, ‖val (Parts.make (Parts.re a + Parts.im b) (Parts.im a - Parts.re b)) - (val a - I * val b)‖ ≤ u * ‖val a - I * val b‖
  smul : ∀ (c : V) (a : A), ‖val (c • a) - valV c * val a‖ ≤ u * ‖valV c * val a‖
  mul : ∀ a b : A, ‖val (a * b) - val a * val b‖ ≤ 3 * u * ‖val a * val b‖

/-- See above. -/
def Near (val : A → ℂ) (u : ℝ) (K : ℕ) (m : ℝ) (a : A) (z : ℂ) : Prop := ‖val a - z‖ ≤ ((1 + u) ^ K - 1) * m ∧ ‖z‖ ≤ m

theorem bernoulli (u : ℝ) (hu : 0 ≤ u) (c : ℕ) : c * u ≤ (1 + u) ^ c - 1 := by
  have := one_add_mul_le_pow (by linarith : (-2 : ℝ) ≤ u) c
  linarith

theorem pow_nonneg' (u : ℝ) (hu : 0 ≤ u) (K : ℕ) : 0 ≤ (1 + u) ^ K - 1 := by
  have := one_le_pow₀ (by linarith : (1 : ℝ) ≤ 1 + u) (n := K)
  linarith

section
variable {val : A → ℂ} {u : ℝ} (hu : 0 ≤ u) {K L : ℕ} {m n : ℝ} {a b : A} {z w : ℂ}
include hu

theorem Near.mono (h : Near val u K m a z) (hK : K ≤ L) (hm : m ≤ n) : Near val u L n a z := by
  have h1 := pow_nonneg' u hu K
  have h2 : (1 + u) ^ K ≤ (1 + u) ^ L := pow_le_pow_right₀ (by linarith) hK
  have h3 : 0 ≤ m := le_trans (norm_nonneg _) h.2
  refine ⟨h.1.trans ?_, h.2.trans hm⟩
  have h4 := pow_nonneg' u hu L
  gcongr

theorem Near.size (h : Near val u K m a z) : ‖val a‖ ≤ (1 + u) ^ K * m := by
  have : val a = (val a - z) + z := by ring
  rw [this]
  calc _ ≤ ‖val a - z‖ + ‖z‖ := norm_add_le _ _
    _ ≤ ((1 + u) ^ K - 1) * m + m := add_le_add h.1 h.2
    _ = _ := by ring

/-- A value near `z`, rounded with an error of `c` units. -/
theorem near_round (c : ℕ) {v : ℂ} {r : A} (h1 : ‖v - z‖ ≤ ((1 + u) ^ K - 1) * m) (h2 : ‖z‖ ≤ m) (h3 : ‖val r - v‖ ≤ c * u * ‖v‖) : Near val u (K + c) m r z := by
  refine ⟨?_, h2⟩
  have hm : 0 ≤ m := (norm_nonneg _).trans h2
  have hv : ‖v‖ ≤ (1 + u) ^ K * m := by
    calc ‖v‖ = ‖(v - z) + z‖ := by ring_nf
      _ ≤ ‖v - z‖ + ‖z‖ := norm_add_le _ _
      _ ≤ ((1 + u) ^ K - 1) * m + m := add_le_add h1 h2
      _ = _ := by ring
  have hc := bernoulli u hu c
  have hcu : 0 ≤ (c : ℝ) * u := by positivity
  calc ‖val r - z‖ = ‖(val r - v) + (v - z)‖ := by ring_nf
    _ ≤ ‖val r - v‖ + ‖v - z‖ := norm_add_le _ _
    _ ≤ c * u * ((1 + u) ^ K * m) + ((1 + u) ^ K - 1) * m := by gcongr; exact h3.trans (by gcongr)
    _ ≤ ((1 + u) ^ c - 1) * ((1 + u) ^ K * m) + ((1 + u) ^ K - 1) * m := by gcongr
    _ = ((1 + u) ^ (K + c) - 1) * m := by rw [pow_add]; ring

end

variable {valV : V → ℝ} {val : A → ℂ} {u : ℝ} (H : RoundedComplex valV val u) {K : ℕ} {m n : ℝ} {a b : A} {z w : ℂ}
include H

theorem Near.add (ha : Near val u K m a z) (hb : Near val u K n b w) : Near val u (K + 1) (m + n) (a + b) (z + w) := by
  refine near_round H.nonneg 1 (v := val a + val b) ?_ ?_ (by simpa using H.add a b)
  · calc _ = ‖(val a - z) + (val b - w)‖ := by ring_nf
      _ ≤ ‖val a - z‖ + ‖val b - w‖ := norm_add_le _ _
      _ ≤ _ := by rw [mul_add]; exact add_le_add ha.1 hb.1
  · exact (norm_add_le _ _).trans (add_le_add ha.2 hb.2)

theorem Near.sub (ha : Near val u K m a z) (hb : Near val u K n b w) : Near val u (K + 1) (m + n) (a - b) (z - w) := by
  refine near_round H.nonneg 1 (v := val a - val b) ?_ ?_ (by simpa using H.sub a b)
  · calc _ = ‖(val a - z) - (val b - w)‖ := by ring_nf
      _ ≤ ‖val a - z‖ + ‖val b - w‖ := norm_sub_le _ _
      _ ≤ _ := by rw [mul_add]; exact add_le_add ha.1 hb.1
  · exact (norm_sub_le _ _).trans (add_le_add ha.2 hb.2)

theorem Near.twiddle (ha : Near val u K m a z) (hb : Near val u K n b w) : Near val u (K + 1) (m + n) (twiddle a b) (twiddle z w) := by
  refine near_round H.nonneg 1 (v := -I * (val a - val b)) ?_ ?_ ?_
  · rw [twiddle_eq]
    calc _ = ‖-I * ((val a - z) - (val b - w))‖ := by ring_nf
      _ = ‖(val a - z) - (val b - w)‖ := by rw [norm_mul, norm_neg, norm_I, one_mul]
      _ ≤ ‖val a - z‖ + ‖val b - w‖ := norm_sub_le _ _
      _ ≤ _ := by rw [mul_add]; exact add_le_add ha.1 hb.1
  · rw [twiddle_eq, norm_mul, norm_neg, norm_I, one_mul]
    exact (norm_sub_le _ _).trans (add_le_add ha.2 hb.2)
  · have := H.turn a b
    rw [norm_mul, norm_neg, norm_I, one_mul]
    simpa [FFT.twiddle] using this

theorem Near.fiddle (ha : Near val u K m a z) (hb : Near val u K n b w) : Near val u (K + 2) (2 * (m + n)) (fiddle a b) (fiddle z w) := by
  have hc := ha.add H hb
  have hd := ha.sub H hb
  unfold FFT.fiddle
  simp only []
  refine near_round H.nonneg 1 (K := K + 1) (v := val (a - b) - I * val (a + b)) ?_ ?_ ?_
  · calc _ = ‖(val (a - b) - (z - w)) - I * (val (a + b) - (z + w))‖ := by
          congr 1; apply Complex.ext <;> simp [Parts.make, Parts.re, Parts.im] <;> ring
      _ ≤ ‖val (a - b) - (z - w)‖ + ‖I * (val (a + b) - (z + w))‖ := norm_sub_le _ _
      _ = ‖val (a - b) - (z - w)‖ + ‖val (a + b) - (z + w)‖ := by rw [norm_mul, norm_I, one_mul]
      _ ≤ _ := by linarith [hc.1, hd.1]
  · calc _ = ‖(z - w) - I * (z + w)‖ := by
          congr 1; apply Complex.ext <;> simp [Parts.make, Parts.re, Parts.im]; ring
      _ ≤ ‖z - w‖ + ‖I * (z + w)‖ := norm_sub_le _ _
      _ = ‖z - w‖ + ‖z + w‖ := by rw [norm_mul, norm_I, one_mul]
      _ ≤ _ := by linarith [hc.2, hd.2]
  · simpa using H.cross (a - b) (a + b)

/-- A constant that is off by `t` units. -/
theorem Near.smul (t : ℕ) {c : V} {r : ℝ} (hr : |r| ≤ 1) (hc : |valV c - r| ≤ (1 + u) ^ t - 1) (ha : Near val u K m a z) : Near val u (K + t + 1) m (c • a) ((r : ℂ) * z) := by
  have hm : 0 ≤ m := (norm_nonneg _).trans ha.2
  have hu := H.nonneg
  refine near_round H.nonneg 1 (v := (valV c : ℂ) * val a) ?_ ?_ (by simpa using H.smul c a)
  · have h0 := pow_nonneg' u hu t
    calc _ = ‖((valV c - r : ℝ) : ℂ) * val a + (r : ℂ) * (val a - z)‖ := by push_cast; ring_nf
      _ ≤ ‖((valV c - r : ℝ) : ℂ) * val a‖ + ‖(r : ℂ) * (val a - z)‖ := norm_add_le _ _
      _ = |valV c - r| * ‖val a‖ + |r| * ‖val a - z‖ := by rw [norm_mul, norm_mul, norm_real, norm_real]; rfl
      _ ≤ ((1 + u) ^ t - 1) * ((1 + u) ^ K * m) + 1 * (((1 + u) ^ K - 1) * m) := by
          have := ha.size hu
          have := ha.1
          gcongr
      _ = _ := by rw [pow_add]; ring
  · rw [norm_mul, norm_real]
    calc ‖r‖ * ‖z‖ ≤ 1 * m := by gcongr; exact hr; exact ha.2
      _ = m := one_mul m

/-- A complex constant that is off by `t` units. -/
theorem Near.mul (t : ℕ) {c : A} {r : ℂ} (hr : ‖r‖ ≤ 1) (hc : ‖val c - r‖ ≤ (1 + u) ^ t - 1) (ha : Near val u K m a z) : Near val u (K + t + 3) m (c * a) (r * z) := by
  have hm : 0 ≤ m := (norm_nonneg _).trans ha.2
  have hu := H.nonneg
  refine near_round H.nonneg 3 (v := val c * val a) ?_ ?_ (by simpa using H.mul c a)
  · have h0 := pow_nonneg' u hu t
    calc _ = ‖(val c - r) * val a + r * (val a - z)‖ := by ring_nf
      _ ≤ ‖(val c - r) * val a‖ + ‖r * (val a - z)‖ := norm_add_le _ _
      _ = ‖val c - r‖ * ‖val a‖ + ‖r‖ * ‖val a - z‖ := by rw [norm_mul, norm_mul]
      _ ≤ ((1 + u) ^ t - 1) * ((1 + u) ^ K * m) + 1 * (((1 + u) ^ K - 1) * m) := by
          have := ha.size hu
          have := ha.1
          gcongr
      _ = _ := by rw [pow_add]; ring
  · rw [norm_mul]
    calc ‖r‖ * ‖z‖ ≤ 1 * m := by gcongr; exact ha.2
      _ = m := one_mul m

theorem near_foldl (f : ℕ → A) (g : ℕ → ℂ) (c : ℕ → Prop) [DecidablePred c] (m : ℕ → ℝ) (N : ℕ) (hf : ∀ j < N, Near val u K (m j) (f j) (g j)) {M : ℝ} (hb : Near val u K M a z) :
    Near val u (K + N) (M + ∑ j ∈ Finset.range N, m j)
      ((List.range N).foldl (fun s j => if c j then s - f j else s + f j) a) ((List.range N).foldl (fun s j => if c j then s - g j else s + g j) z) := by
  induction N with
  | zero => simpa using hb
  | succ N ih =>
    rw [List.range_succ, List.foldl_append, List.foldl_append, Finset.sum_range_succ, ← add_assoc M, ← Nat.add_assoc K]
    simp only [List.foldl_cons, List.foldl_nil]
    have h1 := ih (fun j hj => hf j (by omega))
    have h2 := (hf N (by omega)).mono H.nonneg (Nat.le_add_right K N) le_rfl
    split_ifs
    · exact h1.sub H h2
    · exact h1.add H h2

theorem near_foldl_add (f : ℕ → A) (g : ℕ → ℂ) (m : ℕ → ℝ) (N : ℕ) (hf : ∀ j < N, Near val u K (m j) (f j) (g j)) {M : ℝ} (hb : Near val u K M a z) :
    Near val u (K + N) (M + ∑ j ∈ Finset.range N, m j) ((List.range N).foldl (fun s j => s + f j) a) ((List.range N).foldl (fun s j => s + g j) z) := by
  have := near_foldl H f g (fun _ => False) m N hf hb
  simpa using this

/-- The constants are accurate to `t` units, for sizes up to `L`. -/
structure Trig.Accurate (T : Trig V) (valV : V → ℝ) (u : ℝ) (t L : ℕ) : Prop where
  cos : ∀ n N, n < N → N ≤ L → |valV (T.cos n N) - Real.cos (2 * Real.pi * n / N)| ≤ t * u
  sin : ∀ n N, n < N → N ≤ L → |valV (T.sin n N) - Real.sin (2 * Real.pi * n / N)| ≤ t * u
  invSqrtTwo : |valV T.invSqrtTwo - 1 / √2| ≤ t * u

variable {T : Trig V} {t L : ℕ} (hT : T.Accurate valV u t L)
include hT

theorem Near.cx (p N : ℕ) (hp : p < N) (hN : N ≤ L) (ha : Near val u K m a z) : Near val u (K + t + 1) m (cx T p N a) (cx Trig.real p N z) := by
  rw [cx_eq]
  exact ha.smul H t (Real.abs_cos_le_one _) ((hT.cos p N hp hN).trans (bernoulli u H.nonneg t))

theorem Near.sx (p N : ℕ) (hp : p < N) (hN : N ≤ L) (ha : Near val u K m a z) : Near val u (K + t + 1) m (sx T p N a) (sx Trig.real p N z) := by
  rw [sx_eq]
  exact ha.smul H t (Real.abs_sin_le_one _) ((hT.sin p N hp hN).trans (bernoulli u H.nonneg t))

theorem Near.rsqrt2 (ha : Near val u K m a z) : Near val u (K + t + 3) m (rsqrt2 T a) (rsqrt2 Trig.real z) := by
  rw [rsqrt2_eq]
  refine ha.mul H t ?_ ?_
  · rw [norm_real]
    show |1 / √2| ≤ 1
    rw [abs_of_nonneg (by positivity), div_le_one (by positivity)]
    exact Real.one_le_sqrt.mpr (by norm_num)
  · rw [H.make, H.zero]
    have : (⟨valV T.invSqrtTwo, 0⟩ : ℂ) - ((Trig.real.invSqrtTwo : ℝ) : ℂ) = ((valV T.invSqrtTwo - 1 / √2 : ℝ) : ℂ) := by
      apply Complex.ext <;> simp [Trig.real]
    rw [this, norm_real]
    exact hT.invSqrtTwo.trans (bernoulli u H.nonneg t)

theorem oddDft_near (h : ℕ) (h0 : 0 < h) (ctab : List (List Nat)) (stab : List (List Int)) (x : ℕ → A) (y : ℕ → ℂ) (m : ℕ → ℝ)
    (hL : 2 * h + 1 ≤ L) (hct : ∀ k j, (ctab.getD k []).getD j 0 < 2 * h + 1) (hst : ∀ k j, ((stab.getD k []).getD j 0).natAbs < 2 * h + 1)
    (hx : ∀ j < 2 * h + 1, Near val u 0 (m j) (x j) (y j)) (k : ℕ) (hk : k < 2 * h + 1) :
    ∃ r, (oddDft T (2 * h + 1) ctab stab x)[k]? = some r ∧ ∃ w, (oddDft Trig.real (2 * h + 1) ctab stab y)[k]? = some w ∧
      Near val u (h + t + 3) (2 * ∑ j ∈ Finset.range (2 * h + 1), m j) r w := by
  have hh : (2 * h + 1 - 1) / 2 = h := by omega
  have hm : ∀ j < 2 * h + 1, 0 ≤ m j := fun j hj => (norm_nonneg _).trans (hx j hj).2
  unfold oddDft
  simp only [hh, List.getElem?_map, List.getElem?_range hk, Option.map_some]
  refine ⟨_, rfl, _, rfl, ?_⟩
  -- the pairs
  have hsum : ∑ j ∈ Finset.range (2 * h + 1), m j = m 0 + ∑ j ∈ Finset.range h, (m (j + 1) + m (2 * h + 1 - (j + 1))) := Spec.sum_pairs m h
  have hpos : 0 ≤ ∑ j ∈ Finset.range h, (m (j + 1) + m (2 * h + 1 - (j + 1))) := Finset.sum_nonneg (fun j hj => by
    have := Finset.mem_range.mp hj
    exact add_nonneg (hm _ (by omega)) (hm _ (by omega)))
  have h00 := hm 0 (by omega)
  have hp : ∀ j, 1 ≤ j → j ≤ h → Near val u 1 (m j + m (2 * h + 1 - j)) (x j + x (2 * h + 1 - j)) (y j + y (2 * h + 1 - j)) := fun j h1 h2 =>
    (hx j (by omega)).add H (hx _ (by omega))
  have hq : ∀ j, 1 ≤ j → j ≤ h → Near val u 1 (m j + m (2 * h + 1 - j)) (FFT.twiddle (x j) (x (2 * h + 1 - j))) (FFT.twiddle (y j) (y (2 * h + 1 - j))) := fun j h1 h2 =>
    (hx j (by omega)).twiddle H (hx _ (by omega))
  have hsplit : m 1 + m (2 * h + 1 - 1) + ∑ j ∈ Finset.range (h - 1), (m (j + 2) + m (2 * h + 1 - (j + 2))) = ∑ j ∈ Finset.range h, (m (j + 1) + m (2 * h + 1 - (j + 1))) := by
    obtain ⟨n, rfl⟩ : ∃ n, h = n + 1 := ⟨h - 1, by omega⟩
    rw [Finset.sum_range_succ', add_comm]
    rfl
  have hc : ∀ k, Near val u (t + h + 1) (∑ j ∈ Finset.range h, (m (j + 1) + m (2 * h + 1 - (j + 1))))
      ((List.range (h - 1)).foldl (fun sum j => sum + FFT.cx T ((ctab.getD (k - 1) []).getD (j + 2 - 1) 0) (2 * h + 1) (x (j + 2) + x (2 * h + 1 - (j + 2))))
        (FFT.cx T ((ctab.getD (k - 1) []).getD (1 - 1) 0) (2 * h + 1) (x 1 + x (2 * h + 1 - 1))))
      ((List.range (h - 1)).foldl (fun sum j => sum + FFT.cx Trig.real ((ctab.getD (k - 1) []).getD (j + 2 - 1) 0) (2 * h + 1) (y (j + 2) + y (2 * h + 1 - (j + 2))))
        (FFT.cx Trig.real ((ctab.getD (k - 1) []).getD (1 - 1) 0) (2 * h + 1) (y 1 + y (2 * h + 1 - 1)))) := by
    intro k
    have := near_foldl_add H
      (fun j => FFT.cx T ((ctab.getD (k - 1) []).getD (j + 2 - 1) 0) (2 * h + 1) (x (j + 2) + x (2 * h + 1 - (j + 2))))
      (fun j => FFT.cx Trig.real ((ctab.getD (k - 1) []).getD (j + 2 - 1) 0) (2 * h + 1) (y (j + 2) + y (2 * h + 1 - (j + 2)))) (fun j => m (j + 2) + m (2 * h + 1 - (j + 2))) (h - 1)
      (fun j hj => (hp (j + 2) (by omega) (by omega)).cx H hT _ _ (hct _ _) hL) ((hp 1 le_rfl h0).cx H hT ((ctab.getD (k - 1) []).getD (1 - 1) 0) (2 * h + 1) (hct _ _) hL)
    rw [hsplit] at this
    exact this.mono H.nonneg (by omega) le_rfl
  have hs : ∀ k, Near val u (t + h + 1) (∑ j ∈ Finset.range h, (m (j + 1) + m (2 * h + 1 - (j + 1))))
      ((List.range (h - 1)).foldl (fun sum j => if (stab.getD (k - 1) []).getD (j + 2 - 1) 0 < 0 then
          sum - FFT.sx T ((stab.getD (k - 1) []).getD (j + 2 - 1) 0).natAbs (2 * h + 1) (FFT.twiddle (x (j + 2)) (x (2 * h + 1 - (j + 2))))
        else sum + FFT.sx T ((stab.getD (k - 1) []).getD (j + 2 - 1) 0).natAbs (2 * h + 1) (FFT.twiddle (x (j + 2)) (x (2 * h + 1 - (j + 2)))))
        (FFT.sx T ((stab.getD (k - 1) []).getD (1 - 1) 0).natAbs (2 * h + 1) (FFT.twiddle (x 1) (x (2 * h + 1 - 1)))))
      ((List.range (h - 1)).foldl (fun sum j => if (stab.getD (k - 1) []).getD (j + 2 - 1) 0 < 0 then
          sum - FFT.sx Trig.real ((stab.getD (k - 1) []).getD (j + 2 - 1) 0).natAbs (2 * h + 1) (FFT.twiddle (y (j + 2)) (y (2 * h + 1 - (j + 2))))
        else sum + FFT.sx Trig.real ((stab.getD (k - 1) []).getD (j + 2 - 1) 0).natAbs (2 * h + 1) (FFT.twiddle (y (j + 2)) (y (2 * h + 1 - (j + 2)))))
        (FFT.sx Trig.real ((stab.getD (k - 1) []).getD (1 - 1) 0).natAbs (2 * h + 1) (FFT.twiddle (y 1) (y (2 * h + 1 - 1))))) := by
    intro k
    have := near_foldl H
      (fun j => FFT.sx T ((stab.getD (k - 1) []).getD (j + 2 - 1) 0).natAbs (2 * h + 1) (FFT.twiddle (x (j + 2)) (x (2 * h + 1 - (j + 2)))))
      (fun j => FFT.sx Trig.real ((stab.getD (k - 1) []).getD (j + 2 - 1) 0).natAbs (2 * h + 1) (FFT.twiddle (y (j + 2)) (y (2 * h + 1 - (j + 2)))))
      (fun j => (stab.getD (k - 1) []).getD (j + 2 - 1) 0 < 0) (fun j => m (j + 2) + m (2 * h + 1 - (j + 2))) (h - 1)
      (fun j hj => (hq (j + 2) (by omega) (by omega)).sx H hT _ _ (hst _ _) hL) ((hq 1 le_rfl h0).sx H hT ((stab.getD (k - 1) []).getD (1 - 1) 0).natAbs (2 * h + 1) (hst _ _) hL)
    rw [hsplit] at this
    exact this.mono H.nonneg (by omega) le_rfl
  have hx0 := (hx 0 (by omega)).mono H.nonneg (Nat.zero_le (t + h + 1)) le_rfl
  split_ifs with k0 k1
  · have := near_foldl_add H (fun j => x (j + 1) + x (2 * h + 1 - (j + 1))) (fun j => y (j + 1) + y (2 * h + 1 - (j + 1))) (fun j => m (j + 1) + m (2 * h + 1 - (j + 1))) h
      (fun j hj => hp (j + 1) (by omega) (by omega)) ((hx 0 (by omega)).mono H.nonneg (Nat.zero_le 1) le_rfl)
    exact this.mono H.nonneg (by omega) (by rw [hsum]; linarith)
  · exact ((hx0.add H (hc k)).sub H ((hs k).mono H.nonneg (Nat.le_succ _) le_rfl)).mono H.nonneg (by omega) (by rw [hsum]; linarith)
  · exact ((hx0.add H (hc (2 * h + 1 - k))).add H ((hs (2 * h + 1 - k)).mono H.nonneg (Nat.le_succ _) le_rfl)).mono H.nonneg (by omega) (by rw [hsum]; linarith)

/-- Roundings per butterfly, relative to the sum of the sizes of its inputs. -/
def cost (t R : ℕ) : ℕ := if R = 2 then 1 else if R = 4 then 2 else if R = 8 then 2 * t + 14 else R + 2 * t + 5

omit H hT in
theorem Near.double (hu : 0 ≤ u) (h : Near val u K (2 * m) a z) (hz : ‖z‖ ≤ m) : Near val u (2 * K) m a z := by
  refine ⟨h.1.trans ?_, hz⟩
  have hm : 0 ≤ m := (norm_nonneg _).trans hz
  have h1 := pow_nonneg' u hu K
  have : 0 ≤ ((1 + u) ^ K - 1) * ((1 + u) ^ K - 1) := mul_nonneg h1 h1
  rw [show 2 * K = K + K by ring, pow_add]
  nlinarith

omit H hT in
theorem norm_unit (s : ℤ) (N k : ℕ) : ‖Spec.unit s N k‖ = 1 := by
  unfold Spec.unit
  have : (s : ℂ) * (2 * Real.pi * I * k / N) = ((s * (2 * Real.pi * k / N) : ℝ) : ℂ) * I := by push_cast; ring
  rw [this, norm_exp_ofReal_mul_I]

omit H hT in
theorem norm_dft (s : ℤ) (N : ℕ) (y : ℕ → ℂ) (k : ℕ) : ‖Spec.dft s N y k‖ ≤ ∑ j ∈ Finset.range N, ‖y j‖ := by
  unfold Spec.dft
  refine (norm_sum_le _ _).trans (Finset.sum_le_sum fun j _ => ?_)
  rw [norm_mul, norm_unit, mul_one]

omit H hT in
theorem dft_sub (s : ℤ) (N : ℕ) (y z : ℕ → ℂ) (k : ℕ) : Spec.dft s N y k - Spec.dft s N z k = Spec.dft s N (fun j => y j - z j) k := by
  unfold Spec.dft
  rw [← Finset.sum_sub_distrib]
  exact Finset.sum_congr rfl fun j _ => by ring

theorem dft2_near (x : ℕ → A) (y : ℕ → ℂ) (m : ℕ → ℝ) (hx : ∀ j < 2, Near val u 0 (m j) (x j) (y j)) (k : ℕ) (hk : k < 2) :
    ∃ r, (dft2 x)[k]? = some r ∧ ∃ w, (dft2 y)[k]? = some w ∧ Near val u 1 (∑ j ∈ Finset.range 2, m j) r w := by
  have h0 := hx 0 (by norm_num)
  have h1 := hx 1 (by norm_num)
  rw [Finset.sum_range_succ, Finset.sum_range_succ, Finset.sum_range_zero, zero_add]
  interval_cases k
  · exact ⟨_, rfl, _, rfl, h0.add H h1⟩
  · exact ⟨_, rfl, _, rfl, h0.sub H h1⟩

theorem dft4_near (x : ℕ → A) (y : ℕ → ℂ) (m : ℕ → ℝ) (hx : ∀ j < 4, Near val u 0 (m j) (x j) (y j)) (k : ℕ) (hk : k < 4) :
    ∃ r, (dft4 x)[k]? = some r ∧ ∃ w, (dft4 y)[k]? = some w ∧ Near val u 2 (∑ j ∈ Finset.range 4, m j) r w := by
  have h0 := hx 0 (by norm_num)
  have h1 := hx 1 (by norm_num)
  have h2 := hx 2 (by norm_num)
  have h3 := hx 3 (by norm_num)
  have ha := h0.add H h2
  have hb := h0.sub H h2
  have hc := h1.add H h3
  have hd := h1.twiddle H h3
  have e : ∑ j ∈ Finset.range 4, m j = m 0 + m 2 + (m 1 + m 3) := by
    simp only [Finset.sum_range_succ, Finset.sum_range_zero]; ring
  rw [e]
  interval_cases k
  · exact ⟨_, rfl, _, rfl, ha.add H hc⟩
  · exact ⟨_, rfl, _, rfl, hb.sub H hd⟩
  · exact ⟨_, rfl, _, rfl, ha.sub H hc⟩
  · exact ⟨_, rfl, _, rfl, hb.add H hd⟩

theorem dft8_near (x : ℕ → A) (y : ℕ → ℂ) (m : ℕ → ℝ) (hx : ∀ j < 8, Near val u 0 (m j) (x j) (y j)) (k : ℕ) (hk : k < 8) :
    ∃ r, (dft8 T x)[k]? = some r ∧ ∃ w, (dft8 Trig.real y)[k]? = some w ∧ Near val u (t + 7) (2 * ∑ j ∈ Finset.range 8, m j) r w := by
  have hm : ∀ j < 8, 0 ≤ m j := fun j hj => (norm_nonneg _).trans (hx j hj).2
  have m0 := hm 0 (by norm_num)
  have m1 := hm 1 (by norm_num)
  have m2 := hm 2 (by norm_num)
  have m3 := hm 3 (by norm_num)
  have m4 := hm 4 (by norm_num)
  have m5 := hm 5 (by norm_num)
  have m6 := hm 6 (by norm_num)
  have m7 := hm 7 (by norm_num)
  have h0 := hx 0 (by norm_num)
  have h1 := hx 1 (by norm_num)
  have h2 := hx 2 (by norm_num)
  have h3 := hx 3 (by norm_num)
  have h4 := hx 4 (by norm_num)
  have h5 := hx 5 (by norm_num)
  have h6 := hx 6 (by norm_num)
  have h7 := hx 7 (by norm_num)
  have ha := h0.add H h4
  have hb := h0.sub H h4
  have hc := h1.add H h5
  have hd := h1.sub H h5
  have he := h2.add H h6
  have hf := h2.twiddle H h6
  have hg := h3.add H h7
  have hh := h3.sub H h7
  have hcpg := hc.add H hg
  have htcg := hc.twiddle H hg
  have hfdh := (hd.fiddle H hh).rsqrt2 H hT
  have hfhd := (hh.fiddle H hd).rsqrt2 H hT
  have u0 := H.nonneg
  have hle : 0 + 1 + 1 ≤ 0 + 1 + 2 + t + 3 := by omega
  have e : ∑ j ∈ Finset.range 8, m j = m 0 + m 4 + (m 2 + m 6) + (m 1 + m 5 + (m 3 + m 7)) := by
    simp only [Finset.sum_range_succ, Finset.sum_range_zero]; ring
  rw [e]
  interval_cases k
  · exact ⟨_, rfl, _, rfl, ((ha.add H he).add H hcpg).mono u0 (by omega) (by linarith)⟩
  · exact ⟨_, rfl, _, rfl, (((hb.sub H hf).mono u0 hle le_rfl).sub H hfhd).mono u0 (by omega) (by linarith)⟩
  · exact ⟨_, rfl, _, rfl, ((ha.sub H he).sub H htcg).mono u0 (by omega) (by linarith)⟩
  · exact ⟨_, rfl, _, rfl, (((hb.add H hf).mono u0 hle le_rfl).sub H hfdh).mono u0 (by omega) (by linarith)⟩
  · exact ⟨_, rfl, _, rfl, ((ha.add H he).sub H hcpg).mono u0 (by omega) (by linarith)⟩
  · exact ⟨_, rfl, _, rfl, (((hb.sub H hf).mono u0 hle le_rfl).add H hfhd).mono u0 (by omega) (by linarith)⟩
  · exact ⟨_, rfl, _, rfl, ((ha.sub H he).add H htcg).mono u0 (by omega) (by linarith)⟩
  · exact ⟨_, rfl, _, rfl, (((hb.add H hf).mono u0 hle le_rfl).add H hfdh).mono u0 (by omega) (by linarith)⟩

omit [Parts V A] H hT in
theorem getD_of_some {l : List A} {k : ℕ} {r : A} (h : l[k]? = some r) (d : A) : l.getD k d = r := by
  rw [List.getD_eq_getElem?_getD, h]; rfl

omit H hT in
theorem getD_lt {β : Type} (f : β → ℕ) (d : β) (tab : List (List β)) (n : ℕ) (h : (f d < n ∧ ∀ row ∈ tab, ∀ c ∈ row, f c < n)) (k j : ℕ) : f ((tab.getD k []).getD j d) < n := by
  rw [List.getD_eq_getElem?_getD, List.getD_eq_getElem?_getD]
  by_cases hk : k < tab.length
  · rw [List.getElem?_eq_getElem hk, Option.getD_some]
    by_cases hj : j < tab[k].length
    · rw [List.getElem?_eq_getElem hj, Option.getD_some]
      exact h.2 _ (List.getElem_mem hk) _ (List.getElem_mem hj)
    · rw [List.getElem?_eq_none (by omega)]
      exact h.1
  · rw [List.getElem?_eq_none (i := k) (by omega)]
    exact h.1

/-- The rounding errors of one butterfly on exact inputs. -/
theorem dftPos_near (R : ℕ) (hR : R ∈ radices) (hL : R ≤ L) (x : ℕ → A) (k : ℕ) (hk : k < R) :
    ∃ r, (dftPos T R x)[k]? = some r ∧ Near val u (cost t R) (∑ j ∈ Finset.range R, ‖val (x j)‖) r (Spec.dft 1 R (fun j => val (x j)) k) := by
  have hx : ∀ j, Near val u 0 ‖val (x j)‖ (x j) (val (x j)) := fun j => ⟨by simp, le_rfl⟩
  have hn := norm_dft 1 R (fun j => val (x j)) k
  have key := dftPos_eq Trig.real Trig.real_exact R hR (fun j => val (x j))
  -- from the relation of the two runs to the transform
  suffices ∃ r, (dftPos T R x)[k]? = some r ∧ ∃ w, (dftPos Trig.real R fun j => val (x j))[k]? = some w ∧
      (Near val u (cost t R) (∑ j ∈ Finset.range R, ‖val (x j)‖) r w ∨ ∃ L, cost t R = 2 * L ∧ Near val u L (2 * ∑ j ∈ Finset.range R, ‖val (x j)‖) r w) by
    obtain ⟨r, e, w, e2, h⟩ := this
    rw [key, List.getElem?_map, List.getElem?_range hk, Option.map_some, Option.some.injEq] at e2
    subst e2
    refine ⟨r, e, ?_⟩
    rcases h with h | ⟨L, hL, h⟩
    · exact h
    · rw [hL]; exact h.double H.nonneg hn
  clear key hn
  have odd : ∀ h, 0 < h → R = 2 * h + 1 → ∀ ctab stab, (id 0 < 2 * h + 1 ∧ ∀ row ∈ ctab, ∀ c ∈ row, id c < 2 * h + 1) →
      ((0 : ℤ).natAbs < 2 * h + 1 ∧ ∀ row ∈ stab, ∀ c ∈ row, c.natAbs < 2 * h + 1) → ∃ r, (oddDft T (2 * h + 1) ctab stab x)[k]? = some r ∧ ∃ w, (oddDft Trig.real (2 * h + 1) ctab stab fun j => val (x j))[k]? = some w ∧
      (Near val u (cost t R) (∑ j ∈ Finset.range R, ‖val (x j)‖) r w ∨ ∃ L, cost t R = 2 * L ∧ Near val u L (2 * ∑ j ∈ Finset.range R, ‖val (x j)‖) r w) := by
    intro h h0 hR ctab stab hct hst
    obtain ⟨r, e, w, e2, hh⟩ := oddDft_near H hT h h0 ctab stab x (fun j => val (x j)) (fun j => ‖val (x j)‖) (hR ▸ hL)
      (getD_lt id 0 ctab _ hct) (getD_lt Int.natAbs 0 stab _ hst) (fun j _ => hx j) k (hR ▸ hk)
    refine ⟨r, e, w, e2, Or.inr ⟨h + t + 3, ?_, hR ▸ hh⟩⟩
    unfold cost
    rw [if_neg (by omega), if_neg (by omega), if_neg (by omega)]
    omega
  simp only [radices, List.mem_cons, List.not_mem_nil, or_false] at hR
  unfold dftPos
  rcases hR with h | h | h | h | h | h | h | h | h | h | h | h | h <;> subst h <;> norm_num only
  · obtain ⟨r, e, w, e2, h⟩ := dft2_near H hT x (fun j => val (x j)) (fun j => ‖val (x j)‖) (fun j _ => hx j) k hk
    exact ⟨r, e, w, e2, Or.inl h⟩
  · exact odd 1 (by norm_num) (by norm_num) c3 s3 (by decide +kernel) (by decide +kernel)
  · obtain ⟨r, e, w, e2, h⟩ := dft4_near H hT x (fun j => val (x j)) (fun j => ‖val (x j)‖) (fun j _ => hx j) k hk
    exact ⟨r, e, w, e2, Or.inl h⟩
  · exact odd 2 (by norm_num) (by norm_num) c5 s5 (by decide +kernel) (by decide +kernel)
  · exact odd 3 (by norm_num) (by norm_num) c7 s7 (by decide +kernel) (by decide +kernel)
  · obtain ⟨r, e, w, e2, h⟩ := dft8_near H hT x (fun j => val (x j)) (fun j => ‖val (x j)‖) (fun j _ => hx j) k hk
    exact ⟨r, e, w, e2, Or.inr ⟨t + 7, by simp only [cost]; norm_num; omega, h⟩⟩
  · exact odd 5 (by norm_num) (by norm_num) c11 s11 (by decide +kernel) (by decide +kernel)
  · exact odd 6 (by norm_num) (by norm_num) c13 s13 (by decide +kernel) (by decide +kernel)
  · exact odd 8 (by norm_num) (by norm_num) c17 s17 (by decide +kernel) (by decide +kernel)
  · exact odd 9 (by norm_num) (by norm_num) c19 s19 (by decide +kernel) (by decide +kernel)
  · exact odd 11 (by norm_num) (by norm_num) c23 s23 (by decide +kernel) (by decide +kernel)
  · exact odd 14 (by norm_num) (by norm_num) c29 s29 (by decide +kernel) (by decide +kernel)
  · exact odd 15 (by norm_num) (by norm_num) c31 s31 (by decide +kernel) (by decide +kernel)

omit H hT in
theorem dftPos_length (T : Trig V) (R : ℕ) (hR : R ∈ radices) (x : ℕ → A) : (dftPos T R x).length = R := by
  simp only [radices, List.mem_cons, List.not_mem_nil, or_false] at hR
  unfold dftPos
  rcases hR with h | h | h | h | h | h | h | h | h | h | h | h | h <;> subst h <;> norm_num only
  all_goals rfl

omit [Parts V A] [Zero A] [Add A] [Sub A] [Mul A] [SMul V A] H hT in
theorem getElem?_take_drop_rev (l : List A) (k : ℕ) (hk : k < l.length) : (l.take 1 ++ (l.drop 1).reverse)[k]? = l[if k = 0 then 0 else l.length - k]? := by
  cases l with
  | nil => simp at hk
  | cons a l =>
    cases k with
    | zero => simp
    | succ k =>
      simp only [List.length_cons] at hk
      simp only [List.take_succ_cons, List.take_zero, List.drop_succ_cons, List.drop_zero, List.cons_append, List.nil_append, List.getElem?_cons_succ, List.length_cons]
      rw [List.getElem?_reverse (by omega), if_neg (by omega), show l.length + 1 - (k + 1) = (l.length - 1 - k) + 1 by omega, List.getElem?_cons_succ]

theorem dft_near_exact (s : ℤ) (hs : s = 1 ∨ s = -1) (R : ℕ) (hR : R ∈ radices) (hL : R ≤ L) (x : ℕ → A) (k : ℕ) (hk : k < R) :
    ∃ r, (dft T s R x)[k]? = some r ∧ Near val u (cost t R) (∑ j ∈ Finset.range R, ‖val (x j)‖) r (Spec.dft s R (fun j => val (x j)) k) := by
  have hpos := dftPos_near H hT R hR hL x
  have hlen := dftPos_length T R hR x
  unfold dft
  simp only
  rcases hs with h | h <;> subst h
  · rw [if_neg (by simp)]
    exact hpos k hk
  · by_cases h2 : R = 2
    · rw [if_neg (fun h => h.2 h2)]
      obtain ⟨r, e, h⟩ := hpos k hk
      refine ⟨r, e, ?_⟩
      subst h2
      have e1 := dft2_eq (fun j => val (x j)) 1 (Or.inl rfl)
      rw [dft2_eq (fun j => val (x j)) (-1) (Or.inr rfl)] at e1
      have := List.map_inj_left.mp e1 k (List.mem_range.mpr hk)
      rw [this]
      exact h
    · rw [if_pos ⟨rfl, h2⟩, getElem?_take_drop_rev _ _ (by omega), hlen]
      by_cases h0 : k = 0
      · rw [if_pos h0]
        obtain ⟨r, e, h⟩ := hpos 0 (by omega)
        refine ⟨r, e, ?_⟩
        have : Spec.dft (-1) R (fun j => val (x j)) k = Spec.dft 1 R (fun j => val (x j)) 0 := by
          unfold Spec.dft
          simp only [h0, Nat.mul_zero, Spec.unit_zero]
        rw [this]
        exact h
      · rw [if_neg h0]
        obtain ⟨r, e, h⟩ := hpos (R - k) (by omega)
        refine ⟨r, e, ?_⟩
        rw [Spec.dft_rev 1 _ _ _ (by omega)] at h
        exact h

theorem dft_near (s : ℤ) (hs : s = 1 ∨ s = -1) (R : ℕ) (hR : R ∈ radices) (hL : R ≤ L) (x : ℕ → A) (y : ℕ → ℂ) (m : ℕ → ℝ)
    (hx : ∀ j < R, Near val u K (m j) (x j) (y j)) (k : ℕ) (hk : k < R) :
    ∃ r, (dft T s R x)[k]? = some r ∧ Near val u (K + cost t R) (∑ j ∈ Finset.range R, m j) r (Spec.dft s R y k) := by
  obtain ⟨r, e, h⟩ := dft_near_exact H hT s hs R hR hL x k hk
  refine ⟨r, e, ?_, (norm_dft _ _ _ _).trans (Finset.sum_le_sum fun j hj => (hx j (Finset.mem_range.mp hj)).2)⟩
  have u0 := H.nonneg
  have h1 : ∑ j ∈ Finset.range R, ‖val (x j)‖ ≤ (1 + u) ^ K * ∑ j ∈ Finset.range R, m j := by
    rw [Finset.mul_sum]
    exact Finset.sum_le_sum fun j hj => Near.size u0 (hx j (Finset.mem_range.mp hj))
  have h2 : ‖Spec.dft s R (fun j => val (x j)) k - Spec.dft s R y k‖ ≤ ((1 + u) ^ K - 1) * ∑ j ∈ Finset.range R, m j := by
    rw [dft_sub, Finset.mul_sum]
    exact (norm_dft _ _ _ _).trans (Finset.sum_le_sum fun j hj => (hx j (Finset.mem_range.mp hj)).1)
  have h3 := pow_nonneg' u u0 (cost t R)
  calc ‖val r - Spec.dft s R y k‖ = ‖(val r - Spec.dft s R (fun j => val (x j)) k) + (Spec.dft s R (fun j => val (x j)) k - Spec.dft s R y k)‖ := by ring_nf
    _ ≤ ‖val r - Spec.dft s R (fun j => val (x j)) k‖ + ‖Spec.dft s R (fun j => val (x j)) k - Spec.dft s R y k‖ := norm_add_le _ _
    _ ≤ ((1 + u) ^ cost t R - 1) * ((1 + u) ^ K * ∑ j ∈ Finset.range R, m j) + ((1 + u) ^ K - 1) * ∑ j ∈ Finset.range R, m j :=
      add_le_add (h.1.trans (mul_le_mul_of_nonneg_left h1 h3)) h2
    _ = _ := by rw [pow_add]; ring

omit H hT in
theorem dft_length (T : Trig V) (s : ℤ) (R : ℕ) (hR : R ∈ radices) (x : ℕ → A) : (dft T s R x).length = R := by
  have hlen := dftPos_length T R hR x
  unfold dft
  simp only
  split_ifs
  · have : 0 < R := Nat.pos_of_ne_zero (by rintro rfl; simp [radices] at hR)
    simp [hlen]
    omega
  · exact hlen

/-- The factors are accurate to `2t + 2` units. -/
theorem factor_near (s : ℤ) (hs : s = 1 ∨ s = -1) (N l : ℕ) (hl : l < N) (hL : N ≤ L) : ‖val (Parts.make (T.cos l N) ((s : V) * T.sin l N) : A) - Spec.unit s N l‖ ≤ (1 + u) ^ (2 * t + 2) - 1 := by
  have u0 := H.nonneg
  have hc := hT.cos l N hl hL
  have hsn := hT.sin l N hl hL
  have hsg := H.sign s (T.sin l N) hs
  have hone := Real.abs_sin_le_one (2 * Real.pi * l / N)
  have hsabs : |(s : ℝ)| = 1 := by rcases hs with h | h <;> subst h <;> norm_num
  have hb : |valV (T.sin l N)| ≤ 1 + t * u := by
    calc |valV (T.sin l N)| = |(valV (T.sin l N) - Real.sin (2 * Real.pi * l / N)) + Real.sin (2 * Real.pi * l / N)| := by ring_nf
      _ ≤ _ + _ := abs_add_le _ _
      _ ≤ t * u + 1 := add_le_add hsn hone
      _ = _ := by ring
  have h2 : |valV ((s : V) * T.sin l N) - s * Real.sin (2 * Real.pi * l / N)| ≤ u * (1 + t * u) + t * u := by
    calc _ = |(valV ((s : V) * T.sin l N) - s * valV (T.sin l N)) + s * (valV (T.sin l N) - Real.sin (2 * Real.pi * l / N))| := by ring_nf
      _ ≤ _ + _ := abs_add_le _ _
      _ ≤ u * (1 + t * u) + t * u := by
        rw [abs_mul, hsabs, one_mul]
        exact add_le_add (hsg.trans (mul_le_mul_of_nonneg_left hb u0)) hsn
  have h3 : Spec.unit s N l = ⟨Real.cos (2 * Real.pi * l / N), s * Real.sin (2 * Real.pi * l / N)⟩ := by
    unfold Spec.unit
    have : (s : ℂ) * (2 * Real.pi * I * l / N) = ((s * (2 * Real.pi * l / N) : ℝ) : ℂ) * I := by push_cast; ring
    rw [this]
    apply Complex.ext
    · rw [exp_ofReal_mul_I_re]
      rcases hs with h | h <;> subst h <;> simp [Real.cos_neg]
    · rw [exp_ofReal_mul_I_im]
      rcases hs with h | h <;> subst h <;> simp [Real.sin_neg]
  rw [H.make, h3]
  have ht := bernoulli u u0 (t + 1)
  have ht' := bernoulli u u0 t
  have hp := pow_nonneg' u u0 (t + 1)
  refine (Complex.norm_le_abs_re_add_abs_im _).trans ?_
  simp only [Complex.sub_re, Complex.sub_im]
  have e1 : (1 + u) ^ (t + 1) = (1 + u) ^ t * (1 + u) := pow_succ _ _
  have e2 : (1 + u) ^ (2 * t + 2) = (1 + u) ^ (t + 1) * (1 + u) ^ (t + 1) := by rw [← pow_add]; congr 1; ring
  have h4 : u * (1 + t * u) + t * u ≤ (1 + u) ^ (t + 1) - 1 := by
    rw [e1]
    nlinarith
  have h5 : t * u ≤ (1 + u) ^ (t + 1) - 1 := by
    push_cast at ht
    linarith
  rw [e2]
  nlinarith

end FFT
end DSP
