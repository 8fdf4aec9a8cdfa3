import Verif.Lemmas.FFTInd

/-!
# Range and rounding errors of the butterflies

Like `NearFFT`, for arithmetic with a limited range: results above `Ω` may overflow, and small ones have an absolute error.
`Near E Ω K m a z`: if `K` roundings of a quantity of size `m` stay below `Ω`, then the machine number `a` is finite and is off the complex number `z` by at most that.
-/

set_option linter.unusedSectionVars false

namespace DSP
namespace FFT
namespace Ranged

open Complex

variable {V A : Type} [Parts V A] [Zero V] [Add V] [Sub V] [Mul V] [IntCast V] [Zero A] [Add A] [Sub A] [Mul A] [SMul V A]

/-- Values, which of them are finite, the relative error `u`, and the size `μ` below which the error is absolute. -/
structure Env (V A : Type) where
  valV : V → ℝ
  val : A → ℂ
  goodV : V → Prop
  good : A → Prop
  u : ℝ
  μ : ℝ

/-- What is used of the arithmetic of complex numbers with a limited range. -/
structure Env.Lawful (E : Env V A) (Ω : ℝ) : Prop where
  nonneg : 0 ≤ E.u
  tiny : 0 ≤ E.μ
  make : ∀ a b, E.val (Parts.make a b) = ⟨E.valV a, E.valV b⟩
  good : ∀ a b, E.goodV a → E.goodV b → E.good (Parts.make a b)
  zero : E.goodV 0 ∧ E.valV 0 = 0
  sign : ∀ (s : ℤ) (c : V), s = 1 ∨ s = -1 → E.goodV c → |E.valV c| ≤ 2 → E.goodV ((s : V) * c) ∧ E.valV ((s : V) * c) = s * E.valV c
  add : ∀ a b : A, E.good a → E.good b → ‖E.val a + E.val b‖ ≤ Ω → E.good (a + b) ∧ ‖E.val (a + b) - (E.val a + E.val b)‖ ≤ E.u * (‖E.val a + E.val b‖ + E.μ)
  sub : ∀ a b : A, E.good a → E.good b → ‖E.val a - E.val b‖ ≤ Ω → E.good (a - b) ∧ ‖E.val (a - b) - (E.val a - E.val b)‖ ≤ E.u * (‖E.val a - E.val b‖ + E.μ)
  turn : ∀ a b : A, E.good a → E.good b → ‖E.val a - E.val b‖ ≤ Ω → E.good (Parts.make (Parts.im a - Parts.im b) (Parts.re b - Parts.re a)) ∧
    ‖E.val (Parts.make (Parts.im a - Parts.im b) (Parts.re b - Parts.re a)) - -I * (E.val a - E.val b)‖ ≤ E.u * (‖E.val a - E.val b‖ + E.μ)
  cross : ∀ a b : A, E.good a → E.good b → ‖E.val a - I * E.val b‖ ≤ Ω → E.good (Parts.make (Parts.re a + Parts.im b) (Parts.im a - Parts.re b)) ∧
    ‖E.val (Parts.make (Parts.re a + Parts.im b) (Parts.im a - Parts.re b)) - (E.val a - I * E.val b)‖ ≤ E.u * (‖E.val a - I * E.val b‖ + E.μ)
  smul : ∀ (c : V) (a : A), E.goodV c → E.good a → ‖E.valV c * E.val a‖ ≤ Ω → E.good (c • a) ∧ ‖E.val (c • a) - E.valV c * E.val a‖ ≤ E.u * (‖E.valV c * E.val a‖ + E.μ)
  mul : ∀ a b : A, E.good a → E.good b → (1 + E.u) ^ 2 * (‖E.val a * E.val b‖ + E.μ) ≤ Ω →
    E.good (a * b) ∧ ‖E.val (a * b) - E.val a * E.val b‖ ≤ 3 * E.u * (‖E.val a * E.val b‖ + E.μ)

/-- A smaller range. -/
theorem Env.Lawful.weaken {E : Env V A} {Ω Ω' : ℝ} (H : E.Lawful Ω) (h : Ω' ≤ Ω) : E.Lawful Ω' :=
  { H with
    add := fun a b h1 h2 h3 => H.add a b h1 h2 (h3.trans h)
    sub := fun a b h1 h2 h3 => H.sub a b h1 h2 (h3.trans h)
    turn := fun a b h1 h2 h3 => H.turn a b h1 h2 (h3.trans h)
    cross := fun a b h1 h2 h3 => H.cross a b h1 h2 (h3.trans h)
    smul := fun a b h1 h2 h3 => H.smul a b h1 h2 (h3.trans h)
    mul := fun a b h1 h2 h3 => H.mul a b h1 h2 (h3.trans h) }

/-- See above. -/
def Near (E : Env V A) (Ω : ℝ) (K : ℕ) (m : ℝ) (a : A) (z : ℂ) : Prop :=
  ‖z‖ + E.μ ≤ m ∧ ((1 + E.u) ^ K * m ≤ Ω → E.good a ∧ ‖E.val a - z‖ ≤ ((1 + E.u) ^ K - 1) * m)

variable {E : Env V A} {Ω : ℝ} (H : E.Lawful Ω) {K L : ℕ} {m n : ℝ} {a b : A} {z w : ℂ}
include H

theorem Near.nonneg (h : Near E Ω K m a z) : 0 ≤ m := by
  have := H.tiny
  have := norm_nonneg z
  linarith [h.1]

theorem Near.mono (h : Near E Ω K m a z) (hK : K ≤ L) (hm : m ≤ n) : Near E Ω L n a z := by
  have u0 := H.nonneg
  have h1 := pow_nonneg' E.u u0 K
  have h2 : (1 + E.u) ^ K ≤ (1 + E.u) ^ L := pow_le_pow_right₀ (by linarith) hK
  have h3 := h.nonneg H
  have h4 := pow_nonneg' E.u u0 L
  refine ⟨h.1.trans hm, fun hc => ?_⟩
  have h5 : (1 + E.u) ^ K * m ≤ (1 + E.u) ^ L * n := by gcongr
  obtain ⟨g, e⟩ := h.2 (h5.trans hc)
  refine ⟨g, e.trans ?_⟩
  gcongr

/-- A value near `z`, rounded with an error of `c` units. -/
theorem near_round (c : ℕ) {v : ℂ} {r : A} (hz : ‖z‖ + E.μ ≤ m)
    (h : (1 + E.u) ^ (K + c) * m ≤ Ω → ‖v - z‖ ≤ ((1 + E.u) ^ K - 1) * m ∧ (‖v‖ + E.μ ≤ (1 + E.u) ^ K * m → E.good r ∧ ‖E.val r - v‖ ≤ c * E.u * (‖v‖ + E.μ))) :
    Near E Ω (K + c) m r z := by
  refine ⟨hz, fun hc => ?_⟩
  obtain ⟨h1, h2⟩ := h hc
  have u0 := H.nonneg
  have hm : 0 ≤ m := by
    have := H.tiny
    have := norm_nonneg z
    linarith
  have hv : ‖v‖ + E.μ ≤ (1 + E.u) ^ K * m := by
    calc ‖v‖ + E.μ = ‖(v - z) + z‖ + E.μ := by ring_nf
      _ ≤ ‖v - z‖ + ‖z‖ + E.μ := by gcongr; exact norm_add_le _ _
      _ ≤ ((1 + E.u) ^ K - 1) * m + m := by linarith
      _ = _ := by ring
  obtain ⟨g, h3⟩ := h2 hv
  refine ⟨g, ?_⟩
  have hc' := bernoulli E.u u0 c
  have hcu : 0 ≤ (c : ℝ) * E.u := by positivity
  calc ‖E.val r - z‖ = ‖(E.val r - v) + (v - z)‖ := by ring_nf
    _ ≤ ‖E.val r - v‖ + ‖v - z‖ := norm_add_le _ _
    _ ≤ c * E.u * ((1 + E.u) ^ K * m) + ((1 + E.u) ^ K - 1) * m := by gcongr; exact h3.trans (by gcongr)
    _ ≤ ((1 + E.u) ^ c - 1) * ((1 + E.u) ^ K * m) + ((1 + E.u) ^ K - 1) * m := by gcongr
    _ = ((1 + E.u) ^ (K + c) - 1) * m := by rw [pow_add]; ring

/-- The budget of a result is above that of its parts. -/
theorem budget_mono {K L : ℕ} {m n : ℝ} (hm : 0 ≤ m) (h : (1 + E.u) ^ L * n ≤ Ω) (hK : K ≤ L) (hmn : m ≤ n) : (1 + E.u) ^ K * m ≤ Ω := by
  have u0 := H.nonneg
  have h2 : (1 + E.u) ^ K ≤ (1 + E.u) ^ L := pow_le_pow_right₀ (by linarith) hK
  have h3 : 0 ≤ (1 + E.u) ^ L := by positivity
  exact (mul_le_mul h2 hmn hm h3).trans h

theorem Near.add (ha : Near E Ω K m a z) (hb : Near E Ω K n b w) : Near E Ω (K + 1) (m + n) (a + b) (z + w) := by
  have hm := ha.nonneg H
  have hn := hb.nonneg H
  refine near_round H 1 (v := E.val a + E.val b) ?_ fun hc => ?_
  · have := norm_add_le z w
    linarith [ha.1, hb.1, H.tiny]
  · obtain ⟨ga, ea⟩ := ha.2 (budget_mono H hm hc (by omega) (by linarith))
    obtain ⟨gb, eb⟩ := hb.2 (budget_mono H hn hc (by omega) (by linarith))
    refine ⟨?_, fun hv => ?_⟩
    · calc _ = ‖(E.val a - z) + (E.val b - w)‖ := by ring_nf
        _ ≤ ‖E.val a - z‖ + ‖E.val b - w‖ := norm_add_le _ _
        _ ≤ _ := by rw [mul_add]; exact add_le_add ea eb
    · have hv' := hv.trans (budget_mono H (by linarith) hc (Nat.le_succ K) le_rfl)
      simpa using H.add a b ga gb (by linarith [H.tiny])

theorem Near.sub (ha : Near E Ω K m a z) (hb : Near E Ω K n b w) : Near E Ω (K + 1) (m + n) (a - b) (z - w) := by
  have hm := ha.nonneg H
  have hn := hb.nonneg H
  refine near_round H 1 (v := E.val a - E.val b) ?_ fun hc => ?_
  · have := norm_sub_le z w
    linarith [ha.1, hb.1, H.tiny]
  · obtain ⟨ga, ea⟩ := ha.2 (budget_mono H hm hc (by omega) (by linarith))
    obtain ⟨gb, eb⟩ := hb.2 (budget_mono H hn hc (by omega) (by linarith))
    refine ⟨?_, fun hv => ?_⟩
    · calc _ = ‖(E.val a - z) - (E.val b - w)‖ := by ring_nf
        _ ≤ ‖E.val a - z‖ + ‖E.val b - w‖ := norm_sub_le _ _
        _ ≤ _ := by rw [mul_add]; exact add_le_add ea eb
    · have hv' := hv.trans (budget_mono H (by linarith) hc (Nat.le_succ K) le_rfl)
      simpa using H.sub a b ga gb (by linarith [H.tiny])

theorem Near.twiddle (ha : Near E Ω K m a z) (hb : Near E Ω K n b w) : Near E Ω (K + 1) (m + n) (twiddle a b) (twiddle z w) := by
  have hm := ha.nonneg H
  have hn := hb.nonneg H
  refine near_round H 1 (v := -I * (E.val a - E.val b)) ?_ fun hc => ?_
  · rw [twiddle_eq, norm_mul, norm_neg, norm_I, one_mul]
    have := norm_sub_le z w
    linarith [ha.1, hb.1, H.tiny]
  · obtain ⟨ga, ea⟩ := ha.2 (budget_mono H hm hc (by omega) (by linarith))
    obtain ⟨gb, eb⟩ := hb.2 (budget_mono H hn hc (by omega) (by linarith))
    refine ⟨?_, fun hv => ?_⟩
    · rw [twiddle_eq]
      calc _ = ‖-I * ((E.val a - z) - (E.val b - w))‖ := by ring_nf
        _ = ‖(E.val a - z) - (E.val b - w)‖ := by rw [norm_mul, norm_neg, norm_I, one_mul]
        _ ≤ ‖E.val a - z‖ + ‖E.val b - w‖ := norm_sub_le _ _
        _ ≤ _ := by rw [mul_add]; exact add_le_add ea eb
    · have hv' := hv.trans (budget_mono H (by linarith) hc (Nat.le_succ K) le_rfl)
      rw [norm_mul, norm_neg, norm_I, one_mul] at hv' ⊢
      simpa [FFT.twiddle] using H.turn a b ga gb (by linarith [H.tiny])

theorem Near.fiddle (ha : Near E Ω K m a z) (hb : Near E Ω K n b w) : Near E Ω (K + 2) (2 * (m + n)) (fiddle a b) (fiddle z w) := by
  have hm := ha.nonneg H
  have hn := hb.nonneg H
  have hc := ha.add H hb
  have hd := ha.sub H hb
  unfold FFT.fiddle
  simp only []
  refine near_round H 1 (K := K + 1) (v := E.val (a - b) - I * E.val (a + b)) ?_ fun hb' => ?_
  · calc _ = ‖(z - w) - I * (z + w)‖ + E.μ := by
          congr 2; apply Complex.ext <;> simp [Parts.make, Parts.re, Parts.im]; ring
      _ ≤ ‖z - w‖ + ‖I * (z + w)‖ + E.μ := by gcongr; exact norm_sub_le _ _
      _ = ‖z - w‖ + ‖z + w‖ + E.μ := by rw [norm_mul, norm_I, one_mul]
      _ ≤ _ := by linarith [hc.1, hd.1, H.tiny]
  · obtain ⟨gc, ec⟩ := hc.2 (budget_mono H (by linarith) hb' (by omega) (by linarith))
    obtain ⟨gd, ed⟩ := hd.2 (budget_mono H (by linarith) hb' (by omega) (by linarith))
    refine ⟨?_, fun hv => ?_⟩
    · calc _ = ‖(E.val (a - b) - (z - w)) - I * (E.val (a + b) - (z + w))‖ := by
            congr 1; apply Complex.ext <;> simp [Parts.make, Parts.re, Parts.im] <;> ring
        _ ≤ ‖E.val (a - b) - (z - w)‖ + ‖I * (E.val (a + b) - (z + w))‖ := norm_sub_le _ _
        _ = ‖E.val (a - b) - (z - w)‖ + ‖E.val (a + b) - (z + w)‖ := by rw [norm_mul, norm_I, one_mul]
        _ ≤ _ := by linarith
    · have hv' := hv.trans (budget_mono H (by linarith) hb' (Nat.le_succ _) le_rfl)
      simpa using H.cross (a - b) (a + b) gd gc (by linarith [H.tiny])

/-- A constant that is off by `t` units. -/
theorem Near.smul (t : ℕ) {c : V} {r : ℝ} (hr : |r| ≤ 1) (gc : E.goodV c) (hc : |E.valV c - r| ≤ (1 + E.u) ^ t - 1) (ha : Near E Ω K m a z) :
    Near E Ω (K + t + 1) m (c • a) ((r : ℂ) * z) := by
  have hm := ha.nonneg H
  have hu := H.nonneg
  refine near_round H 1 (v := (E.valV c : ℂ) * E.val a) ?_ fun hb => ?_
  · rw [norm_mul, norm_real]
    have : ‖r‖ * ‖z‖ ≤ 1 * ‖z‖ := by gcongr; exact hr
    linarith [ha.1]
  · obtain ⟨ga, ea⟩ := ha.2 (budget_mono H hm hb (by omega) le_rfl)
    have h0 := pow_nonneg' E.u hu t
    have hs : ‖E.val a‖ ≤ (1 + E.u) ^ K * m := by
      calc ‖E.val a‖ = ‖(E.val a - z) + z‖ := by ring_nf
        _ ≤ ‖E.val a - z‖ + ‖z‖ := norm_add_le _ _
        _ ≤ ((1 + E.u) ^ K - 1) * m + m := by linarith [ha.1, H.tiny]
        _ = _ := by ring
    refine ⟨?_, fun hv => ?_⟩
    · calc _ = ‖((E.valV c - r : ℝ) : ℂ) * E.val a + (r : ℂ) * (E.val a - z)‖ := by push_cast; ring_nf
        _ ≤ ‖((E.valV c - r : ℝ) : ℂ) * E.val a‖ + ‖(r : ℂ) * (E.val a - z)‖ := norm_add_le _ _
        _ = |E.valV c - r| * ‖E.val a‖ + |r| * ‖E.val a - z‖ := by rw [norm_mul, norm_mul, norm_real, norm_real]; rfl
        _ ≤ ((1 + E.u) ^ t - 1) * ((1 + E.u) ^ K * m) + 1 * (((1 + E.u) ^ K - 1) * m) := by gcongr
        _ = _ := by rw [pow_add]; ring
    · have hv' := hv.trans (budget_mono H hm hb (Nat.le_succ _) le_rfl)
      simpa using H.smul c a gc ga (by linarith [H.tiny])

/-- A complex constant that is off by `t` units. -/
theorem Near.mul (t : ℕ) {c : A} {r : ℂ} (hr : ‖r‖ ≤ 1) (gc : E.good c) (hc : ‖E.val c - r‖ ≤ (1 + E.u) ^ t - 1) (ha : Near E Ω K m a z) :
    Near E Ω (K + t + 3) m (c * a) (r * z) := by
  have hm := ha.nonneg H
  have hu := H.nonneg
  refine near_round H 3 (v := E.val c * E.val a) ?_ fun hb => ?_
  · rw [norm_mul]
    have : ‖r‖ * ‖z‖ ≤ 1 * ‖z‖ := by gcongr
    linarith [ha.1]
  · obtain ⟨ga, ea⟩ := ha.2 (budget_mono H hm hb (by omega) le_rfl)
    have h0 := pow_nonneg' E.u hu t
    have hs : ‖E.val a‖ ≤ (1 + E.u) ^ K * m := by
      calc ‖E.val a‖ = ‖(E.val a - z) + z‖ := by ring_nf
        _ ≤ ‖E.val a - z‖ + ‖z‖ := norm_add_le _ _
        _ ≤ ((1 + E.u) ^ K - 1) * m + m := by linarith [ha.1, H.tiny]
        _ = _ := by ring
    refine ⟨?_, fun hv => ?_⟩
    · calc _ = ‖(E.val c - r) * E.val a + r * (E.val a - z)‖ := by ring_nf
        _ ≤ ‖(E.val c - r) * E.val a‖ + ‖r * (E.val a - z)‖ := norm_add_le _ _
        _ = ‖E.val c - r‖ * ‖E.val a‖ + ‖r‖ * ‖E.val a - z‖ := by rw [norm_mul, norm_mul]
        _ ≤ ((1 + E.u) ^ t - 1) * ((1 + E.u) ^ K * m) + 1 * (((1 + E.u) ^ K - 1) * m) := by gcongr
        _ = _ := by rw [pow_add]; ring
    · have hv' : (1 + E.u) ^ 2 * (‖E.val c * E.val a‖ + E.μ) ≤ Ω := by
        have h1 : (1 + E.u) ^ 2 * (‖E.val c * E.val a‖ + E.μ) ≤ (1 + E.u) ^ 2 * ((1 + E.u) ^ (K + t) * m) := by gcongr
        rw [← mul_assoc, ← pow_add] at h1
        exact h1.trans (budget_mono H hm hb (by omega) le_rfl)
      simpa using H.mul c a gc ga hv'

theorem near_foldl (f : ℕ → A) (g : ℕ → ℂ) (c : ℕ → Prop) [DecidablePred c] (m : ℕ → ℝ) (N : ℕ) (hf : ∀ j < N, Near E Ω K (m j) (f j) (g j)) {M : ℝ} (hb : Near E Ω K M a z) :
    Near E Ω (K + N) (M + ∑ j ∈ Finset.range N, m j)
      ((List.range N).foldl (fun s j => if c j then s - f j else s + f j) a) ((List.range N).foldl (fun s j => if c j then s - g j else s + g j) z) := by
  induction N with
  | zero => simpa using hb
  | succ N ih =>
    rw [List.range_succ, List.foldl_append, List.foldl_append, Finset.sum_range_succ, ← add_assoc M, ← Nat.add_assoc K]
    simp only [List.foldl_cons, List.foldl_nil]
    have h1 := ih (fun j hj => hf j (by omega))
    have h2 := (hf N (by omega)).mono H (Nat.le_add_right K N) le_rfl
    split_ifs
    · exact h1.sub H h2
    · exact h1.add H h2

theorem near_foldl_add (f : ℕ → A) (g : ℕ → ℂ) (m : ℕ → ℝ) (N : ℕ) (hf : ∀ j < N, Near E Ω K (m j) (f j) (g j)) {M : ℝ} (hb : Near E Ω K M a z) :
    Near E Ω (K + N) (M + ∑ j ∈ Finset.range N, m j) ((List.range N).foldl (fun s j => s + f j) a) ((List.range N).foldl (fun s j => s + g j) z) := by
  have := near_foldl H f g (fun _ => False) m N hf hb
  simpa using this

/-- The constants are finite and accurate to `t` units, for sizes up to `L`. -/
structure Accurate (E : Env V A) (T : Trig V) (t L : ℕ) : Prop where
  cos : ∀ n N, n < N → N ≤ L → E.goodV (T.cos n N) ∧ |E.valV (T.cos n N) - Real.cos (2 * Real.pi * n / N)| ≤ t * E.u
  sin : ∀ n N, n < N → N ≤ L → E.goodV (T.sin n N) ∧ |E.valV (T.sin n N) - Real.sin (2 * Real.pi * n / N)| ≤ t * E.u
  invSqrtTwo : E.goodV T.invSqrtTwo ∧ |E.valV T.invSqrtTwo - 1 / √2| ≤ t * E.u

variable {T : Trig V} {t : ℕ} (hT : Accurate E T t L)
include hT

theorem Near.cx (p N : ℕ) (hp : p < N) (hN : N ≤ L) (ha : Near E Ω K m a z) : Near E Ω (K + t + 1) m (cx T p N a) (cx Trig.real p N z) := by
  rw [cx_eq]
  exact ha.smul H t (Real.abs_cos_le_one _) (hT.cos p N hp hN).1 ((hT.cos p N hp hN).2.trans (bernoulli E.u H.nonneg t))

theorem Near.sx (p N : ℕ) (hp : p < N) (hN : N ≤ L) (ha : Near E Ω K m a z) : Near E Ω (K + t + 1) m (sx T p N a) (sx Trig.real p N z) := by
  rw [sx_eq]
  exact ha.smul H t (Real.abs_sin_le_one _) (hT.sin p N hp hN).1 ((hT.sin p N hp hN).2.trans (bernoulli E.u H.nonneg t))

theorem Near.rsqrt2 (ha : Near E Ω K m a z) : Near E Ω (K + t + 3) m (rsqrt2 T a) (rsqrt2 Trig.real z) := by
  rw [rsqrt2_eq]
  refine ha.mul H t ?_ (H.good _ _ hT.invSqrtTwo.1 H.zero.1) ?_
  · rw [norm_real]
    show |1 / √2| ≤ 1
    rw [abs_of_nonneg (by positivity), div_le_one (by positivity)]
    exact Real.one_le_sqrt.mpr (by norm_num)
  · rw [H.make, H.zero.2]
    have : (⟨E.valV T.invSqrtTwo, 0⟩ : ℂ) - ((Trig.real.invSqrtTwo : ℝ) : ℂ) = ((E.valV T.invSqrtTwo - 1 / √2 : ℝ) : ℂ) := by
      apply Complex.ext <;> simp [Trig.real]
    rw [this, norm_real]
    exact hT.invSqrtTwo.2.trans (bernoulli E.u H.nonneg t)

theorem oddDft_near (h : ℕ) (h0 : 0 < h) (ctab : List (List Nat)) (stab : List (List Int)) (x : ℕ → A) (y : ℕ → ℂ) (m : ℕ → ℝ)
    (hL : 2 * h + 1 ≤ L) (hct : ∀ k j, (ctab.getD k []).getD j 0 < 2 * h + 1) (hst : ∀ k j, ((stab.getD k []).getD j 0).natAbs < 2 * h + 1)
    (hx : ∀ j < 2 * h + 1, Near E Ω 0 (m j) (x j) (y j)) (k : ℕ) (hk : k < 2 * h + 1) :
    ∃ r, (oddDft T (2 * h + 1) ctab stab x)[k]? = some r ∧ ∃ w, (oddDft Trig.real (2 * h + 1) ctab stab y)[k]? = some w ∧
      Near E Ω (h + t + 3) (2 * ∑ j ∈ Finset.range (2 * h + 1), m j) r w := by
  have hh : (2 * h + 1 - 1) / 2 = h := by omega
  have hm : ∀ j < 2 * h + 1, 0 ≤ m j := fun j hj => (hx j hj).nonneg H
  unfold oddDft
  simp only [hh, List.getElem?_map, List.getElem?_range hk, Option.map_some]
  refine ⟨_, rfl, _, rfl, ?_⟩
  -- the pairs
  have hsum : ∑ j ∈ Finset.range (2 * h + 1), m j = m 0 + ∑ j ∈ Finset.range h, (m (j + 1) + m (2 * h + 1 - (j + 1))) := Spec.sum_pairs m h
  have hpos : 0 ≤ ∑ j ∈ Finset.range h, (m (j + 1) + m (2 * h + 1 - (j + 1))) := Finset.sum_nonneg (fun j hj => by
    have := Finset.mem_range.mp hj
    exact add_nonneg (hm _ (by omega)) (hm _ (by omega)))
  have h00 := hm 0 (by omega)
  have hp : ∀ j, 1 ≤ j → j ≤ h → Near E Ω 1 (m j + m (2 * h + 1 - j)) (x j + x (2 * h + 1 - j)) (y j + y (2 * h + 1 - j)) := fun j h1 h2 =>
    (hx j (by omega)).add H (hx _ (by omega))
  have hq : ∀ j, 1 ≤ j → j ≤ h → Near E Ω 1 (m j + m (2 * h + 1 - j)) (FFT.twiddle (x j) (x (2 * h + 1 - j))) (FFT.twiddle (y j) (y (2 * h + 1 - j))) := fun j h1 h2 =>
    (hx j (by omega)).twiddle H (hx _ (by omega))
  have hsplit : m 1 + m (2 * h + 1 - 1) + ∑ j ∈ Finset.range (h - 1), (m (j + 2) + m (2 * h + 1 - (j + 2))) = ∑ j ∈ Finset.range h, (m (j + 1) + m (2 * h + 1 - (j + 1))) := by
    obtain ⟨n, rfl⟩ : ∃ n, h = n + 1 := ⟨h - 1, by omega⟩
    rw [Finset.sum_range_succ', add_comm]
    rfl
  have hc : ∀ k, Near E Ω (t + h + 1) (∑ j ∈ Finset.range h, (m (j + 1) + m (2 * h + 1 - (j + 1))))
      ((List.range (h - 1)).foldl (fun sum j => sum + FFT.cx T ((ctab.getD (k - 1) []).getD (j + 2 - 1) 0) (2 * h + 1) (x (j + 2) + x (2 * h + 1 - (j + 2))))
        (FFT.cx T ((ctab.getD (k - 1) []).getD (1 - 1) 0) (2 * h + 1) (x 1 + x (2 * h + 1 - 1))))
      ((List.range (h - 1)).foldl (fun sum j => sum + FFT.cx Trig.real ((ctab.getD (k - 1) []).getD (j + 2 - 1) 0) (2 * h + 1) (y (j + 2) + y (2 * h + 1 - (j + 2))))
        (FFT.cx Trig.real ((ctab.getD (k - 1) []).getD (1 - 1) 0) (2 * h + 1) (y 1 + y (2 * h + 1 - 1)))) := by
    intro k
    have := near_foldl_add H
      (fun j => FFT.cx T ((ctab.getD (k - 1) []).getD (j + 2 - 1) 0) (2 * h + 1) (x (j + 2) + x (2 * h + 1 - (j + 2))))
      (fun j => FFT.cx Trig.real ((ctab.getD (k - 1) []).getD (j + 2 - 1) 0) (2 * h + 1) (y (j + 2) + y (2 * h + 1 - (j + 2)))) (fun j => m (j + 2) + m (2 * h + 1 - (j + 2))) (h - 1)
      (fun j hj => (hp (j + 2) (by omega) (by omega)).cx H hT _ _ (hct _ _) hL) ((hp 1 le_rfl h0).cx H hT ((ctab.getD (k - 1) []).getD (1 - 1) 0) (2 * h + 1) (hct _ _) hL)
    rw [hsplit] at this
    exact this.mono H (by omega) le_rfl
  have hs : ∀ k, Near E Ω (t + h + 1) (∑ j ∈ Finset.range h, (m (j + 1) + m (2 * h + 1 - (j + 1))))
      ((List.range (h - 1)).foldl (fun sum j => if (stab.getD (k - 1) []).getD (j + 2 - 1) 0 < 0 then
          sum - FFT.sx T ((stab.getD (k - 1) []).getD (j + 2 - 1) 0).natAbs (2 * h + 1) (FFT.twiddle (x (j + 2)) (x (2 * h + 1 - (j + 2))))
        else sum + FFT.sx T ((stab.getD (k - 1) []).getD (j + 2 - 1) 0).natAbs (2 * h + 1) (FFT.twiddle (x (j + 2)) (x (2 * h + 1 - (j + 2)))))
        (FFT.sx T ((stab.getD (k - 1) []).getD (1 - 1) 0).natAbs (2 * h + 1) (FFT.twiddle (x 1) (x (2 * h + 1 - 1)))))
      ((List.range (h - 1)).foldl (fun sum j => if (stab.getD (k - 1) []).getD (j + 2 - 1) 0 < 0 then
          sum - FFT.sx Trig.real ((stab.getD (k - 1) []).getD (j + 2 - 1) 0).natAbs (2 * h + 1) (FFT.twiddle (y (j + 2)) (y (2 * h + 1 - (j + 2))))
        else sum + FFT.sx Trig.real ((stab.getD (k - 1) []).getD (j + 2 - 1) 0).natAbs (2 * h + 1) (FFT.twiddle (y (j + 2)) (y (2 * h + 1 - (j + 2)))))
        (FFT.sx Trig.real ((stab.getD (k - 1) []).getD (1 - 1) 0).natAbs (2 * h + 1) (FFT.twiddle (y 1) (y (2 * h + 1 - 1))))) := by
    intro k
    have := near_foldl H
      (fun j => FFT.sx T ((stab.getD (k - 1) []).getD (j + 2 - 1) 0).natAbs (2 * h + 1) (FFT.twiddle (x (j + 2)) (x (2 * h + 1 - (j + 2)))))
      (fun j => FFT.sx Trig.real ((stab.getD (k - 1) []).getD (j + 2 - 1) 0).natAbs (2 * h + 1) (FFT.twiddle (y (j + 2)) (y (2 * h + 1 - (j + 2)))))
      (fun j => (stab.getD (k - 1) []).getD (j + 2 - 1) 0 < 0) (fun j => m (j + 2) + m (2 * h + 1 - (j + 2))) (h - 1)
      (fun j hj => (hq (j + 2) (by omega) (by omega)).sx H hT _ _ (hst _ _) hL) ((hq 1 le_rfl h0).sx H hT ((stab.getD (k - 1) []).getD (1 - 1) 0).natAbs (2 * h + 1) (hst _ _) hL)
    rw [hsplit] at this
    exact this.mono H (by omega) le_rfl
  have hx0 := (hx 0 (by omega)).mono H (Nat.zero_le (t + h + 1)) le_rfl
  split_ifs with k0 k1
  · have := near_foldl_add H (fun j => x (j + 1) + x (2 * h + 1 - (j + 1))) (fun j => y (j + 1) + y (2 * h + 1 - (j + 1))) (fun j => m (j + 1) + m (2 * h + 1 - (j + 1))) h
      (fun j hj => hp (j + 1) (by omega) (by omega)) ((hx 0 (by omega)).mono H (Nat.zero_le 1) le_rfl)
    exact this.mono H (by omega) (by rw [hsum]; linarith)
  · exact ((hx0.add H (hc k)).sub H ((hs k).mono H (Nat.le_succ _) le_rfl)).mono H (by omega) (by rw [hsum]; linarith)
  · exact ((hx0.add H (hc (2 * h + 1 - k))).add H ((hs (2 * h + 1 - k)).mono H (Nat.le_succ _) le_rfl)).mono H (by omega) (by rw [hsum]; linarith)

theorem dft2_near (x : ℕ → A) (y : ℕ → ℂ) (m : ℕ → ℝ) (hx : ∀ j < 2, Near E Ω 0 (m j) (x j) (y j)) (k : ℕ) (hk : k < 2) :
    ∃ r, (dft2 x)[k]? = some r ∧ ∃ w, (dft2 y)[k]? = some w ∧ Near E Ω 1 (∑ j ∈ Finset.range 2, m j) r w := by
  have h0 := hx 0 (by norm_num)
  have h1 := hx 1 (by norm_num)
  rw [Finset.sum_range_succ, Finset.sum_range_succ, Finset.sum_range_zero, zero_add]
  interval_cases k
  · exact ⟨_, rfl, _, rfl, h0.add H h1⟩
  · exact ⟨_, rfl, _, rfl, h0.sub H h1⟩

theorem dft4_near (x : ℕ → A) (y : ℕ → ℂ) (m : ℕ → ℝ) (hx : ∀ j < 4, Near E Ω 0 (m j) (x j) (y j)) (k : ℕ) (hk : k < 4) :
    ∃ r, (dft4 x)[k]? = some r ∧ ∃ w, (dft4 y)[k]? = some w ∧ Near E Ω 2 (∑ j ∈ Finset.range 4, m j) r w := by
  have h0 := hx 0 (by norm_num)
  have h1 := hx 1 (by norm_num)
  have h2 := hx 2 (by norm_num)
  have h3 := hx 3 (by norm_num)
  have ha := h0.add H h2
  have hb := h0.sub H h2
  have hc := h1.add H h3
  have hd := h1.twiddle H h3
  have e : ∑ j ∈ Finset.range 4, m j = m 0 + m 2 + (m 1 + m 3) := by
    simp only [Finset.sum_range_succ, Finset.sum_range_zero]; ring
  rw [e]
  interval_cases k
  · exact ⟨_, rfl, _, rfl, ha.add H hc⟩
  · exact ⟨_, rfl, _, rfl, hb.sub H hd⟩
  · exact ⟨_, rfl, _, rfl, ha.sub H hc⟩
  · exact ⟨_, rfl, _, rfl, hb.add H hd⟩

theorem dft8_near (x : ℕ → A) (y : ℕ → ℂ) (m : ℕ → ℝ) (hx : ∀ j < 8, Near E Ω 0 (m j) (x j) (y j)) (k : ℕ) (hk : k < 8) :
    ∃ r, (dft8 T x)[k]? = some r ∧ ∃ w, (dft8 Trig.real y)[k]? = some w ∧ Near E Ω (t + 7) (2 * ∑ j ∈ Finset.range 8, m j) r w := by
  have hm : ∀ j < 8, 0 ≤ m j := fun j hj => (hx j hj).nonneg H
  have m0 := hm 0 (by norm_num)
  have m1 := hm 1 (by norm_num)
  have m2 := hm 2 (by norm_num)
  have m3 := hm 3 (by norm_num)
  have m4 := hm 4 (by norm_num)
  have m5 := hm 5 (by norm_num)
  have m6 := hm 6 (by norm_num)
  have m7 := hm 7 (by norm_num)
  have h0 := hx 0 (by norm_num)
  have h1 := hx 1 (by norm_num)
  have h2 := hx 2 (by norm_num)
  have h3 := hx 3 (by norm_num)
  have h4 := hx 4 (by norm_num)
  have h5 := hx 5 (by norm_num)
  have h6 := hx 6 (by norm_num)
  have h7 := hx 7 (by norm_num)
  have ha := h0.add H h4
  have hb := h0.sub H h4
  have hc := h1.add H h5
  have hd := h1.sub H h5
  have he := h2.add H h6
  have hf := h2.twiddle H h6
  have hg := h3.add H h7
  have hh := h3.sub H h7
  have hcpg := hc.add H hg
  have htcg := hc.twiddle H hg
  have hfdh := (hd.fiddle H hh).rsqrt2 H hT
  have hfhd := (hh.fiddle H hd).rsqrt2 H hT
  have hle : 0 + 1 + 1 ≤ 0 + 1 + 2 + t + 3 := by omega
  have e : ∑ j ∈ Finset.range 8, m j = m 0 + m 4 + (m 2 + m 6) + (m 1 + m 5 + (m 3 + m 7)) := by
    simp only [Finset.sum_range_succ, Finset.sum_range_zero]; ring
  rw [e]
  interval_cases k
  · exact ⟨_, rfl, _, rfl, ((ha.add H he).add H hcpg).mono H (by omega) (by linarith)⟩
  · exact ⟨_, rfl, _, rfl, (((hb.sub H hf).mono H hle le_rfl).sub H hfhd).mono H (by omega) (by linarith)⟩
  · exact ⟨_, rfl, _, rfl, ((ha.sub H he).sub H htcg).mono H (by omega) (by linarith)⟩
  · exact ⟨_, rfl, _, rfl, (((hb.add H hf).mono H hle le_rfl).sub H hfdh).mono H (by omega) (by linarith)⟩
  · exact ⟨_, rfl, _, rfl, ((ha.add H he).sub H hcpg).mono H (by omega) (by linarith)⟩
  · exact ⟨_, rfl, _, rfl, (((hb.sub H hf).mono H hle le_rfl).add H hfhd).mono H (by omega) (by linarith)⟩
  · exact ⟨_, rfl, _, rfl, ((ha.sub H he).add H htcg).mono H (by omega) (by linarith)⟩
  · exact ⟨_, rfl, _, rfl, (((hb.add H hf).mono H hle le_rfl).add H hfdh).mono H (by omega) (by linarith)⟩

omit H hT in
theorem Near.half {R : ℝ} (H : E.Lawful R) (h : Near E R K (2 * m) a z) (hz : ‖z‖ + E.μ ≤ m) : Near E (R / 2) (2 * K) m a z := by
  have u0 := H.nonneg
  have hm : 0 ≤ m := by
    have := H.tiny
    have := norm_nonneg z
    linarith
  have h0 := pow_nonneg' E.u u0 K
  refine ⟨hz, fun hc => ?_⟩
  obtain ⟨g, e⟩ := h.2 (budget_mono H (L := 2 * K) (n := 2 * m) (by linarith) (by linarith) (by omega) le_rfl)
  refine ⟨g, e.trans ?_⟩
  have h2 : (1 + E.u) ^ (2 * K) = (1 + E.u) ^ K * (1 + E.u) ^ K := by rw [two_mul, pow_add]
  have h3 : 2 * ((1 + E.u) ^ K - 1) ≤ (1 + E.u) ^ (2 * K) - 1 := by rw [h2]; nlinarith
  nlinarith

omit H hT in
theorem Near.lower {Ω' : ℝ} (h : Near E Ω K m a z) (hΩ : Ω' ≤ Ω) : Near E Ω' K m a z := ⟨h.1, fun hc => h.2 (hc.trans hΩ)⟩

omit hT in
theorem norm_dft_add (s : ℤ) (R : ℕ) (hR : 0 < R) (x : ℕ → ℂ) (k : ℕ) : ‖Spec.dft s R x k‖ + E.μ ≤ ∑ j ∈ Finset.range R, (‖x j‖ + E.μ) := by
  rw [Finset.sum_add_distrib, Finset.sum_const, Finset.card_range, nsmul_eq_mul]
  have h1 := norm_dft s R x k
  have h2 : (1 : ℝ) ≤ R := by exact_mod_cast hR
  nlinarith [H.tiny]

/-- The rounding errors of one butterfly on exact inputs. -/
theorem dftPos_near (R : ℕ) (hR : R ∈ radices) (hL : R ≤ L) (x : ℕ → A) (hg : ∀ j < R, E.good (x j)) (k : ℕ) (hk : k < R) :
    ∃ r, (dftPos T R x)[k]? = some r ∧ Near E (Ω / 2) (cost t R) (∑ j ∈ Finset.range R, (‖E.val (x j)‖ + E.μ)) r (Spec.dft 1 R (fun j => E.val (x j)) k) := by
  have hx : ∀ j < R, Near E Ω 0 (‖E.val (x j)‖ + E.μ) (x j) (E.val (x j)) := fun j hj => ⟨le_rfl, fun _ => ⟨hg j hj, by simp⟩⟩
  have hΩ : (1 + E.u) ^ cost t R * (∑ j ∈ Finset.range R, (‖E.val (x j)‖ + E.μ)) ≤ Ω / 2 → 0 ≤ Ω := by
    intro h
    have := H.nonneg
    have := H.tiny
    have : 0 ≤ (1 + E.u) ^ cost t R * (∑ j ∈ Finset.range R, (‖E.val (x j)‖ + E.μ)) :=
      mul_nonneg (by positivity) (Finset.sum_nonneg fun j _ => by positivity)
    linarith
  have hn := norm_dft_add H 1 R (Nat.zero_lt_of_lt hk) (fun j => E.val (x j)) k
  have key := dftPos_eq Trig.real Trig.real_exact R hR (fun j => E.val (x j))
  -- from the relation of the two runs to the transform
  suffices ∃ r, (dftPos T R x)[k]? = some r ∧ ∃ w, (dftPos Trig.real R fun j => E.val (x j))[k]? = some w ∧
      (Near E (Ω / 2) (cost t R) (∑ j ∈ Finset.range R, (‖E.val (x j)‖ + E.μ)) r w ∨ ∃ L, cost t R = 2 * L ∧ Near E Ω L (2 * ∑ j ∈ Finset.range R, (‖E.val (x j)‖ + E.μ)) r w) by
    obtain ⟨r, e, w, e2, h⟩ := this
    rw [key, List.getElem?_map, List.getElem?_range hk, Option.map_some, Option.some.injEq] at e2
    subst e2
    refine ⟨r, e, ?_⟩
    rcases h with h | ⟨L, hL, h⟩
    · exact h
    · rw [hL]; exact h.half H hn
  clear key hn
  have odd : ∀ h, 0 < h → R = 2 * h + 1 → ∀ ctab stab, (id 0 < 2 * h + 1 ∧ ∀ row ∈ ctab, ∀ c ∈ row, id c < 2 * h + 1) →
      ((0 : ℤ).natAbs < 2 * h + 1 ∧ ∀ row ∈ stab, ∀ c ∈ row, c.natAbs < 2 * h + 1) → ∃ r, (oddDft T (2 * h + 1) ctab stab x)[k]? = some r ∧ ∃ w, (oddDft Trig.real (2 * h + 1) ctab stab fun j => E.val (x j))[k]? = some w ∧
      (Near E (Ω / 2) (cost t R) (∑ j ∈ Finset.range R, (‖E.val (x j)‖ + E.μ)) r w ∨ ∃ L, cost t R = 2 * L ∧ Near E Ω L (2 * ∑ j ∈ Finset.range R, (‖E.val (x j)‖ + E.μ)) r w) := by
    intro h h0 hR ctab stab hct hst
    obtain ⟨r, e, w, e2, hh⟩ := oddDft_near H hT h h0 ctab stab x (fun j => E.val (x j)) (fun j => (‖E.val (x j)‖ + E.μ)) (hR ▸ hL)
      (getD_lt id 0 ctab _ hct) (getD_lt Int.natAbs 0 stab _ hst) (hR ▸ hx) k (hR ▸ hk)
    refine ⟨r, e, w, e2, Or.inr ⟨h + t + 3, ?_, hR ▸ hh⟩⟩
    unfold cost
    rw [if_neg (by omega), if_neg (by omega), if_neg (by omega)]
    omega
  simp only [radices, List.mem_cons, List.not_mem_nil, or_false] at hR
  unfold dftPos
  rcases hR with h | h | h | h | h | h | h | h | h | h | h | h | h <;> subst h <;> norm_num only
  · obtain ⟨r, e, w, e2, h⟩ := dft2_near H hT x (fun j => E.val (x j)) (fun j => (‖E.val (x j)‖ + E.μ)) hx k hk
    exact ⟨r, e, w, e2, Or.inl ⟨h.1, fun hc => h.2 (hc.trans (by linarith [hΩ hc]))⟩⟩
  · exact odd 1 (by norm_num) (by norm_num) c3 s3 (by decide +kernel) (by decide +kernel)
  · obtain ⟨r, e, w, e2, h⟩ := dft4_near H hT x (fun j => E.val (x j)) (fun j => (‖E.val (x j)‖ + E.μ)) hx k hk
    exact ⟨r, e, w, e2, Or.inl ⟨h.1, fun hc => h.2 (hc.trans (by linarith [hΩ hc]))⟩⟩
  · exact odd 2 (by norm_num) (by norm_num) c5 s5 (by decide +kernel) (by decide +kernel)
  · exact odd 3 (by norm_num) (by norm_num) c7 s7 (by decide +kernel) (by decide +kernel)
  · obtain ⟨r, e, w, e2, h⟩ := dft8_near H hT x (fun j => E.val (x j)) (fun j => (‖E.val (x j)‖ + E.μ)) hx k hk
    exact ⟨r, e, w, e2, Or.inr ⟨t + 7, by simp only [cost]; norm_num; omega, h⟩⟩
  · exact odd 5 (by norm_num) (by norm_num) c11 s11 (by decide +kernel) (by decide +kernel)
  · exact odd 6 (by norm_num) (by norm_num) c13 s13 (by decide +kernel) (by decide +kernel)
  · exact odd 8 (by norm_num) (by norm_num) c17 s17 (by decide +kernel) (by decide +kernel)
  · exact odd 9 (by norm_num) (by norm_num) c19 s19 (by decide +kernel) (by decide +kernel)
  · exact odd 11 (by norm_num) (by norm_num) c23 s23 (by decide +kernel) (by decide +kernel)
  · exact odd 14 (by norm_num) (by norm_num) c29 s29 (by decide +kernel) (by decide +kernel)
  · exact odd 15 (by norm_num) (by norm_num) c31 s31 (by decide +kernel) (by decide +kernel)

theorem dft_near_exact (s : ℤ) (hs : s = 1 ∨ s = -1) (R : ℕ) (hR : R ∈ radices) (hL : R ≤ L) (x : ℕ → A) (hg : ∀ j < R, E.good (x j)) (k : ℕ) (hk : k < R) :
    ∃ r, (dft T s R x)[k]? = some r ∧ Near E (Ω / 2) (cost t R) (∑ j ∈ Finset.range R, (‖E.val (x j)‖ + E.μ)) r (Spec.dft s R (fun j => E.val (x j)) k) := by
  have hpos := dftPos_near H hT R hR hL x hg
  have hlen := dftPos_length T R hR x
  unfold dft
  simp only
  rcases hs with h | h <;> subst h
  · rw [if_neg (by simp)]
    exact hpos k hk
  · by_cases h2 : R = 2
    · rw [if_neg (fun h => h.2 h2)]
      obtain ⟨r, e, h⟩ := hpos k hk
      refine ⟨r, e, ?_⟩
      subst h2
      have e1 := dft2_eq (fun j => E.val (x j)) 1 (Or.inl rfl)
      rw [dft2_eq (fun j => E.val (x j)) (-1) (Or.inr rfl)] at e1
      have := List.map_inj_left.mp e1 k (List.mem_range.mpr hk)
      rw [this]
      exact h
    · rw [if_pos ⟨rfl, h2⟩, getElem?_take_drop_rev _ _ (by omega), hlen]
      by_cases h0 : k = 0
      · rw [if_pos h0]
        obtain ⟨r, e, h⟩ := hpos 0 (by omega)
        refine ⟨r, e, ?_⟩
        have : Spec.dft (-1) R (fun j => E.val (x j)) k = Spec.dft 1 R (fun j => E.val (x j)) 0 := by
          unfold Spec.dft
          simp only [h0, Nat.mul_zero, Spec.unit_zero]
        rw [this]
        exact h
      · rw [if_neg h0]
        obtain ⟨r, e, h⟩ := hpos (R - k) (by omega)
        refine ⟨r, e, ?_⟩
        rw [Spec.dft_rev 1 _ _ _ (by omega)] at h
        exact h

theorem dft_near (s : ℤ) (hs : s = 1 ∨ s = -1) (R : ℕ) (hR : R ∈ radices) (hL : R ≤ L) (x : ℕ → A) (y : ℕ → ℂ) (m : ℕ → ℝ)
    (hx : ∀ j < R, Near E (Ω / 2) K (m j) (x j) (y j)) (k : ℕ) (hk : k < R) (r : A) (er : (dft T s R x)[k]? = some r) :
    Near E (Ω / 2) (K + cost t R) (∑ j ∈ Finset.range R, m j) r (Spec.dft s R y k) := by
  have u0 := H.nonneg
  have hm0 : ∀ j ∈ Finset.range R, 0 ≤ m j := fun j hj => by
    linarith [(hx j (Finset.mem_range.mp hj)).1, H.tiny, norm_nonneg (y j)]
  refine ⟨(norm_dft_add H s R (Nat.zero_lt_of_lt hk) y k).trans (Finset.sum_le_sum fun j hj => (hx j (Finset.mem_range.mp hj)).1), fun hc => ?_⟩
  have hpre : ∀ j < R, E.good (x j) ∧ ‖E.val (x j) - y j‖ ≤ ((1 + E.u) ^ K - 1) * m j := by
    intro j hj
    apply (hx j hj).2
    have h1 : m j ≤ ∑ j ∈ Finset.range R, m j := Finset.single_le_sum hm0 (Finset.mem_range.mpr hj)
    have h2 : (1 + E.u) ^ K ≤ (1 + E.u) ^ (K + cost t R) := pow_le_pow_right₀ (by linarith) (by omega)
    exact (mul_le_mul h2 h1 (hm0 j (Finset.mem_range.mpr hj)) (by positivity)).trans hc
  obtain ⟨r', e, h⟩ := dft_near_exact H hT s hs R hR hL x (fun j hj => (hpre j hj).1) k hk
  rw [er, Option.some.injEq] at e
  subst e
  have h1 : ∑ j ∈ Finset.range R, (‖E.val (x j)‖ + E.μ) ≤ (1 + E.u) ^ K * ∑ j ∈ Finset.range R, m j := by
    rw [Finset.mul_sum]
    refine Finset.sum_le_sum fun j hj => ?_
    have hj' := Finset.mem_range.mp hj
    calc ‖E.val (x j)‖ + E.μ = ‖(E.val (x j) - y j) + y j‖ + E.μ := by ring_nf
      _ ≤ ‖E.val (x j) - y j‖ + ‖y j‖ + E.μ := by gcongr; exact norm_add_le _ _
      _ ≤ ((1 + E.u) ^ K - 1) * m j + m j := by linarith [(hpre j hj').2, (hx j hj').1]
      _ = _ := by ring
  have h2 : ‖Spec.dft s R (fun j => E.val (x j)) k - Spec.dft s R y k‖ ≤ ((1 + E.u) ^ K - 1) * ∑ j ∈ Finset.range R, m j := by
    rw [dft_sub, Finset.mul_sum]
    exact (norm_dft _ _ _ _).trans (Finset.sum_le_sum fun j hj => (hpre j (Finset.mem_range.mp hj)).2)
  have h3 := pow_nonneg' E.u u0 (cost t R)
  obtain ⟨g, e⟩ := h.2 (by
    have h4 : (1 + E.u) ^ cost t R * (∑ j ∈ Finset.range R, (‖E.val (x j)‖ + E.μ)) ≤ (1 + E.u) ^ cost t R * ((1 + E.u) ^ K * ∑ j ∈ Finset.range R, m j) := by gcongr
    rw [← mul_assoc, ← pow_add, Nat.add_comm] at h4
    exact h4.trans hc)
  refine ⟨g, ?_⟩
  calc ‖E.val r - Spec.dft s R y k‖ = ‖(E.val r - Spec.dft s R (fun j => E.val (x j)) k) + (Spec.dft s R (fun j => E.val (x j)) k - Spec.dft s R y k)‖ := by ring_nf
    _ ≤ ‖E.val r - Spec.dft s R (fun j => E.val (x j)) k‖ + ‖Spec.dft s R (fun j => E.val (x j)) k - Spec.dft s R y k‖ := norm_add_le _ _
    _ ≤ ((1 + E.u) ^ cost t R - 1) * ((1 + E.u) ^ K * ∑ j ∈ Finset.range R, m j) + ((1 + E.u) ^ K - 1) * ∑ j ∈ Finset.range R, m j :=
      add_le_add (e.trans (mul_le_mul_of_nonneg_left h1 h3)) h2
    _ = _ := by rw [pow_add]; ring

/-- The factors are finite and accurate to `2t + 2` units. -/
theorem factor_near (htu : t * E.u ≤ 1) (s : ℤ) (hs : s = 1 ∨ s = -1) (N l : ℕ) (hl : l < N) (hL : N ≤ L) :
    E.good (Parts.make (T.cos l N) ((s : V) * T.sin l N) : A) ∧ ‖E.val (Parts.make (T.cos l N) ((s : V) * T.sin l N) : A) - Spec.unit s N l‖ ≤ (1 + E.u) ^ (2 * t + 2) - 1 := by
  have u0 := H.nonneg
  have hc := hT.cos l N hl hL
  have hsn := hT.sin l N hl hL
  have hone := Real.abs_sin_le_one (2 * Real.pi * l / N)
  have hb : |E.valV (T.sin l N)| ≤ 2 := by
    calc |E.valV (T.sin l N)| = |(E.valV (T.sin l N) - Real.sin (2 * Real.pi * l / N)) + Real.sin (2 * Real.pi * l / N)| := by ring_nf
      _ ≤ _ + _ := abs_add_le _ _
      _ ≤ t * E.u + 1 := add_le_add hsn.2 hone
      _ ≤ _ := by linarith
  have hsg := H.sign s (T.sin l N) hs hsn.1 hb
  refine ⟨H.good _ _ hc.1 hsg.1, ?_⟩
  have hsabs : |(s : ℝ)| = 1 := by rcases hs with h | h <;> subst h <;> norm_num
  have h2 : |E.valV ((s : V) * T.sin l N) - s * Real.sin (2 * Real.pi * l / N)| ≤ t * E.u := by
    rw [hsg.2, ← mul_sub, abs_mul, hsabs, one_mul]
    exact hsn.2
  have h3 : Spec.unit s N l = ⟨Real.cos (2 * Real.pi * l / N), s * Real.sin (2 * Real.pi * l / N)⟩ := by
    unfold Spec.unit
    have : (s : ℂ) * (2 * Real.pi * I * l / N) = ((s * (2 * Real.pi * l / N) : ℝ) : ℂ) * I := by push_cast; ring
    rw [this]
    apply Complex.ext
    · rw [exp_ofReal_mul_I_re]
      rcases hs with h | h <;> subst h <;> simp [Real.cos_neg]
    · rw [exp_ofReal_mul_I_im]
      rcases hs with h | h <;> subst h <;> simp [Real.sin_neg]
  rw [H.make, h3]
  have ht := bernoulli E.u u0 (t + 1)
  have ht' := bernoulli E.u u0 t
  have hp := pow_nonneg' E.u u0 (t + 1)
  refine (Complex.norm_le_abs_re_add_abs_im _).trans ?_
  simp only [Complex.sub_re, Complex.sub_im]
  have e1 : (1 + E.u) ^ (t + 1) = (1 + E.u) ^ t * (1 + E.u) := pow_succ _ _
  have e2 : (1 + E.u) ^ (2 * t + 2) = (1 + E.u) ^ (t + 1) * (1 + E.u) ^ (t + 1) := by rw [← pow_add]; congr 1; ring
  have h5 : t * E.u ≤ (1 + E.u) ^ (t + 1) - 1 := by
    push_cast at ht
    linarith
  rw [e2]
  have := hc.2
  nlinarith

/-- The whole transform. -/
theorem dit_near (s : ℤ) (hs : s = 1 ∨ s = -1) (N : ℕ) (hN : N ≤ L) (inp z : List A) (hzl : N ≤ z.length)
    (hz : ∀ l < N, ∀ w, z[l]? = some w → E.good w ∧ ‖E.val w - Spec.unit s N l‖ ≤ (1 + E.u) ^ (2 * t + 2) - 1) (fuel B S : ℕ) (out : List A) (o i : ℕ) (x : ℕ → A)
    (hf : B ≤ fuel) (hB : Smooth B) (hS : 0 < S) (hBS : B * S = N) (hlen : o + B ≤ out.length) (hin : ∀ n < B, inp[i + n * S]? = some (x n)) (hg : ∀ n < B, E.good (x n)) :
    ∃ out', dit T s fuel B S out o inp i z = .ok out' ∧ out'.length = out.length ∧
      (∀ k < B, ∃ r, out'[o + k]? = some r ∧ Near E (Ω / 2) (budget t fuel B) (∑ n ∈ Finset.range B, (‖E.val (x n)‖ + E.μ)) r (Spec.dft s B (fun n => E.val (x n)) k)) ∧
      (∀ j, (j < o ∨ o + B ≤ j) → out'[j]? = out[j]?) := by
  have u0 := H.nonneg
  obtain ⟨out', e, hl, h, hj⟩ := dit_ind T s N inp z hzl (fun fuel B x k r => (∀ n < B, E.good (x n)) →
      Near E (Ω / 2) (budget t fuel B) (∑ n ∈ Finset.range B, (‖E.val (x n)‖ + E.μ)) r (Spec.dft s B (fun n => E.val (x n)) k))
    (by
      intro fuel x hg
      refine ⟨?_, fun _ => ⟨hg 0 (by norm_num), ?_⟩⟩
      · simp [Spec.dft, Spec.unit_zero]
      · have : 0 ≤ ((1 + E.u) ^ budget t (fuel + 1) 1 - 1) * (‖E.val (x 0)‖ + E.μ) :=
          mul_nonneg (pow_nonneg' E.u u0 _) (add_nonneg (norm_nonneg _) H.tiny)
        simpa [Spec.dft, Spec.unit_zero] using this)
    (by
      intro fuel R x y hR hsp h1 hRN hy k hk r hr hg
      have hb : budget t (fuel + 1) R = 0 + cost t R := by
        rw [budget, if_neg (by omega), if_pos hsp, Nat.zero_add]
      rw [hb]
      refine dft_near H hT s hs R hR (hRN.trans hN) y (fun n => E.val (x n)) (fun n => ‖E.val (x n)‖ + E.μ) ?_ k hk r hr
      intro j hj
      rw [hy j hj]
      exact ⟨le_rfl, fun _ => ⟨hg j hj, by simp⟩⟩)
    (by
      intro fuel R Q S x k0 v w y hR hsp h1 h2 hQ hS hN' hk0 hv hw hy a ha r hr hg
      have hRpos : 0 < R := by omega
      have hb : budget t (fuel + 1) (R * Q) = budget t fuel Q + (2 * t + 5) + cost t R := by
        rw [budget, if_neg (by rw [hsp]; exact h1), if_neg (by rw [hsp]; exact h2), hsp, Nat.mul_div_cancel_left _ hRpos]
      rw [hb, Spec.dft_split s R Q hRpos hQ, Spec.sum_range_mul]
      have hRL : R ≤ L := by
        have : R ≤ R * Q * S := by rw [Nat.mul_assoc]; exact Nat.le_mul_of_pos_right R (Nat.mul_pos hQ hS)
        omega
      refine dft_near H hT s hs R hR hRL _ _ _ ?_ a ha r hr
      intro j hj
      have hn := hv j hj (by
        intro n hn
        apply hg
        have : (n + 1) * R ≤ Q * R := Nat.mul_le_mul_right R hn
        rw [Nat.add_mul, Nat.one_mul, Nat.mul_comm Q] at this
        omega)
      rw [hy j hj]
      by_cases hj0 : j = 0
      · subst hj0
        rw [if_pos rfl, Nat.mul_zero, Spec.unit_zero, one_mul]
        refine ⟨hn.1, fun hc => ?_⟩
        have hm : 0 ≤ ∑ m ∈ Finset.range Q, (‖E.val (x (0 + m * R))‖ + E.μ) := Finset.sum_nonneg fun m _ => add_nonneg (norm_nonneg _) H.tiny
        have hp : (1 + E.u) ^ budget t fuel Q ≤ (1 + E.u) ^ (budget t fuel Q + (2 * t + 5)) := pow_le_pow_right₀ (by linarith) (by omega)
        obtain ⟨g, e⟩ := hn.2 ((mul_le_mul_of_nonneg_right hp hm).trans hc)
        exact ⟨g, e.trans (mul_le_mul_of_nonneg_right (by linarith) hm)⟩
      · rw [if_neg hj0]
        have hlt : k0 * (j * S) < N := by
          rw [← hN', ← Nat.mul_assoc]
          apply Nat.mul_lt_mul_of_pos_right _ hS
          calc k0 * j ≤ k0 * R := Nat.mul_le_mul_left _ hj.le
            _ < Q * R := Nat.mul_lt_mul_of_pos_right hk0 hRpos
            _ = R * Q := Nat.mul_comm _ _
        obtain ⟨gw, ew⟩ := hz _ hlt _ (hw j hj)
        rw [← hN', ← Nat.mul_assoc, Spec.unit_scale s _ _ _ hS] at ew
        by_cases hΩ : 0 ≤ Ω
        · have H' : E.Lawful (Ω / 2) := H.weaken (by linarith)
          exact (hn.mul H' (2 * t + 2) (norm_unit _ _ _).le gw ew).mono H' (by omega) le_rfl
        · have h0 : 0 ≤ ∑ m ∈ Finset.range Q, (‖E.val (x (j + m * R))‖ + E.μ) := Finset.sum_nonneg fun m _ => add_nonneg (norm_nonneg _) H.tiny
          refine ⟨?_, fun hc => absurd hc (by
            have := mul_nonneg (pow_nonneg (by linarith : (0 : ℝ) ≤ 1 + E.u) (budget t fuel Q + (2 * t + 5))) h0
            linarith)⟩
          rw [norm_mul, norm_unit, one_mul]
          exact hn.1)
    fuel B S out o i x hf hB hS hBS hlen hin
  exact ⟨out', e, hl, fun k hk => (h k hk).imp fun r hr => ⟨hr.1, hr.2 hg⟩, hj⟩

end Ranged
end FFT
end DSP
