import Verif.Model.DemodRounded
import Verif.Props.AMD
import Verif.Props.FilterError
import Verif.Props.PhasorError
import Verif.Props.FirError
import Verif.Lemmas.RelSize
import Verif.Lemmas.BinaryUnits

/-!
# The amplitude demodulator in floating point (C92)
-/

namespace DSP
namespace AMDRounded

open Spec

/-- The level follows the amplitude with one of two weights. -/
noncomputable def follow (att dec y a : ℝ) : ℝ := (1 - if a < y then dec else att) * y + (if a < y then dec else att) * a

/-- Errors of the level shrink, although the weight depends on a comparison. -/
theorem follow_contracts (α att dec y a z b : ℝ) (h1 : α ≤ att) (h2 : att ≤ 1) (h3 : α ≤ dec) (h4 : dec ≤ 1) (h0 : 0 ≤ α) :
    |follow att dec y a - follow att dec z b| ≤ (1 - α) * |y - z| + |a - b| := by
  -- the deviation from the amplitude is shrunk by one of two factors
  have key : ∀ s t : ℝ, |(1 - if 0 < s then dec else att) * s - (1 - if 0 < t then dec else att) * t| ≤ (1 - α) * |s - t| ∧
      0 ≤ (s - t) * ((1 - if 0 < s then dec else att) * s - (1 - if 0 < t then dec else att) * t) := by
    intro s t
    have mono : ∀ s t : ℝ, t ≤ s → 0 ≤ (1 - if 0 < s then dec else att) * s - (1 - if 0 < t then dec else att) * t ∧
        (1 - if 0 < s then dec else att) * s - (1 - if 0 < t then dec else att) * t ≤ (1 - α) * (s - t) := by
      intro s t hts
      split_ifs with c1 c2 c2
      · constructor <;> nlinarith
      · constructor <;> nlinarith
      · exact absurd (lt_of_lt_of_le c2 hts) c1
      · constructor <;> nlinarith
    rcases le_total t s with h | h
    · obtain ⟨a1, a2⟩ := mono s t h
      refine ⟨?_, mul_nonneg (by linarith) a1⟩
      rw [abs_of_nonneg a1, abs_of_nonneg (by linarith)]
      exact a2
    · obtain ⟨a1, a2⟩ := mono t s h
      refine ⟨?_, ?_⟩
      · rw [abs_sub_comm, abs_sub_comm s t, abs_of_nonneg a1, abs_of_nonneg (by linarith)]
        exact a2
      · nlinarith
  have e : ∀ y a : ℝ, follow att dec y a = a + (1 - if 0 < y - a then dec else att) * (y - a) := by
    intro y a
    unfold follow
    simp only [sub_pos]
    ring
  have s1 : |follow att dec y a - follow att dec z a| ≤ (1 - α) * |y - z| := by
    rw [e, e]
    have := (key (y - a) (z - a)).1
    rw [show y - a - (z - a) = y - z by ring] at this
    rw [show ∀ p q : ℝ, a + p - (a + q) = p - q by intros; ring]
    exact this
  have s2 : |follow att dec z a - follow att dec z b| ≤ |a - b| := by
    rw [e, e]
    obtain ⟨k1, k2⟩ := key (z - a) (z - b)
    rw [show z - a - (z - b) = b - a by ring] at k1 k2
    generalize (1 - if 0 < z - a then dec else att) * (z - a) = P at *
    generalize (1 - if 0 < z - b then dec else att) * (z - b) = Q at *
    have k3 : |P - Q| ≤ |b - a| := k1.trans (mul_le_of_le_one_left (abs_nonneg _) (by linarith))
    rw [show a + P - (b + Q) = -((b - a) - (P - Q)) by ring, abs_neg, abs_sub_comm a b]
    rcases le_total 0 (b - a) with h | h
    · rw [abs_of_nonneg h] at k3 ⊢
      rcases h.eq_or_lt with h' | h'
      · rw [← h'] at k3 ⊢
        rw [zero_sub, abs_neg]
        exact k3
      · have : 0 ≤ P - Q := nonneg_of_mul_nonneg_right k2 h'
        rw [abs_le] at k3 ⊢
        constructor <;> linarith
    · rw [abs_of_nonpos h] at k3 ⊢
      rcases h.eq_or_lt with h' | h'
      · rw [h'] at k3 ⊢
        rw [zero_sub, abs_neg]
        exact k3
      · have : P - Q ≤ 0 := by nlinarith
        rw [abs_le] at k3 ⊢
        constructor <;> linarith
  calc _ ≤ |follow att dec y a - follow att dec z a| + |follow att dec z a - follow att dec z b| := abs_sub_le _ _ _
    _ ≤ _ := add_le_add s1 s2

theorem limit_contracts (y z lo hi : ℝ) : |min (max y lo) hi - min (max z lo) hi| ≤ |y - z| :=
  (abs_min_sub_min_le_max _ _ _ _).trans (by
    rw [sub_self, abs_zero, max_eq_left (abs_nonneg _)]
    refine (abs_max_sub_max_le_max _ _ _ _).trans ?_
    rw [sub_self, abs_zero, max_eq_left (abs_nonneg _)])

theorem square_le (R α : ℝ) (hα : 0 < α) (hα1 : α ≤ 1) (hR : 1 ≤ R) : R ≤ R ^ 2 / α := by
  rw [le_div_iff₀ hα]
  nlinarith

/-- The amplitude relative to the level. -/
theorem ratio_error (u B lo α a A l l' : ℝ) (hu0 : 0 ≤ u) (hα : 0 < α) (hα1 : α ≤ 1) (hlo : 0 < lo) (hB : lo ≤ B) (l1 : lo ≤ l') (l3 : lo ≤ l) (hA0 : 0 ≤ A) (hx : A ≤ B) (da : |a - A| ≤ 2.001 * u * B)
    (dl : |l' - l| ≤ 5.1 * u * B / α) : |a / l' - A / l| ≤ 8 * u * ((B / lo) ^ 2 / α) := by
  have l'0 : 0 < l' := by linarith
  have l0 : 0 < l := by linarith
  have hB0 : 0 < B := by linarith
  have hR1 : 1 ≤ B / lo := by rw [le_div_iff₀ hlo]; linarith
  have hC : B / lo ≤ (B / lo) ^ 2 / α := by
    rw [le_div_iff₀ hα]
    nlinarith
  rw [show a / l' - A / l = (a - A) / l' + A * (l - l') / (l * l') by field_simp; ring]
  have t1 : |(a - A) / l'| ≤ 2.001 * u * (B / lo) := by
    rw [abs_div, abs_of_pos l'0, div_le_iff₀ l'0]
    refine da.trans ?_
    rw [show 2.001 * u * (B / lo) * l' = 2.001 * u * B * (l' / lo) by ring]
    exact le_mul_of_one_le_right (by positivity) ((one_le_div hlo).mpr l1)
  have t2 : |A * (l - l') / (l * l')| ≤ B * (5.1 * u * B / α) / (lo * lo) := by
    rw [abs_div, abs_mul, abs_of_nonneg hA0, abs_of_pos (mul_pos l0 l'0), abs_sub_comm]
    exact div_le_div₀ (by positivity) (mul_le_mul hx dl (abs_nonneg _) hB0.le) (by positivity) (mul_le_mul l3 l1 hlo.le l0.le)
  refine (abs_add_le _ _).trans ((add_le_add t1 t2).trans ?_)
  have e : B * (5.1 * u * B / α) / (lo * lo) = 5.1 * u * ((B / lo) ^ 2 / α) := by field_simp
  rw [e]
  have := mul_le_mul_of_nonneg_left hC hu0
  have : 0 ≤ u * ((B / lo) ^ 2 / α) := by positivity
  linarith

/-- What a few roundings do to the output. -/
theorem output_error (u x r s r1 s1 m d z y idx C : ℝ) (hu0 : 0 ≤ u) (hu : u ≤ 1 / 1000) (hC : 1 ≤ C) (hidx : idx ≠ 0) (hr0 : 0 ≤ r) (hr : r ≤ C) (hx : |x - r| ≤ 8 * u * C)
    (h1 : |r1 - x| ≤ u * |x|) (hs : s = 1 + idx) (h2 : |s1 - s| ≤ u * |s|) (h3 : |m - r1 * s1| ≤ u * |r1 * s1|) (h4 : |d - (m - 1)| ≤ u * |m - 1|)
    (hz : z = (r * s - 1) / idx) (h5 : |y - d / idx| ≤ u * |d / idx|) : |y - z| ≤ 27 * u * C * ((1 + |idx|) / |idx|) := by
  have hi : 0 < |idx| := abs_pos.mpr hidx
  have x8 : RelS u 8 x r C := by
    refine ⟨hx.trans (mul_le_mul_of_nonneg_right ?_ (by linarith)), by rw [abs_of_nonneg hr0]; exact hr⟩
    have := one_add_mul_le_pow (by linarith : -2 ≤ u) 8
    push_cast at this
    linarith
  have r9 := x8.round hu0 h1
  have s1' : RelS u 1 s1 s (1 + |idx|) := by
    refine ⟨?_, ?_⟩
    · rw [pow_one, add_sub_cancel_left]
      refine h2.trans (mul_le_mul_of_nonneg_left ?_ hu0)
      rw [hs]
      refine (abs_add_le _ _).trans ?_
      rw [abs_one]
    · rw [hs]
      refine (abs_add_le _ _).trans ?_
      rw [abs_one]
  have m11 := r9.mul hu0 s1' h3
  have one11 : RelS u 11 1 1 1 := by
    refine ⟨?_, by rw [abs_one]⟩
    rw [sub_self, abs_zero, mul_one, sub_nonneg]
    exact one_le_pow₀ (by linarith)
  have d12 := m11.sub hu0 one11 h4
  have q12 : RelS u 12 (d / idx) z ((C * (1 + |idx|) + 1) / |idx|) := by
    rw [hz]
    refine ⟨?_, ?_⟩
    · rw [← sub_div, abs_div, ← mul_div_assoc]
      exact div_le_div_of_nonneg_right d12.1 hi.le
    · rw [abs_div]
      exact div_le_div_of_nonneg_right d12.2 hi.le
  have y13 := q12.round hu0 h5
  have hp := pow_sub_one_bound u hu0 13 (by push_cast; linarith)
  push_cast at hp
  have hp' : (1 + u) ^ 13 - 1 ≤ 13.2 * u := by nlinarith
  have hJ : 1 ≤ C * (1 + |idx|) := one_le_mul_of_one_le_of_one_le hC (by linarith)
  refine y13.1.trans ?_
  calc _ ≤ 13.2 * u * ((2 * (C * (1 + |idx|))) / |idx|) := by
        refine mul_le_mul hp' ?_ (by positivity) (by positivity)
        exact div_le_div_of_nonneg_right (by linarith) hi.le
    _ = 26.4 * (u * C * ((1 + |idx|) / |idx|)) := by ring
    _ ≤ 27 * (u * C * ((1 + |idx|) / |idx|)) := by
        refine mul_le_mul_of_nonneg_right (by norm_num) (by positivity)
    _ = _ := by ring

/-- The same settings, for the exact demodulator. -/
noncomputable def exact {p : ℕ} (f : AMDRounded (Binary p)) : AMD := ⟨f.avg.val, f.att.val, f.dec.val, f.lo.val, f.hi.val, f.idx.val⟩

section

variable (p : ℕ) [NeZero p] (hp : 10 ≤ p)

include hp in
theorem machine_output (a l idx : Binary p) (r C : ℝ) (hC : 1 ≤ C) (hidx : (idx.val : ℝ) ≠ 0) (hr0 : 0 ≤ r) (hr : r ≤ C) (hl : (l.val : ℝ) ≠ 0) (hx : |(a.val : ℝ) / l.val - r| ≤ 8 * (1 / 2 ^ p) * C) :
    |(((a / l * (1 + idx) - 1) / idx).val : ℝ) - (r * (1 + idx.val) - 1) / idx.val| ≤ 27 * (1 / 2 ^ p) * C * ((1 + |(idx.val : ℝ)|) / |(idx.val : ℝ)|) := by
  have hR := binary_roundedField p
  have hone : ((1 : Binary p).val : ℝ) = 1 := EMA.binary_one p
  have h1 := hR.add 1 idx
  have h2 := hR.sub (a / l * (1 + idx)) 1
  simp only [hone] at h1 h2
  exact output_error (1 / 2 ^ p) ((a.val : ℝ) / l.val) r (1 + idx.val) (a / l).val (1 + idx).val (a / l * (1 + idx)).val (a / l * (1 + idx) - 1).val ((r * (1 + idx.val) - 1) / idx.val) ((a / l * (1 + idx) - 1) / idx).val idx.val C
    (by positivity) (Win.unit_small p hp) hC hidx hr0 hr hx (hR.div a l hl) rfl h1 (hR.mul _ _) h2 rfl (hR.div _ _ hidx)

set_option maxHeartbeats 1000000 in
include hp in
/-- One call: the machine's level `f.avg` and the exact one `y` get nearer, up to a few roundings. -/
theorem call_error (f : AMDRounded (Binary p)) (y : ℝ) (x : Cplx (Binary p)) (B α : ℝ) (hα : 0 < α) (ha1 : α ≤ f.att.val) (ha2 : (f.att.val : ℝ) ≤ 1) (hd1 : α ≤ f.dec.val) (hd2 : (f.dec.val : ℝ) ≤ 1)
    (hlo : 0 < (f.lo.val : ℝ)) (hhi : (f.lo.val : ℝ) ≤ f.hi.val) (hB : (f.hi.val : ℝ) ≤ B) (hidx : (f.idx.val : ℝ) ≠ 0) (hx : ‖x.toComplex fun a => (a.val : ℝ)‖ ≤ B)
    (hf0 : 0 ≤ (f.avg.val : ℝ)) (hfB : (f.avg.val : ℝ) ≤ B) (he : |(f.avg.val : ℝ) - y| ≤ 5.1 * (1 / 2 ^ p) * B / α) :
    ∃ l' o' l o, call Binary.sqrt f x = .ok ({ f with avg := l' }, o') ∧ AMD.call { exact f with avg := y } (x.toComplex fun a => (a.val : ℝ)) = .ok ({ exact f with avg := l }, o) ∧
      (f.lo.val : ℝ) ≤ l'.val ∧ (l'.val : ℝ) ≤ f.hi.val ∧ |(l'.val : ℝ) - l| ≤ 5.1 * (1 / 2 ^ p) * B / α ∧
      |(o'.val : ℝ) - o| ≤ 27 * (1 / 2 ^ p) * ((B / f.lo.val) ^ 2 / α) * ((1 + |(f.idx.val : ℝ)|) / |(f.idx.val : ℝ)|) := by
  have hR := binary_roundedField p
  have hone : ((1 : Binary p).val : ℝ) = 1 := EMA.binary_one p
  have hu := Win.unit_small p hp
  have hu0 : (0 : ℝ) ≤ 1 / 2 ^ p := by positivity
  generalize hU : (1 : ℝ) / 2 ^ p = u at *
  have hα1 : α ≤ 1 := ha1.trans ha2
  have hB0 : 0 < B := by linarith
  -- the amplitude
  obtain ⟨q1, q2⟩ := NCO.abs_near hR hu0 hu (by rw [← hU]; exact NCO.binary_sqrt p) x
  set A := ‖x.toComplex fun a => (a.val : ℝ)‖ with hA
  have hA0 : 0 ≤ A := norm_nonneg _
  set a' := x.abs Binary.sqrt with ha'
  have da : |(a'.val : ℝ) - A| ≤ 2.001 * u * B := by
    rw [abs_le]
    constructor <;> nlinarith [mul_nonneg hu0 hA0, mul_le_mul_of_nonneg_left hx hu0, mul_nonneg (mul_nonneg hu0 hu0) hA0]
  have a0 : 0 ≤ (a'.val : ℝ) := le_trans (by positivity) q1
  have aB : (a'.val : ℝ) ≤ 1.0021 * B := by
    have := abs_le.mp da
    nlinarith
  -- the level before the limits
  set k := (if a' < f.avg then f.dec else f.att) with hk
  have hlt := Binary.lt_iff a' f.avg
  have hkv : (k.val : ℝ) = if (a'.val : ℝ) < f.avg.val then (f.dec.val : ℝ) else f.att.val := by
    rw [hk]
    by_cases c : a' < f.avg
    · rw [if_pos c, if_pos (hlt.mp c)]
    · rw [if_neg c, if_neg (fun h => c (hlt.mpr h))]
  have hk0 : 0 ≤ (k.val : ℝ) := by rw [hkv]; split_ifs <;> linarith
  have hk1 : (k.val : ℝ) ≤ 1 := by rw [hkv]; split_ifs <;> linarith
  have hle := EMA.lerp_error hR.toRoundedMul hone hu0 f.avg a' k hk0 hk1
  simp only [abs_of_nonneg hf0, abs_of_nonneg a0] at hle
  set v := lerp f.avg a' k with hv
  have hg : (1 + u) ^ 3 - 1 ≤ 3.004 * u := by nlinarith [mul_nonneg hu0 hu0, mul_nonneg hu0 (mul_nonneg hu0 hu0)]
  have hmix : (1 - (k.val : ℝ)) * f.avg.val + k.val * a'.val ≤ 1.0021 * B := by nlinarith
  have hmix0 : 0 ≤ (1 - (k.val : ℝ)) * f.avg.val + k.val * a'.val := by
    have := mul_nonneg (by linarith : 0 ≤ 1 - (k.val : ℝ)) hf0
    have := mul_nonneg hk0 a0
    linarith
  have dv : |(v.val : ℝ) - follow f.att.val f.dec.val f.avg.val a'.val| ≤ 3.011 * u * B := by
    unfold follow
    rw [← hkv]
    refine hle.trans ?_
    calc _ ≤ 3.004 * u * (1.0021 * B) := mul_le_mul hg hmix hmix0 (by positivity)
      _ ≤ _ := by nlinarith [mul_nonneg hu0 hB0.le]
  have dw := follow_contracts α f.att.val f.dec.val f.avg.val a'.val y A ha1 ha2 hd1 hd2 hα.le
  have dall : |(v.val : ℝ) - follow f.att.val f.dec.val y A| ≤ 5.1 * u * B / α := by
    calc |(v.val : ℝ) - follow f.att.val f.dec.val y A| ≤ |(v.val : ℝ) - follow f.att.val f.dec.val f.avg.val a'.val| + |follow f.att.val f.dec.val f.avg.val a'.val - follow f.att.val f.dec.val y A| := abs_sub_le _ _ _
      _ ≤ 3.011 * u * B + ((1 - α) * (5.1 * u * B / α) + 2.001 * u * B) := by
        refine add_le_add dv (dw.trans (add_le_add (mul_le_mul_of_nonneg_left he (by linarith)) da))
      _ ≤ _ := by
        rw [show (1 - α) * (5.1 * u * B / α) = 5.1 * u * B / α - 5.1 * u * B by field_simp]
        nlinarith [mul_nonneg hu0 hB0.le]
  -- the limits
  set l' := min (max v f.lo) f.hi with hl'
  have hl'v : (l'.val : ℝ) = min (max (v.val : ℝ) f.lo.val) f.hi.val := by rw [hl', Binary.val_min, Binary.val_max]
  set l := min (max (follow f.att.val f.dec.val y A) (f.lo.val : ℝ)) f.hi.val with hl
  have dl : |(l'.val : ℝ) - l| ≤ 5.1 * u * B / α := by
    rw [hl'v, hl]
    exact (limit_contracts _ _ _ _).trans dall
  have l1 : (f.lo.val : ℝ) ≤ l'.val := by rw [hl'v]; exact le_min (le_max_right _ _) hhi
  have l2 : (l'.val : ℝ) ≤ f.hi.val := by rw [hl'v]; exact min_le_right _ _
  have l3 : (f.lo.val : ℝ) ≤ l := le_min (le_max_right _ _) hhi
  have l'0 : 0 < (l'.val : ℝ) := by linarith
  have l0 : 0 < l := by linarith
  -- the output
  obtain ⟨lv, -, -, elv, ecall⟩ := AMD.call_ok { exact f with avg := y } (x.toComplex fun a => (a.val : ℝ)) hlo hhi hidx
  have elv' : lv = l := by
    rw [elv, hl]
    rfl
  rw [elv'] at ecall
  refine ⟨l', (a' / l' * (1 + f.idx) - 1) / f.idx, l, _, ?_, ecall, l1, l2, dl, ?_⟩
  · simp only [call, ← ha', ← hk, ← hv, ← hl']
    rw [Fir.fdiv_ok' p _ _ l'0.ne']
    simp only [bind, Except.bind]
    rw [Fir.fdiv_ok' p _ _ hidx]
    rfl
  have hr := ratio_error u B f.lo.val α a'.val A l l'.val hu0 hα hα1 hlo (hhi.trans hB) l1 l3 hA0 hx da dl
  have hR1 : 1 ≤ B / f.lo.val := by rw [le_div_iff₀ hlo]; linarith
  have hC := square_le (B / f.lo.val) α hα hα1 hR1
  have hrC : A / l ≤ (B / f.lo.val) ^ 2 / α := (div_le_div₀ hB0.le hx hlo l3).trans hC
  have := machine_output p hp a' l' f.idx (A / l) _ (hR1.trans hC) hidx (by positivity) hrC l'0.ne' (by rw [hU]; exact hr)
  rw [hU] at this
  exact this

include hp in
/-- **C92** The amplitude demodulator in floating point: with limits `0 < lo ≤ hi`, an index other than zero and weights between `α` and one, inputs and the upper limit being at most `B`, no call divides by zero; after any
number of calls the level is within `5.1 B / (α 2^p)` of the one of the exact demodulator, and every output is within `27 (B / lo)² (1 + |idx|) / (α |idx| 2^p)` of the exact output. -/
theorem C92_amd (f : AMDRounded (Binary p)) (xs : List (Cplx (Binary p))) (B α : ℝ) (hα : 0 < α) (ha1 : α ≤ f.att.val) (ha2 : (f.att.val : ℝ) ≤ 1) (hd1 : α ≤ f.dec.val) (hd2 : (f.dec.val : ℝ) ≤ 1)
    (hlo : 0 < (f.lo.val : ℝ)) (hhi : (f.lo.val : ℝ) ≤ f.hi.val) (hB : (f.hi.val : ℝ) ≤ B) (hidx : (f.idx.val : ℝ) ≠ 0) (hf0 : 0 ≤ (f.avg.val : ℝ)) (hfB : (f.avg.val : ℝ) ≤ B)
    (hx : ∀ x ∈ xs, ‖x.toComplex fun a => (a.val : ℝ)‖ ≤ B) :
    ∃ f' ys' F ys, run (call Binary.sqrt) f xs = .ok (f', ys') ∧ run AMD.call (exact f) (xs.map fun x => x.toComplex fun a => (a.val : ℝ)) = .ok (F, ys) ∧
      |(f'.avg.val : ℝ) - F.avg| ≤ 5.1 * (1 / 2 ^ p) * B / α ∧ ys'.length = xs.length ∧ ys.length = xs.length ∧
      ∀ (n : ℕ) (y : ℝ) (y' : Binary p), ys'[n]? = some y' → ys[n]? = some y → |(y'.val : ℝ) - y| ≤ 27 * (1 / 2 ^ p) * ((B / f.lo.val) ^ 2 / α) * ((1 + |(f.idx.val : ℝ)|) / |(f.idx.val : ℝ)|) := by
  have hB0 : 0 < B := by linarith
  -- for all levels that are near each other
  suffices H : ∀ (xs : List (Cplx (Binary p))) (v : Binary p) (y : ℝ), (∀ x ∈ xs, ‖x.toComplex fun a => (a.val : ℝ)‖ ≤ B) → 0 ≤ (v.val : ℝ) → (v.val : ℝ) ≤ B → |(v.val : ℝ) - y| ≤ 5.1 * (1 / 2 ^ p) * B / α →
      ∃ f' ys' F ys, run (call Binary.sqrt) { f with avg := v } xs = .ok (f', ys') ∧ run AMD.call { exact f with avg := y } (xs.map fun x => x.toComplex fun a => (a.val : ℝ)) = .ok (F, ys) ∧
      |(f'.avg.val : ℝ) - F.avg| ≤ 5.1 * (1 / 2 ^ p) * B / α ∧ ys'.length = xs.length ∧ ys.length = xs.length ∧
      ∀ (n : ℕ) (y : ℝ) (y' : Binary p), ys'[n]? = some y' → ys[n]? = some y → |(y'.val : ℝ) - y| ≤ 27 * (1 / 2 ^ p) * ((B / f.lo.val) ^ 2 / α) * ((1 + |(f.idx.val : ℝ)|) / |(f.idx.val : ℝ)|) by
    have := H xs f.avg f.avg.val hx hf0 hfB (by rw [sub_self, abs_zero]; positivity)
    exact this
  intro xs
  induction xs with
  | nil =>
    intro v y _ _ _ h
    exact ⟨_, [], _, [], rfl, rfl, h, rfl, rfl, by simp⟩
  | cons x xs ih =>
    intro v y hxs hv0 hvB h
    obtain ⟨l', o', l, o, e1, e2, g1, g2, g3, g4⟩ := call_error p hp { f with avg := v } y x B α hα ha1 ha2 hd1 hd2 hlo hhi hB hidx (hxs x (by simp)) hv0 hvB h
    obtain ⟨f', ys', F, ys, r1, r2, r3, r4, r5, r6⟩ := ih l' l (fun z hz => hxs z (by simp [hz])) (hlo.le.trans g1) (g2.trans hB) g3
    refine ⟨f', o' :: ys', F, o :: ys, ?_, ?_, r3, by simp [r4], by simp [r5], ?_⟩
    · simp only [run, e1]
      rw [r1]
    · rw [List.map_cons]
      have e2' : AMD.call { exact f with avg := y } (x.toComplex fun a => (a.val : ℝ)) = .ok ({ exact f with avg := l }, o) := e2
      simp only [run, e2']
      rw [r2]
    · intro n y y' h1 h2
      cases n with
      | zero =>
        simp only [List.getElem?_cons_zero, Option.some.injEq] at h1 h2
        subst h1 h2
        exact g4
      | succ n =>
        rw [List.getElem?_cons_succ] at h1 h2
        exact r6 n y y' h1 h2

/-- **C92** Whatever the weights and the inputs are, the level is between the limits after every call, exactly. -/
theorem C92_limits (f f' : AMDRounded (Binary p)) (x : Cplx (Binary p)) (y : Binary p) (h : f.lo ≤ f.hi) (e : call Binary.sqrt f x = .ok (f', y)) : f.lo ≤ f'.avg ∧ f'.avg ≤ f.hi := by
  simp only [call, bind, Except.bind] at e
  split at e
  · simp at e
  · split at e
    · simp at e
    · simp only [pure, Except.pure, Except.ok.injEq, Prod.mk.injEq] at e
      rw [← e.1]
      exact ⟨le_min (le_max_right _ _) h, min_le_right _ _⟩

/-- **C92** A peak detector (attack one, decay zero) has no rounding errors: the level is the greatest amplitude so far, unless a limit was reached. -/
theorem C92_peak (f f' : AMDRounded (Binary p)) (x : Cplx (Binary p)) (y : Binary p) (ha : f.att = 1) (hd : f.dec = 0) (e : call Binary.sqrt f x = .ok (f', y)) :
    f'.avg = min (max (max f.avg (x.abs Binary.sqrt)) f.lo) f.hi := by
  have key : lerp f.avg (x.abs Binary.sqrt) (if x.abs Binary.sqrt < f.avg then f.dec else f.att) = max f.avg (x.abs Binary.sqrt) := by
    by_cases c : x.abs Binary.sqrt < f.avg
    · rw [if_pos c, hd, max_eq_left c.le]
      show (1 - 0) * f.avg + 0 * _ = f.avg
      rw [Binary.sub_zero_of _ _ Binary.val_zero, Binary.one_mul_of _ _ Binary.val_one, Binary.zero_mul_of _ _ Binary.val_zero, Binary.add_zero_of _ _ Binary.val_zero]
    · rw [if_neg c, ha, max_eq_right (not_lt.mp c)]
      show (1 - 1) * f.avg + 1 * _ = _
      rw [Binary.sub_self_of _ _ rfl, Binary.one_mul_of _ _ Binary.val_one, Binary.zero_mul_of _ _ Binary.val_zero, Binary.zero_add_of _ _ Binary.val_zero]
  simp only [call, bind, Except.bind] at e
  split at e
  · simp at e
  · split at e
    · simp at e
    · simp only [pure, Except.pure, Except.ok.injEq, Prod.mk.injEq] at e
      rw [← e.1, key]

end

/-- Weights 1/2 and 1/4, limits 1/4 and one, index one, inputs of at most one: the hypotheses of `C92_amd` hold with `α = 1/4` and `B = 1`. -/
example : ∃ f : AMDRounded (Binary 24), (1 / 4 : ℝ) ≤ f.att.val ∧ (f.att.val : ℝ) ≤ 1 ∧ (1 / 4 : ℝ) ≤ f.dec.val ∧ (f.dec.val : ℝ) ≤ 1 ∧ 0 < (f.lo.val : ℝ) ∧ (f.lo.val : ℝ) ≤ f.hi.val ∧ (f.hi.val : ℝ) ≤ 1 ∧
    (f.idx.val : ℝ) ≠ 0 ∧ 0 ≤ (f.avg.val : ℝ) ∧ (f.avg.val : ℝ) ≤ 1 :=
  ⟨⟨⟨0, 0, 0, by norm_num, by norm_num⟩, ⟨1 / 2, 1, -1, by norm_num, by norm_num⟩, ⟨1 / 4, 1, -2, by norm_num, by norm_num⟩, ⟨1 / 4, 1, -2, by norm_num, by norm_num⟩, ⟨1, 1, 0, by norm_num, by norm_num⟩, ⟨1, 1, 0, by norm_num, by norm_num⟩⟩,
    by norm_num, by norm_num, by norm_num, by norm_num, by norm_num, by norm_num, by norm_num, by norm_num, by norm_num, by norm_num⟩

end AMDRounded
end DSP
