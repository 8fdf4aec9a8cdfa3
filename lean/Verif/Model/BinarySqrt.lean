import Verif.Model.Binary
import Mathlib.Analysis.Real.Sqrt

/-!
# The square root in binary floating point

As IEEE 754 prescribes it: the exact root rounded to the nearest number of `p` bits, ties to even.
-/

namespace DSP
namespace Binary

/-- To the nearest integer, ties to even. -/
noncomputable def nearestReal (x : ℝ) : ℤ :=
  let f := ⌊x⌋
  let r := x - f
  if r < 1 / 2 then f else if 1 / 2 < r then f + 1 else if f % 2 = 0 then f else f + 1

/-- To the nearest number of `p` bits. -/
noncomputable def roundReal (p : ℕ) (x : ℝ) : ℚ :=
  let e := Int.log 2 |x| + 1 - p
  nearestReal (x / 2 ^ e) * 2 ^ e

theorem nearestReal_cast (x : ℚ) : nearestReal x = nearest x := by
  unfold nearestReal nearest
  simp only [Rat.floor_cast]
  have e1 : (x : ℝ) - (⌊x⌋ : ℤ) < 1 / 2 ↔ x - ⌊x⌋ < 1 / 2 := by
    rw [← Rat.cast_lt (K := ℝ)]; push_cast; rfl
  have e2 : 1 / 2 < (x : ℝ) - (⌊x⌋ : ℤ) ↔ 1 / 2 < x - ⌊x⌋ := by
    rw [← Rat.cast_lt (K := ℝ)]; push_cast; rfl
  simp only [e1, e2]

theorem log_cast (x : ℚ) : Int.log 2 (x : ℝ) = Int.log 2 x := by
  rcases le_or_gt x 0 with h | h
  · rw [Int.log_of_right_le_zero _ h, Int.log_of_right_le_zero _ (by exact_mod_cast h)]
  have h' : (0 : ℝ) < x := by exact_mod_cast h
  apply le_antisymm
  · have := Int.zpow_log_le_self (b := 2) (by norm_num) h'
    rw [← Int.zpow_le_iff_le_log (by norm_num) h, ← Rat.cast_le (K := ℝ)]
    push_cast at this ⊢
    exact this
  · have := Int.zpow_log_le_self (b := 2) (by norm_num) h
    rw [← Int.zpow_le_iff_le_log (by norm_num) h']
    rw [← Rat.cast_le (K := ℝ)] at this
    push_cast at this ⊢
    exact this

/-- On fractions it is the rounding of the other operations. -/
theorem roundReal_cast (p : ℕ) (x : ℚ) : roundReal p x = round p x := by
  unfold roundReal round
  simp only []
  rw [← Rat.cast_abs, log_cast]
  congr 2
  rw [← nearestReal_cast]
  push_cast
  rfl

theorem nearestReal_near (x : ℝ) : |(nearestReal x : ℝ) - x| ≤ 1 / 2 := by
  have h0 := Int.floor_le x
  have h1 := Int.lt_floor_add_one x
  unfold nearestReal
  simp only []
  split_ifs <;> (try push_cast) <;> rw [abs_le] <;> constructor <;> linarith

theorem roundReal_error (p : ℕ) (x : ℝ) : |(roundReal p x : ℝ) - x| ≤ |x| / 2 ^ p := by
  by_cases hx : x = 0
  · subst hx; simp [roundReal, nearestReal]
  have h0 : 0 < |x| := abs_pos.mpr hx
  have hl := Int.zpow_log_le_self (b := 2) (by norm_num) h0
  unfold roundReal
  simp only []
  generalize Int.log 2 |x| = l at *
  push_cast at hl ⊢
  have hp : (0 : ℝ) < 2 ^ (l + 1 - (p : ℤ)) := by positivity
  have h := nearestReal_near (x / 2 ^ (l + 1 - (p : ℤ)))
  have e : (nearestReal (x / 2 ^ (l + 1 - (p : ℤ))) : ℝ) * 2 ^ (l + 1 - (p : ℤ)) - x = (nearestReal (x / 2 ^ (l + 1 - (p : ℤ))) - x / 2 ^ (l + 1 - (p : ℤ))) * 2 ^ (l + 1 - (p : ℤ)) := by
    field_simp
  rw [e, abs_mul, abs_of_pos hp]
  have e2 : (2 : ℝ) ^ (l + 1 - (p : ℤ)) = 2 * 2 ^ l / 2 ^ p := by
    rw [zpow_sub₀ (by norm_num), zpow_add₀ (by norm_num), zpow_one, zpow_natCast]
    ring
  rw [e2] at h ⊢
  calc _ ≤ 1 / 2 * (2 * 2 ^ l / 2 ^ p) := by gcongr
    _ = (2 : ℝ) ^ l / 2 ^ p := by ring
    _ ≤ _ := by gcongr

theorem roundReal_representable (p : ℕ) (hp : 0 < p) (x : ℝ) : Representable p (roundReal p x) := by
  by_cases hx : x = 0
  · subst hx; exact ⟨0, 0, by simp, by simp [roundReal, nearestReal]⟩
  unfold roundReal
  simp only []
  set e := Int.log 2 |x| + 1 - (p : ℤ) with he
  have hl := Int.lt_zpow_succ_log_self (b := 2) (by norm_num) |x|
  push_cast at hl
  have hpos : (0 : ℝ) < 2 ^ e := by positivity
  have hb : |x / 2 ^ e| < 2 ^ p := by
    rw [abs_div, abs_of_pos hpos, div_lt_iff₀ hpos, ← zpow_natCast, ← zpow_add₀ (by norm_num)]
    rwa [show (p : ℤ) + e = Int.log 2 |x| + 1 by omega]
  have hn := nearestReal_near (x / 2 ^ e)
  have h : |nearestReal (x / 2 ^ e)| ≤ 2 ^ p := by
    have : |(nearestReal (x / 2 ^ e) : ℝ)| < 2 ^ p + 1 := by
      calc _ = |((nearestReal (x / 2 ^ e) : ℝ) - x / 2 ^ e) + x / 2 ^ e| := by congr 1; ring
        _ ≤ _ := abs_add_le _ _
        _ < _ := by linarith
    have : |nearestReal (x / 2 ^ e)| < 2 ^ p + 1 := by exact_mod_cast this
    omega
  generalize nearestReal (x / 2 ^ e) = n at *
  clear_value e
  rcases h.lt_or_eq with h | h
  · exact ⟨n, e, h, rfl⟩
  · have h2 : (1 : ℤ) < 2 ^ p := one_lt_pow₀ (by norm_num) hp.ne'
    rcases abs_eq (by positivity) |>.mp h with h | h
    · refine ⟨1, p + e, by rw [abs_one]; exact h2, ?_⟩
      rw [h, zpow_add₀ (by norm_num), zpow_natCast]
      push_cast
      ring
    · refine ⟨-1, p + e, by rw [abs_neg, abs_one]; exact h2, ?_⟩
      rw [h, zpow_add₀ (by norm_num), zpow_natCast]
      push_cast
      ring

/-- The square root of the processor. -/
noncomputable def sqrt {p : ℕ} [NeZero p] (a : Binary p) : Binary p := ⟨roundReal p √(a.val : ℝ), roundReal_representable p (Nat.pos_of_ne_zero (NeZero.ne p)) _⟩

end Binary
end DSP
