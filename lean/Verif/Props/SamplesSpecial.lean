import Verif.Model.SamplesIeee
import Verif.Props.WavBinary
import Verif.Props.FMDBridge
import Verif.Props.UnitCircleSpecial

/-!
# C135: samples and pixels with infinities and NaN, and in IEEE arithmetic
-/

namespace DSP

open Ieee Spec FFT Bridge Wav

namespace SamplesIeee

variable {F : Format} [NeZero F.p]

/-! ### Conversion to codes -/

theorem code_near {a : Ieee F} {b : Binary F.p} (h : Same a b) : a.code = Binary.nearest b.val := by
  obtain ⟨hf, -, hv⟩ := h
  cases a with
  | nan => exact hf.elim
  | inf => exact hf.elim
  | num s m => rw [← hv]; rfl

theorem less_same {a b : Ieee F} {a' b' : Binary F.p} (ha : Same a a') (hb : Same b b') : a < b ↔ a'.val < b'.val := by
  obtain ⟨hf, -, hv⟩ := ha
  obtain ⟨hf', -, hv'⟩ := hb
  cases a with
  | nan => exact hf.elim
  | inf => exact hf.elim
  | num s m =>
    cases b with
    | nan => exact hf'.elim
    | inf => exact hf'.elim
    | num t n =>
      rw [← hv, ← hv']
      show decide (signed s m < signed t n) = true ↔ signed s m < signed t n
      exact decide_eq_true_iff

theorem max_same {a b : Ieee F} {a' b' : Binary F.p} (ha : Same a a') (hb : Same b b') : Same (stdMax a b) (if a'.val < b'.val then b' else a') := by
  unfold stdMax
  by_cases h : a'.val < b'.val
  · rw [if_pos ((less_same ha hb).mpr h), if_pos h]; exact hb
  · rw [if_neg (fun c => h ((less_same ha hb).mp c)), if_neg h]; exact ha

theorem min_same {a b : Ieee F} {a' b' : Binary F.p} (ha : Same a a') (hb : Same b b') : Same (stdMin a b) (if b'.val < a'.val then b' else a') := by
  unfold stdMin
  by_cases h : b'.val < a'.val
  · rw [if_pos ((less_same hb ha).mpr h), if_pos h]; exact hb
  · rw [if_neg (fun c => h ((less_same hb ha).mp c)), if_neg h]; exact ha

/-- A whole number times a number of the format does not underflow. -/
theorem times_agree (n : ℤ) {c x : Ieee F} {c' x' : Binary F.p} (hc : Same c c') (hn : c'.val = n) (hx : Same x x') : Agree (c * x) (c' * x') := by
  intro h
  have hp : 0 < F.p := Nat.pos_of_ne_zero (NeZero.ne _)
  refine ⟨h, mul_valid hp _ _, ?_⟩
  obtain ⟨k, hk⟩ := (valid_fits hx.2.1).2
  rw [mul_val hp c x hc.1 hx.1 hc.2.1 hx.2.1 h, hc.2.2, hx.2.2]
  refine roundTo_grid hp _ ⟨n * k, ?_⟩
  rw [hn, ← hx.2.2, hk]
  push_cast
  ring

variable (D : UnitCircle.Deep F) (fb : Ieee F → BitVec 32) (bf : BitVec 32 → Ieee F) (fb' : Binary F.p → BitVec 32) (bf' : BitVec 32 → Binary F.p)

/-- What is converted to `int`. -/
def clampedIeee (T : Wav.Sample (Ieee F)) (off f lo hi : ℤ) (x : Ieee F) : Ieee F := T.min (T.max (T.add (T.ofInt off) (T.mul (T.ofInt f) x)) (T.ofInt lo)) (T.ofInt hi)

section
include D

theorem int_same (n : ℤ) (h : |n| ≤ 32768) : Same ((n : ℤ) : Ieee F) ((n : ℤ) : Binary F.p) ∧ ((n : ℤ) : Binary F.p).val = n :=
  ⟨UnitCircle.same_int D n (by omega), WavBinary.cast_val n (WavBinary.small D.wide.p h)⟩

/-- If nothing overflows, the code is the same as without limits of the exponent. -/
theorem code_same (off f lo hi : ℤ) (hoff : |off| ≤ 32768) (hf : |f| ≤ 32768) (hlo : |lo| ≤ 32768) (hhi : |hi| ≤ 32768) {x : Ieee F} {x' : Binary F.p} (hx : Same x x')
    (hv : ((off : Ieee F) + (f : Ieee F) * x).Finite) :
    (clampedIeee (ieeeSample F fb bf) off f lo hi x).code = Binary.nearest (WavBinary.clamped (binarySample F.p fb' bf') off f lo hi x').val := by
  obtain ⟨s1, -⟩ := int_same D off hoff
  obtain ⟨s2, v2⟩ := int_same D f hf
  obtain ⟨s3, -⟩ := int_same D lo hlo
  obtain ⟨s4, -⟩ := int_same D hi hhi
  have sv := (s1.agree.add (times_agree f s2 v2 hx)) hv
  exact code_near (min_same (max_same sv s3) s4)

/-- If something overflows, it is positive or negative infinity, and the code is one of the limits. -/
theorem code_infinite (off f lo hi : ℤ) (hlo : |lo| ≤ 32768) (hhi : |hi| ≤ 32768) (hlh : lo ≤ hi) (x : Ieee F) (s : Bool) (hv : ((off : Ieee F) + (f : Ieee F) * x) = inf s) :
    (clampedIeee (ieeeSample F fb bf) off f lo hi x).code = if s then lo else hi := by
  obtain ⟨⟨f3, i3, e3⟩, v3⟩ := int_same D lo hlo
  obtain ⟨⟨f4, i4, e4⟩, v4⟩ := int_same D hi hhi
  have s3 := (int_same D lo hlo).1
  have s4 := (int_same D hi hhi).1
  have n3 := code_near s3
  have n4 := code_near s4
  rw [v3, Binary.nearest_int] at n3
  rw [v4, Binary.nearest_int] at n4
  show (stdMin (stdMax ((off : Ieee F) + (f : Ieee F) * x) (lo : Ieee F)) (hi : Ieee F)).code = _
  rw [hv]
  cases s with
  | true =>
    have h1 : stdMax (inf true) ((lo : ℤ) : Ieee F) = (lo : Ieee F) := by
      unfold stdMax
      cases h : ((lo : ℤ) : Ieee F) with
      | nan => rw [h] at f3; exact f3.elim
      | inf => rw [h] at f3; exact f3.elim
      | num t m => rfl
    rw [h1, if_pos rfl]
    unfold stdMin
    rw [if_neg, n3]
    rw [less_same s4 s3, v3, v4]
    exact not_lt.mpr (by exact_mod_cast hlh)
  | false =>
    have h1 : stdMax (inf false) ((lo : ℤ) : Ieee F) = inf false := by
      unfold stdMax
      cases h : ((lo : ℤ) : Ieee F) with
      | nan => rw [h] at f3; exact f3.elim
      | inf => rw [h] at f3; exact f3.elim
      | num t m => rfl
    have h2 : stdMin (inf false) ((hi : ℤ) : Ieee F) = (hi : Ieee F) := by
      unfold stdMin
      cases h : ((hi : ℤ) : Ieee F) with
      | nan => rw [h] at f4; exact f4.elim
      | inf => rw [h] at f4; exact f4.elim
      | num t m => rfl
    rw [h1, h2, n4]
    rfl

/-- What overflows, is loud. -/
theorem loud_or_finite (off f : ℤ) (h0 : 0 ≤ off) (h1 : off ≤ 128) (h2 : 127 ≤ f) (h3 : f ≤ 32767) (x : Ieee F) (hn : x ≠ nan) (hx : x.Valid) :
    (x.Finite ∧ ((off : Ieee F) + (f : Ieee F) * x).Finite) ∨ ((off : Ieee F) + (f : Ieee F) * x = inf false ∧ (x = inf false ∨ x.Finite ∧ 2 ≤ x.val)) ∨
      ((off : Ieee F) + (f : Ieee F) * x = inf true ∧ (x = inf true ∨ x.Finite ∧ x.val ≤ -2)) := by
  have hp : 0 < F.p := Nat.pos_of_ne_zero (NeZero.ne _)
  obtain ⟨s1, v1⟩ := int_same D off (by rw [abs_le]; omega)
  obtain ⟨s2, v2⟩ := int_same D f (by rw [abs_le]; omega)
  have e1 : ((off : ℤ) : Ieee F).val = off := by rw [s1.2.2, v1]
  have e2 : ((f : ℤ) : Ieee F).val = f := by rw [s2.2.2, v2]
  have q1 : (0 : ℚ) ≤ off := by exact_mod_cast h0
  have q1' : (off : ℚ) ≤ 128 := by exact_mod_cast h1
  have q2 : (127 : ℚ) ≤ f := by exact_mod_cast h2
  have q3 : (f : ℚ) ≤ 32767 := by exact_mod_cast h3
  obtain ⟨f1, i1, -⟩ := s1
  obtain ⟨f2, i2, -⟩ := s2
  generalize ((off : ℤ) : Ieee F) = o at *
  generalize ((f : ℤ) : Ieee F) = c at *
  -- a sum or product that does not fit is large
  have big : ∀ y : ℚ, ¬|roundTo F y| < 2 ^ F.emax → (2 : ℚ) ^ 60 < |y| := by
    intro y hy
    by_contra hc
    exact hy (round_range (NCO.usual_of_wide D.wide) y (UnitCircle.roof D (not_lt.mp hc))).1
  cases o with
  | nan => exact f1.elim
  | inf => exact f1.elim
  | num so mo =>
  cases c with
  | nan => exact f2.elim
  | inf => exact f2.elim
  | num sc mc =>
  have hsc : sc = false ∧ mc = f := by
    have hm : 0 ≤ mc := i2.1
    cases sc with
    | true =>
      have : -mc = (f : ℚ) := e2
      linarith
    | false => exact ⟨rfl, e2⟩
  obtain ⟨rfl, rfl⟩ := hsc
  cases x with
  | nan => exact absurd rfl hn
  | inf s =>
    have hm : (num false (f : ℚ) : Ieee F) * inf s = inf s := by
      show (if (f : ℚ) = 0 then (nan : Ieee F) else inf (false ^^ s)) = _
      rw [if_neg (by linarith), Bool.false_xor]
    rw [hm]
    cases s
    · exact .inr (.inl ⟨rfl, .inl rfl⟩)
    · exact .inr (.inr ⟨rfl, .inl rfl⟩)
  | num s m =>
    have hm0 : 0 ≤ m := hx.1
    have hm : (num false (f : ℚ) : Ieee F) * num s m = pack s (f * m) := by
      show pack (false ^^ s) (f * m) = _
      rw [Bool.false_xor]
    rw [hm]
    by_cases hr : |roundTo F (f * m)| < 2 ^ F.emax
    · -- the product is finite
      have hpn : (pack s (f * m) : Ieee F) = num s |roundTo F (f * m)| := pack_num s _ hr
      rw [hpn]
      generalize hM : |roundTo F (f * m)| = Mm at *
      have hsum : (num so mo : Ieee F) + num s Mm = if signed so mo + signed s Mm = 0 then num (so && s) 0 else pack (decide (signed so mo + signed s Mm < 0)) (signed so mo + signed s Mm) := rfl
      rw [hsum]
      have eo : signed so mo = (off : ℚ) := e1
      rw [eo]
      by_cases hz : (off : ℚ) + signed s Mm = 0
      · rw [if_pos hz]; exact .inl ⟨trivial, trivial⟩
      rw [if_neg hz]
      by_cases hr2 : |roundTo F ((off : ℚ) + signed s Mm)| < 2 ^ F.emax
      · exact .inl ⟨trivial, (pack_finite _ _).mpr hr2⟩
      · right
        have hb := big _ hr2
        rw [pack_cases, if_pos (not_lt.mp hr2)]
        have hM0 : 0 ≤ Mm := by rw [← hM]; exact abs_nonneg _
        have hM1 : (2 : ℚ) ^ 59 ≤ Mm := by
          have h1 : |(off : ℚ) + signed s Mm| ≤ 128 + Mm := by
            refine (abs_add_le _ _).trans (add_le_add (by rw [abs_of_nonneg q1]; exact q1') (le_of_eq ?_))
            cases s
            · exact abs_of_nonneg hM0
            · exact (abs_neg Mm).trans (abs_of_nonneg hM0)
          have : (2 : ℚ) ^ 60 = 2 ^ 59 + 2 ^ 59 := by norm_num
          have : (128 : ℚ) ≤ 2 ^ 59 := by norm_num
          linarith
        have hm2 : 2 ≤ m := by
          by_contra hc
          have hle : (f : ℚ) * m ≤ 32767 * 2 := mul_le_mul q3 (not_le.mp hc).le hm0 (by norm_num)
          have h0 : 0 ≤ (f : ℚ) * m := by positivity
          obtain ⟨-, r2⟩ := round_range (NCO.usual_of_wide D.wide) ((f : ℚ) * m) (UnitCircle.roof D (by rw [abs_of_nonneg h0]; exact hle.trans (by norm_num)))
          have hu := NCO.unit_tiny D.wide
          have hfl := NCO.floor_tiny D.wide
          have hb' : ((roundTo F ((f : ℚ) * m) : ℚ) : ℝ) ≤ 131072 := by
            have hle' : (((f : ℚ) * m : ℚ) : ℝ) ≤ 32767 * 2 := by exact_mod_cast hle
            have h0' : (0 : ℝ) ≤ (((f : ℚ) * m : ℚ) : ℝ) := by exact_mod_cast h0
            rw [abs_of_nonneg h0'] at r2
            have e0 : (0 : ℝ) ≤ 2 ^ (F.emin + F.p - 1) := by positivity
            have u0 : (0 : ℝ) ≤ 1 / 2 ^ F.p := by positivity
            have : 1 / 2 ^ F.p * ((((f : ℚ) * m : ℚ) : ℝ) + 2 ^ (F.emin + F.p - 1)) ≤ 1 / 1000000 * (32767 * 2 + 1 / 1000000) := by gcongr
            have := (abs_le.mp r2).2
            norm_num at *
            linarith
          have hb2 : roundTo F ((f : ℚ) * m) ≤ 131072 := by exact_mod_cast hb'
          have hb3 : 0 ≤ roundTo F ((f : ℚ) * m) := roundTo_nonneg hp _ h0
          rw [abs_of_nonneg hb3] at hM
          rw [hM] at hb2
          have := hM1.trans hb2
          norm_num at this
        cases s with
        | false =>
          left
          refine ⟨?_, .inr ⟨trivial, hm2⟩⟩
          have : decide ((off : ℚ) + signed false Mm < 0) = false := by
            rw [decide_eq_false_iff_not, not_lt]
            exact add_nonneg q1 hM0
          rw [this]
        | true =>
          right
          refine ⟨?_, .inr ⟨trivial, neg_le_neg hm2⟩⟩
          have : decide ((off : ℚ) + signed true Mm < 0) = true := by
            rw [decide_eq_true_iff]
            show (off : ℚ) + -Mm < 0
            have : (128 : ℚ) < 2 ^ 59 := by norm_num
            linarith
          rw [this]
    · have hb := big _ hr
      have h0 : 0 ≤ (f : ℚ) * m := by positivity
      rw [abs_of_nonneg h0] at hb
      have hm2 : 2 ≤ m := by
        by_contra hc
        have hle : (f : ℚ) * m ≤ 32767 * 2 := mul_le_mul q3 (not_le.mp hc).le hm0 (by norm_num)
        have : (32767 * 2 : ℚ) < 2 ^ 60 := by norm_num
        linarith
      rw [pack_cases, if_pos (not_lt.mp hr)]
      cases s with
      | false => exact .inr (.inl ⟨rfl, .inr ⟨trivial, hm2⟩⟩)
      | true => exact .inr (.inr ⟨rfl, .inr ⟨trivial, neg_le_neg hm2⟩⟩)

/-- A decoded code. -/
theorem decoded_same (a f : ℤ) (ha : |a| ≤ 32768) (h1 : 127 ≤ f) (h2 : f ≤ 32767) : Same (((a : ℤ) : Ieee F) / ((f : ℤ) : Ieee F)) (((a : ℤ) : Binary F.p) / ((f : ℤ) : Binary F.p)) := by
  obtain ⟨s1, v1⟩ := int_same D a ha
  obtain ⟨s2, v2⟩ := int_same D f (by rw [abs_le]; omega)
  have q1 : (127 : ℚ) ≤ f := by exact_mod_cast h1
  have q2 : (f : ℚ) ≤ 32767 := by exact_mod_cast h2
  have q3 : |(a : ℚ)| ≤ 32768 := by exact_mod_cast ha
  refine UnitCircle.same_div D s1 s2 (by rw [v2]; linarith) ?_ ?_ <;> rw [v1, v2]
  · rcases eq_or_ne a 0 with rfl | h
    · left; norm_num
    · right
      have : (1 : ℚ) ≤ |(a : ℚ)| := by exact_mod_cast Int.one_le_abs h
      rw [abs_div, abs_of_pos (a := (f : ℚ)) (by linarith), le_div_iff₀ (by linarith)]
      calc (1 : ℚ) / 2 ^ 98 * f ≤ 1 / 2 ^ 98 * 32767 := by gcongr
        _ ≤ 1 := by norm_num
        _ ≤ _ := this
  · rw [abs_div, abs_of_pos (a := (f : ℚ)) (by linarith), div_le_iff₀ (by linarith)]
    calc |(a : ℚ)| ≤ 32768 := q3
      _ ≤ 2 ^ 60 * 127 := by norm_num
      _ ≤ _ := by gcongr

/-- The code of a sample. -/
theorem code_cases (off f lo hi : ℤ) (h0 : 0 ≤ off) (h1 : off ≤ 128) (h2 : 127 ≤ f) (h3 : f ≤ 32767) (hlo : |lo| ≤ 32768) (hhi : |hi| ≤ 32768) (hlh : lo ≤ hi) (x : Ieee F) (hn : x ≠ nan) (hx : x.Valid) :
    (x.Finite ∧ (clampedIeee (ieeeSample F fb bf) off f lo hi x).code = Binary.nearest (WavBinary.clamped (binarySample F.p fb' bf') off f lo hi (FMDRounded.free x)).val) ∨
    ((x = inf false ∨ x.Finite ∧ 2 ≤ x.val) ∧ (clampedIeee (ieeeSample F fb bf) off f lo hi x).code = hi) ∨
    ((x = inf true ∨ x.Finite ∧ x.val ≤ -2) ∧ (clampedIeee (ieeeSample F fb bf) off f lo hi x).code = lo) := by
  rcases loud_or_finite D off f h0 h1 h2 h3 x hn hx with ⟨hf, h⟩ | ⟨h, l⟩ | ⟨h, l⟩
  · exact .inl ⟨hf, code_same D fb bf fb' bf' off f lo hi (by rw [abs_le]; omega) (by rw [abs_le]; omega) hlo hhi (FMDRounded.free_same hf hx) h⟩
  · exact .inr (.inl ⟨l, code_infinite D fb bf off f lo hi hlo hhi hlh x false h⟩)
  · exact .inr (.inr ⟨l, code_infinite D fb bf off f lo hi hlo hhi hlh x true h⟩)

/-- The code of a loud sample. -/
theorem loud_code (off f lo hi : ℤ) (h0 : 0 ≤ off) (h1 : off ≤ 128) (h2 : 127 ≤ f) (h3 : f ≤ 32767) (hlo : lo = off - f - 1) (hhi : hi = off + f) (hlo' : -32768 ≤ lo) (hhi' : hi ≤ 32767) (x : Ieee F) (hx : x.Valid) :
    (x = inf false ∨ x.Finite ∧ 1 ≤ x.val → (clampedIeee (ieeeSample F fb bf) off f lo hi x).code = hi) ∧
    (x = inf true ∨ x.Finite ∧ x.val ≤ -((f : ℚ) + 1) / f → (clampedIeee (ieeeSample F fb bf) off f lo hi x).code = lo) := by
  obtain ⟨l1, l2⟩ := WavBinary.loud (fun _ => 0) (fun _ => 0) D.wide.p off f lo hi h0 h1 h2 h3 hlo hhi hlo' hhi' (FMDRounded.free x)
  rw [FMDRounded.free_val hx] at l1 l2
  have hfq : (127 : ℚ) ≤ f := by exact_mod_cast h2
  have c := fun hn => code_cases D fb bf (fun _ => 0) (fun _ => 0) off f lo hi h0 h1 h2 h3 (by rw [abs_le]; omega) (by rw [abs_le]; omega) (by omega) x hn hx
  constructor
  · intro h
    rcases c (by rintro rfl; rcases h with h | h; cases h; exact h.1) with ⟨hf, h'⟩ | ⟨-, h'⟩ | ⟨h', -⟩
    · rw [h']
      rcases h with rfl | h
      · exact hf.elim
      · exact l1 h.2
    · exact h'
    · rcases h with rfl | ⟨hf, h⟩
      · rcases h' with h' | ⟨h', -⟩
        · cases h'
        · exact h'.elim
      · rcases h' with rfl | ⟨-, h'⟩
        · exact hf.elim
        · linarith
  · intro h
    rcases c (by rintro rfl; rcases h with h | h; cases h; exact h.1) with ⟨hf, h'⟩ | ⟨h', -⟩ | ⟨-, h'⟩
    · rw [h']
      rcases h with rfl | h
      · exact hf.elim
      · exact l2 h.2
    · rcases h with rfl | ⟨hf, h⟩
      · rcases h' with h' | ⟨h', -⟩
        · cases h'
        · exact h'.elim
      · rcases h' with rfl | ⟨-, h'⟩
        · exact hf.elim
        · rw [le_div_iff₀ (by linarith)] at h
          nlinarith
    · exact h'

end

omit [NeZero F.p] in
/-- Frames with a sample that cannot be written. -/
theorem frame_error {T : Wav.Sample (Ieee F)} {w : Writer} {buf : List (Ieee F)} {s n j : Nat} {x : Ieee F} (hx : buf[s * n + j]? = some x) {e : Fault} (he : w.sample T x = .error e) (k c : Nat) (h1 : c ≤ j) (h2 : j < c + k) :
    ∃ e, w.frame T buf (s : Int) (n : Int) k (c : Int) = .error e := by
  induction k generalizing c with
  | zero => omega
  | succ k ih =>
    unfold Writer.frame
    simp only [bind, Except.bind]
    cases hr : rd buf ((s : Int) * n + c) with
    | error e => exact ⟨e, rfl⟩
    | ok y =>
      simp only
      rcases Nat.eq_or_lt_of_le h1 with rfl | h
      · have hidx : (s : Int) * (n : Int) + (c : Int) = ((s * n + c : Nat) : Int) := by push_cast; ring
        have : rd buf ((s : Int) * n + c) = .ok x := by rw [hidx]; exact rd_of_getElem? (by omega) (by rw [Int.toNat_natCast]; exact hx)
        rw [this] at hr
        cases hr
        rw [he]
        exact ⟨e, rfl⟩
      · cases w.sample T y with
        | error e => exact ⟨e, rfl⟩
        | ok a =>
          obtain ⟨e, h⟩ := ih (c + 1) (by omega) (by omega)
          push_cast at h
          simp only [h]
          exact ⟨e, rfl⟩

omit [NeZero F.p] in
theorem frames_error {T : Wav.Sample (Ieee F)} {w : Writer} {buf : List (Ieee F)} {s m j : Nat} {x : Ieee F} (hj : j < w.channels.toNat) (hx : buf[s * m + j]? = some x) {e : Fault} (he : w.sample T x = .error e) (k n : Nat) (h1 : n ≤ m) (h2 : m < n + k) :
    ∃ e, w.framesLoop T buf (s : Int) k (n : Int) = .error e := by
  induction k generalizing n with
  | zero => omega
  | succ k ih =>
    unfold Writer.framesLoop
    simp only [bind, Except.bind]
    rcases Nat.eq_or_lt_of_le h1 with rfl | h
    · obtain ⟨e, h⟩ := frame_error hx he w.channels.toNat 0 (by omega) (by omega)
      rw [Nat.cast_zero] at h
      rw [h]
      exact ⟨e, rfl⟩
    · cases w.frame T buf s n w.channels.toNat 0 with
      | error e => exact ⟨e, rfl⟩
      | ok a =>
        obtain ⟨e, h⟩ := ih (n + 1) (by omega) (by omega)
        push_cast at h
        simp only [h]
        exact ⟨e, rfl⟩

end SamplesIeee

open SamplesIeee

section

variable {F : Format} [NeZero F.p] (D : UnitCircle.Deep F) (fb : Ieee F → BitVec 32) (bf : BitVec 32 → Ieee F)

omit [NeZero F.p] in
/-- **C135** A NaN is converted to `int`, which is undefined: with 8 or 16 bits a call of `write` that has one among the samples it reads is never carried out as meant. -/
theorem C135_nan {rate bits channels : Int} (hb : bits = 8 ∨ bits = 16) (buf : List (Ieee F)) (num stride : Int) (n c : Nat) (hc : 0 ≤ channels)
    (hn : n < num.toNat) (hc' : c < channels.toNat) (hx : buf[effStride channels stride * n + c]? = some nan) :
    ∃ e, (Writer.init rate bits channels).1.write (ieeeSample F fb bf) buf num stride = .error e := by
  have one : (Writer.init rate bits channels).1.sample (ieeeSample F fb bf) nan = .error .overflow := by
    have key : ∀ off f lo hi : Ieee F, int32 (Ieee.code (stdMin (stdMax (off + f * nan) lo) hi)) = .error .overflow := by
      intro off f lo hi
      rw [mul_nan, add_nan]
      have h1 : stdMax (nan : Ieee F) lo = nan := rfl
      have h2 : stdMin (nan : Ieee F) hi = nan := by
        unfold stdMin
        rw [if_neg]
        cases hi <;> exact Bool.false_ne_true
      rw [h1, h2]
      rfl
    rcases hb with rfl | rfl
    · simp only [Writer.init, if_true, Writer.sample, show ¬ ((1 : Int) = 4) by decide, if_false, bind, Except.bind, ieeeSample]
      rw [key]
    · simp only [Writer.init, show ¬ ((16 : Int) = 8) by decide, if_true, Writer.sample, show ¬ ((2 : Int) = 4) by decide, if_false, bind, Except.bind, ieeeSample]
      rw [key]
  simp only [Writer.write, (init_bytes rate bits channels).2]
  rw [effStride_cast hc]
  exact frames_error (by rw [(init_bytes rate bits channels).2]; exact hc') hx one num.toNat 0 (by omega) (by omega)

include D

/-- **C135** A sample between the most negative code and full scale comes back within half a step and six units of rounding, in any IEEE format, subnormal numbers included. -/
theorem C135_within {bits : Int} (hb : bits = 8 ∨ bits = 16) {x : Ieee F} (hf : x.Finite) (hv : x.Valid) (h0 : -((fullScale bits : ℚ) + 1) / fullScale bits ≤ x.val) (h1 : x.val ≤ 1) :
    ∃ v, Codec (ieeeSample F fb bf) bits x v ∧ v.Finite ∧ |v.val - x.val| ≤ 1 / (2 * fullScale bits) + 6 / 2 ^ F.p := by
  have hp := D.wide.p
  have hn : x ≠ nan := by rintro rfl; exact hf
  have e := FMDRounded.free_val hv
  rcases hb with rfl | rfl
  · have hq := WavBinary.clamped_between (fun _ => 0) (fun _ => 0) hp 128 127 0 255 (by norm_num) (by norm_num) (by norm_num) (FMDRounded.free x)
    have hw := WavBinary.within (fun _ => 0) (fun _ => 0) hp 128 127 0 255 (by norm_num) (by norm_num) (by norm_num) (by norm_num) (by norm_num) (by norm_num) (FMDRounded.free x) (by rw [e]; exact h0) (by rw [e]; exact h1)
    rcases code_cases D fb bf (fun _ => 0) (fun _ => 0) 128 127 0 255 (by norm_num) (by norm_num) (by norm_num) (by norm_num) (by norm_num) (by norm_num) (by norm_num) x hn hv with ⟨-, h⟩ | ⟨h, -⟩ | ⟨h, -⟩
    · generalize Binary.nearest (WavBinary.clamped (binarySample F.p (fun _ => 0) (fun _ => 0)) 128 127 0 255 (FMDRounded.free x)).val = q at *
      have ds := decoded_same D (q - 128) 127 (by rw [abs_le]; omega) (by norm_num) (by norm_num)
      refine ⟨_, codec_8 (T := ieeeSample F fb bf) h hq.1 hq.2, ds.1, ?_⟩
      rw [e] at hw
      rw [← ds.2.2] at hw
      exact hw
    · rcases h with rfl | ⟨-, h⟩
      · exact hf.elim
      · linarith
    · rcases h with rfl | ⟨-, h⟩
      · exact hf.elim
      · norm_num [fullScale] at h0; linarith
  · have hq := WavBinary.clamped_between (fun _ => 0) (fun _ => 0) hp 0 32767 (-32768) 32767 (by norm_num) (by norm_num) (by norm_num) (FMDRounded.free x)
    have hw := WavBinary.within (fun _ => 0) (fun _ => 0) hp 0 32767 (-32768) 32767 (by norm_num) (by norm_num) (by norm_num) (by norm_num) (by norm_num) (by norm_num) (FMDRounded.free x) (by rw [e]; exact h0) (by rw [e]; exact h1)
    rw [sub_zero] at hw
    rcases code_cases D fb bf (fun _ => 0) (fun _ => 0) 0 32767 (-32768) 32767 (by norm_num) (by norm_num) (by norm_num) (by norm_num) (by norm_num) (by norm_num) (by norm_num) x hn hv with ⟨-, h⟩ | ⟨h, -⟩ | ⟨h, -⟩
    · generalize Binary.nearest (WavBinary.clamped (binarySample F.p (fun _ => 0) (fun _ => 0)) 0 32767 (-32768) 32767 (FMDRounded.free x)).val = q at *
      have ds := decoded_same D q 32767 (by rw [abs_le]; omega) (by norm_num) (by norm_num)
      refine ⟨_, codec_16 (T := ieeeSample F fb bf) h hq.1 hq.2, ds.1, ?_⟩
      rw [e] at hw
      rw [← ds.2.2] at hw
      exact hw
    · rcases h with rfl | ⟨-, h⟩
      · exact hf.elim
      · linarith
    · rcases h with rfl | ⟨-, h⟩
      · exact hf.elim
      · norm_num [fullScale] at h0; linarith

/-- **C135** Samples beyond the range saturate, and so do infinities and samples so large that the product overflows: full scale is read as one exactly. -/
theorem C135_saturates {bits : Int} (hb : bits = 8 ∨ bits = 16) (x : Ieee F) (hv : x.Valid) :
    (x = inf false ∨ x.Finite ∧ 1 ≤ x.val → ∃ v, Codec (ieeeSample F fb bf) bits x v ∧ v.Finite ∧ v.val = 1) ∧
    (x = inf true ∨ x.Finite ∧ x.val ≤ -((fullScale bits : ℚ) + 1) / fullScale bits →
      ∃ v, Codec (ieeeSample F fb bf) bits x v ∧ v.Finite ∧ |v.val - -((fullScale bits : ℚ) + 1) / fullScale bits| ≤ 2 / 2 ^ F.p) := by
  have hp := D.wide.p
  have one : ∀ f : ℤ, 0 < f → f ≤ 32767 → (((f : ℤ) : Binary F.p) / ((f : ℤ) : Binary F.p)).val = 1 := by
    intro f h0 h1
    show Binary.round F.p (_ / _) = 1
    rw [WavBinary.cast_val f (WavBinary.small hp (by rw [abs_le]; omega)), div_self (by exact_mod_cast h0.ne')]
    exact Binary.round_of_representable F.p 1 ⟨1, 0, by rw [abs_one]; exact one_lt_pow₀ (by norm_num) (NeZero.ne F.p), by simp⟩
  rcases hb with rfl | rfl
  · obtain ⟨l1, l2⟩ := loud_code D fb bf 128 127 0 255 (by norm_num) (by norm_num) (by norm_num) (by norm_num) (by norm_num) (by norm_num) (by norm_num) (by norm_num) x hv
    have d1 := decoded_same D (255 - 128) 127 (by norm_num) (by norm_num) (by norm_num)
    have d2 := decoded_same D (0 - 128) 127 (by norm_num) (by norm_num) (by norm_num)
    refine ⟨fun h => ⟨_, codec_8 (T := ieeeSample F fb bf) (l1 h) (by norm_num) (by norm_num), d1.1, d1.2.2.trans (one 127 (by norm_num) (by norm_num))⟩,
      fun h => ⟨_, codec_8 (T := ieeeSample F fb bf) (l2 h) (by norm_num) (by norm_num), d2.1, ?_⟩⟩
    refine le_trans (le_of_eq ?_) ((WavBinary.decoded_near (p := F.p) (-128) 127 (WavBinary.small hp (by norm_num)) (WavBinary.small hp (by norm_num))).trans ?_)
    · show |(((0 - 128 : ℤ) : Ieee F) / ((127 : ℤ) : Ieee F)).val - _| = _
      rw [d2.2.2]
      norm_num [fullScale]
    · gcongr; norm_num
  · obtain ⟨l1, l2⟩ := loud_code D fb bf 0 32767 (-32768) 32767 (by norm_num) (by norm_num) (by norm_num) (by norm_num) (by norm_num) (by norm_num) (by norm_num) (by norm_num) x hv
    have d1 := decoded_same D 32767 32767 (by norm_num) (by norm_num) (by norm_num)
    have d2 := decoded_same D (-32768) 32767 (by norm_num) (by norm_num) (by norm_num)
    refine ⟨fun h => ⟨_, codec_16 (T := ieeeSample F fb bf) (l1 h) (by norm_num) (by norm_num), d1.1, d1.2.2.trans (one 32767 (by norm_num) (by norm_num))⟩,
      fun h => ⟨_, codec_16 (T := ieeeSample F fb bf) (l2 h) (by norm_num) (by norm_num), d2.1, ?_⟩⟩
    refine le_trans (le_of_eq ?_) ((WavBinary.decoded_near (p := F.p) (-32768) 32767 (WavBinary.small hp (by norm_num)) (WavBinary.small hp (by norm_num))).trans ?_)
    · show |(((-32768 : ℤ) : Ieee F) / ((32767 : ℤ) : Ieee F)).val - _| = _
      rw [d2.2.2]
      norm_num [fullScale]
    · gcongr; norm_num

/-- **C135** Every code, decoded and encoded again, is itself. -/
theorem C135_reencode (rate channels : Int) :
    (∀ q : Int, 0 ≤ q → q ≤ 255 → (Writer.init rate 8 channels).1.sample (ieeeSample F fb bf) (((q - 128 : ℤ) : Ieee F) / ((127 : ℤ) : Ieee F)) = .ok (writeLE q 1)) ∧
    (∀ q : Int, -32768 ≤ q → q ≤ 32767 → (Writer.init rate 16 channels).1.sample (ieeeSample F fb bf) (((q : ℤ) : Ieee F) / ((32767 : ℤ) : Ieee F)) = .ok (writeLE q 2)) := by
  have hp := D.wide.p
  have back : ∀ off f lo hi q : ℤ, 0 ≤ off → off ≤ 128 → 127 ≤ f → f ≤ 32767 → |lo| ≤ 32768 → |hi| ≤ 32768 → lo ≤ q → q ≤ hi → |q - off| ≤ f + 1 →
      (ieeeSample F fb bf).nearbyint (clampedIeee (ieeeSample F fb bf) off f lo hi (((q - off : ℤ) : Ieee F) / ((f : ℤ) : Ieee F))) = q := by
    intro off f lo hi q h0 h1 h2 h3 hlo hhi hl hh hq
    have ds := decoded_same D (q - off) f (by omega) h2 h3
    have hr := WavBinary.reencode (p := F.p) (fun _ => 0) (fun _ => 0) hp off f lo hi (by rw [abs_le]; omega) h2 h3 hlo hhi q hl hh hq
    have hfq : (127 : ℚ) ≤ f := by exact_mod_cast h2
    have hqq : |((q - off : ℤ) : ℚ)| ≤ f + 1 := by exact_mod_cast hq
    have hd := WavBinary.decoded_near (p := F.p) (q - off) f (WavBinary.small hp (by omega)) (WavBinary.small hp (by rw [abs_le]; omega))
    have small : |(((q - off : ℤ) : Ieee F) / ((f : ℤ) : Ieee F)).val| < 2 := by
      have b1 : |((q - off : ℤ) : ℚ) / f| ≤ 128 / 127 := by
        rw [abs_div, abs_of_pos (a := (f : ℚ)) (by linarith), div_le_div_iff₀ (by linarith) (by norm_num)]
        nlinarith
      have b2 : |((q - off : ℤ) : ℚ) / f| / 2 ^ F.p ≤ 128 / 127 * (1 / 1048576) := by
        rw [div_eq_mul_one_div]
        exact mul_le_mul b1 (WavBinary.unit_small hp) (by positivity) (by norm_num)
      rw [ds.2.2]
      generalize (((q - off : ℤ) : Binary F.p) / ((f : ℤ) : Binary F.p)).val = d at *
      have := abs_sub_abs_le_abs_sub d (((q - off : ℤ) : ℚ) / f)
      norm_num at b2 ⊢
      norm_num at *
      linarith
    rcases loud_or_finite D off f h0 h1 h2 h3 (((q - off : ℤ) : Ieee F) / ((f : ℤ) : Ieee F)) (by intro h; rw [h] at ds; exact ds.1) ds.2.1 with ⟨-, h⟩ | ⟨-, h⟩ | ⟨-, h⟩
    · exact (code_same D fb bf (fun _ => 0) (fun _ => 0) off f lo hi (by rw [abs_le]; omega) (by rw [abs_le]; omega) hlo hhi ds h).trans hr
    · rcases h with h | ⟨-, h⟩
      · rw [h] at ds; exact ds.1.elim
      · rw [abs_lt] at small; linarith
    · rcases h with h | ⟨-, h⟩
      · rw [h] at ds; exact ds.1.elim
      · rw [abs_lt] at small; linarith
  constructor
  · intro q h0 h1
    have h := back 128 127 0 255 q (by norm_num) (by norm_num) (by norm_num) (by norm_num) (by norm_num) (by norm_num) h0 h1 (by rw [abs_le]; omega)
    simp only [clampedIeee] at h
    simp only [Writer.init, if_true, Writer.sample, show ¬ ((1 : Int) = 4) by decide, if_false, h, int32_ok (v := q) (by omega), bind, Except.bind]
    rfl
  · intro q h0 h1
    have h := back 0 32767 (-32768) 32767 q (by norm_num) (by norm_num) (by norm_num) (by norm_num) (by norm_num) (by norm_num) h0 h1 (by rw [abs_le]; omega)
    simp only [clampedIeee, sub_zero] at h
    simp only [Writer.init, if_true, show ¬ ((16 : Int) = 8) by decide, Writer.sample, show ¬ ((2 : Int) = 4) by decide, if_false, h, int32_ok (v := q) (by omega), bind, Except.bind]
    rfl

/-- **C135** through a file: PCM frames written anywhere in a session are read back within half a step and six units of what was written. -/
theorem C135_file {rate bits channels : Int} (hF : HeaderFits rate bits channels) (hb : bits = 8 ∨ bits = 16)
    {w : Writer} {hdr body : List Op} (hopen : Writer.open rate bits channels = .ok (w, hdr))
    (pre post : List (Call (Ieee F))) (buf : List (Ieee F)) (num stride : Int) (x : Nat → Nat → Ieee F)
    (hx : ∀ n c, n < num.toNat → c < channels.toNat → buf[effStride channels stride * n + c]? = some (x n c) ∧ (x n c).Finite ∧ (x n c).Valid ∧ |(x n c).val| ≤ 1)
    (hrun : runCalls (ieeeSample F fb bf) (pre ++ .write buf num stride :: post) w = .ok body)
    (hsize : headerSize bits + ((pre ++ .write buf num stride :: post).map Call.frames).sum * (channels * width bits) ≤ 2147483647)
    (rstride : Int) (hs : channels ≤ effStride channels rstride) (out : List (Ieee F))
    (hout : ∀ n k, n < num.toNat → k < channels.toNat → effStride channels rstride * n + k < out.length) :
    ∃ ops r r1 r2 out' v, Writer.session rate bits channels (runCalls (ieeeSample F fb bf) (pre ++ .write buf num stride :: post)) = .ok ops ∧
      Reader.open (OFile.replay ops).data = .ok r ∧ r.skip ((pre.map Call.frames).sum : Nat) = .ok r1 ∧
      r1.read (ieeeSample F fb bf) out num.toNat rstride = .ok (r2, out') ∧ r2.good = true ∧
      Placed out out' num.toNat channels.toNat (effStride channels rstride) v ∧
      ∀ n c, n < num.toNat → c < channels.toNat → (v n c).Finite ∧ |(v n c).val - (x n c).val| ≤ 1 / (2 * fullScale bits) + 6 / 2 ^ F.p := by
  have hc := hF.3
  have : ∀ n c, ∃ v, n < num.toNat → c < channels.toNat → Codec (ieeeSample F fb bf) bits (x n c) v ∧ v.Finite ∧ |v.val - (x n c).val| ≤ 1 / (2 * fullScale bits) + 6 / 2 ^ F.p := by
    intro n c
    by_cases h : n < num.toNat ∧ c < channels.toNat
    · obtain ⟨-, hf, hv, h1⟩ := hx n c h.1 h.2
      have ha := abs_le.1 h1
      have hfs : (0 : ℚ) < fullScale bits := by unfold fullScale; split_ifs <;> norm_num
      obtain ⟨v, hv⟩ := C135_within D fb bf hb (x := x n c) hf hv (by rw [div_le_iff₀ hfs]; nlinarith [ha.1]) ha.2
      exact ⟨v, fun _ _ => hv⟩
    · exact ⟨nan, fun h1 h2 => absurd ⟨h1, h2⟩ h⟩
  choose v hv using this
  obtain ⟨ops, r, r1, r2, out', h1, h2, h3, h4, h5, h6⟩ := file_read hF hopen
    (write_puts (v := v) (by omega) fun n c hn hc' => ⟨(hx n c hn hc').1, (hv n c hn hc').1⟩) hrun hsize hs hout
  exact ⟨ops, r, r1, r2, out', v, h1, h2, h3, h4, h5, h6, fun n c hn hc' => (hv n c hn hc').2⟩

end

/-- The code 12345 in single precision, and positive infinity. -/
example : (Writer.init 8000 16 1).1.sample (ieeeSample Format.single (fun _ => 0) fun _ => nan) (((12345 : ℤ) : Ieee Format.single) / ((32767 : ℤ) : Ieee Format.single)) = .ok (writeLE 12345 2) ∧
    ∃ v, Codec (ieeeSample Format.single (fun _ => 0) fun _ => nan) 8 (inf false) v ∧ v.Finite ∧ v.val = 1 :=
  ⟨(C135_reencode UnitCircle.deep_single _ _ 8000 1).2 12345 (by norm_num) (by norm_num), (C135_saturates UnitCircle.deep_single _ _ (.inl rfl) (inf false) trivial).1 (.inl rfl)⟩

/-- A NaN among the samples. -/
example : ∃ e, (Writer.init 8000 16 2).1.write (ieeeSample Format.single (fun _ => 0) fun _ => nan) [0, 0, 0, nan] 2 = .error e :=
  C135_nan _ _ (.inr rfl) _ 2 (-1) 1 1 (by norm_num) (by decide) (by decide) rfl

/-- A session with that sample. -/
example : ∃ w hdr body, Writer.open 8000 16 1 = .ok (w, hdr) ∧
    runCalls (ieeeSample Format.single (fun _ => 0) fun _ => nan) [.write [((12345 : ℤ) : Ieee Format.single) / ((32767 : ℤ) : Ieee Format.single)] 1 (-1), .silence 3] w = .ok body := by
  have h := (C135_reencode UnitCircle.deep_single (fun _ => 0) (fun _ => nan) 8000 1).2 12345 (by norm_num) (by norm_num)
  refine ⟨(Writer.init 8000 16 1).1, _, writeLE 12345 2 ++ (List.replicate 3 (writeLE 0 2)).flatten, rfl, ?_⟩
  generalize ((12345 : ℤ) : Ieee Format.single) / ((32767 : ℤ) : Ieee Format.single) = x at h ⊢
  generalize ieeeSample Format.single (fun _ => 0) (fun _ => nan) = T at h ⊢
  have hc : (Writer.init 8000 16 1).1.channels = 1 := rfl
  have hs : (Writer.init 8000 16 1).1.silence 3 = .ok (List.replicate 3 (writeLE 0 2)).flatten := rfl
  have hr : rd [x] 0 = .ok x := rfl
  simp [runCalls, Call.run, Writer.write, Writer.framesLoop, Writer.frame, h, hc, hs, hr, bind, Except.bind, pure, Except.pure]

end DSP
