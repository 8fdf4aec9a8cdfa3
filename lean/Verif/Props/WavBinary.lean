import Verif.Props.WavSamples
import Verif.Lemmas.Binary

/-!
# C69: PCM samples in floating point
-/

namespace DSP

open Wav Spec

/-- `TYPE` as a binary floating point type: `nearbyint` rounds ties to even, `std::min` and `std::max` compare. wav.hh:137,263-264 -/
def Wav.binarySample (p : ℕ) [NeZero p] (bits : Binary p → BitVec 32) (ofBits : BitVec 32 → Binary p) : Sample (Binary p) where
  ofInt := fun n => (n : Binary p)
  add := (· + ·)
  mul := (· * ·)
  div := (· / ·)
  min := fun a b => if b.val < a.val then b else a
  max := fun a b => if a.val < b.val then b else a
  nearbyint := fun a => Binary.nearest a.val
  bits := bits
  ofBits := ofBits

namespace WavBinary

variable {p : ℕ} [NeZero p]

theorem cast_val (n : ℤ) (h : |n| < 2 ^ p) : ((n : ℤ) : Binary p).val = n := Binary.round_of_representable p _ ⟨n, 0, h, by simp⟩

theorem nearest_eq (v : ℚ) (q : ℤ) (h : |v - q| < 1 / 2) : Binary.nearest v = q := by
  have h1 := abs_le.mp (Binary.nearest_near v)
  have h2 := abs_lt.mp h
  have a : (Binary.nearest v : ℚ) < q + 1 := by linarith
  have b : (q : ℚ) - 1 < Binary.nearest v := by linarith
  have a' : Binary.nearest v < q + 1 := by exact_mod_cast a
  have b' : q - 1 < Binary.nearest v := by exact_mod_cast b
  omega

/-- Between the limits, clamping does not lead away. -/
theorem clamp_near (lo hi v t e : ℚ) (h1 : lo ≤ t) (h2 : t ≤ hi) (h : |v - t| ≤ e) :
    |(if hi < (if v < lo then lo else v) then hi else (if v < lo then lo else v)) - t| ≤ e := by
  rw [abs_le] at *
  split_ifs <;> constructor <;> linarith

/-- The value before clamping. -/
theorem scaled_near (off f : ℤ) (hoff : |off| < 2 ^ p) (hf : |f| < 2 ^ p) (x : Binary p) (F : ℚ) (hF : |(f : ℚ) * x.val| ≤ F) :
    |(((off : ℤ) : Binary p) + ((f : ℤ) : Binary p) * x).val - (off + f * x.val)| ≤ (F + (|(off : ℚ)| + 2 * F)) / 2 ^ p := by
  have hu : (1 : ℚ) / 2 ^ p ≤ 1 := by rw [div_le_one (by positivity)]; exact one_le_pow₀ (by norm_num)
  have hu0 : (0 : ℚ) ≤ 1 / 2 ^ p := by positivity
  have e1 : |(((f : ℤ) : Binary p) * x).val - f * x.val| ≤ |(f : ℚ) * x.val| / 2 ^ p := by
    have : |(((f : ℤ) : Binary p) * x).val - ((f : ℤ) : Binary p).val * x.val| ≤ |((f : ℤ) : Binary p).val * x.val| / 2 ^ p := Binary.round_error p _
    rwa [cast_val f hf] at this
  have e2 : |(((off : ℤ) : Binary p) + ((f : ℤ) : Binary p) * x).val - (off + (((f : ℤ) : Binary p) * x).val)| ≤ |(off : ℚ) + (((f : ℤ) : Binary p) * x).val| / 2 ^ p := by
    have : |(((off : ℤ) : Binary p) + ((f : ℤ) : Binary p) * x).val - (((off : ℤ) : Binary p).val + (((f : ℤ) : Binary p) * x).val)| ≤
        |((off : ℤ) : Binary p).val + (((f : ℤ) : Binary p) * x).val| / 2 ^ p := Binary.round_error p _
    rwa [cast_val off hoff] at this
  generalize (((off : ℤ) : Binary p) + ((f : ℤ) : Binary p) * x).val = A at *
  generalize (((f : ℤ) : Binary p) * x).val = m at *
  rw [div_eq_mul_one_div] at e1 e2 ⊢
  generalize (1 : ℚ) / 2 ^ p = u at *
  have hF0 : 0 ≤ F := (abs_nonneg _).trans hF
  have e3 : |m - f * x.val| ≤ F * u := e1.trans (by gcongr)
  have e4 : |m| ≤ 2 * F := by
    calc |m| = |(m - f * x.val) + f * x.val| := by ring_nf
      _ ≤ _ := abs_add_le _ _
      _ ≤ F * u + F := add_le_add e3 hF
      _ ≤ _ := by nlinarith
  calc |A - (off + f * x.val)| = |(A - (off + m)) + (m - f * x.val)| := by ring_nf
    _ ≤ _ := abs_add_le _ _
    _ ≤ (|(off : ℚ)| + 2 * F) * u + F * u := add_le_add (e2.trans (by gcongr; exact (abs_add_le _ _).trans (by gcongr))) e3
    _ = _ := by ring

/-- A decoded code. -/
theorem decoded_near (a f : ℤ) (ha : |a| < 2 ^ p) (hf : |f| < 2 ^ p) : |(((a : ℤ) : Binary p) / ((f : ℤ) : Binary p)).val - (a : ℚ) / f| ≤ |(a : ℚ) / f| / 2 ^ p := by
  have : |(((a : ℤ) : Binary p) / ((f : ℤ) : Binary p)).val - ((a : ℤ) : Binary p).val / ((f : ℤ) : Binary p).val| ≤ |((a : ℤ) : Binary p).val / ((f : ℤ) : Binary p).val| / 2 ^ p :=
    Binary.round_error p _
  rwa [cast_val a ha, cast_val f hf] at this

omit [NeZero p] in
theorem small {n : ℤ} (hp : 20 ≤ p) (h : |n| ≤ 32768) : |n| < 2 ^ p := by
  have : (2 : ℤ) ^ 20 ≤ 2 ^ p := pow_le_pow_right₀ (by norm_num) hp
  norm_num at this
  omega

/-- What is converted to `int`. -/
def clamped (T : Sample (Binary p)) (off f lo hi : ℤ) (x : Binary p) : Binary p :=
  T.min (T.max (T.add (T.ofInt off) (T.mul (T.ofInt f) x)) (T.ofInt lo)) (T.ofInt hi)

variable (fb : Binary p → BitVec 32) (bf : BitVec 32 → Binary p)

theorem clamped_val (hp : 20 ≤ p) (off f lo hi : ℤ) (hlo : |lo| ≤ 32768) (hhi : |hi| ≤ 32768) (x : Binary p) : ((clamped (binarySample p fb bf) off f lo hi x).val : ℚ) =
    (if (hi : ℚ) < (if (((off : ℤ) : Binary p) + ((f : ℤ) : Binary p) * x).val < lo then (lo : ℚ) else (((off : ℤ) : Binary p) + ((f : ℤ) : Binary p) * x).val) then (hi : ℚ)
      else (if (((off : ℤ) : Binary p) + ((f : ℤ) : Binary p) * x).val < lo then (lo : ℚ) else (((off : ℤ) : Binary p) + ((f : ℤ) : Binary p) * x).val)) := by
  simp only [clamped, binarySample]
  rw [← cast_val (p := p) lo (small hp hlo), ← cast_val (p := p) hi (small hp hhi)]
  split_ifs <;> simp_all

theorem clamped_near (hp : 20 ≤ p) (off f lo hi : ℤ) (hoff : |off| ≤ 32768) (hf : |f| ≤ 32768) (hlo : |lo| ≤ 32768) (hhi : |hi| ≤ 32768) (x : Binary p)
    (t e : ℚ) (h1 : (lo : ℚ) ≤ t) (h2 : t ≤ hi) (ht : |off + f * x.val - t| ≤ e) (F : ℚ) (hF : |(f : ℚ) * x.val| ≤ F) :
    |((clamped (binarySample p fb bf) off f lo hi x).val : ℚ) - t| ≤ (F + (|(off : ℚ)| + 2 * F)) / 2 ^ p + e := by
  rw [clamped_val fb bf hp off f lo hi hlo hhi x]
  refine clamp_near lo hi _ _ _ h1 h2 ?_
  exact (abs_sub_le _ _ _).trans (add_le_add (scaled_near off f (small hp hoff) (small hp hf) x F hF) ht)

theorem clamped_between (hp : 20 ≤ p) (off f lo hi : ℤ) (hlo : |lo| ≤ 32768) (hhi : |hi| ≤ 32768) (hlh : lo ≤ hi) (x : Binary p) :
    lo ≤ Binary.nearest (clamped (binarySample p fb bf) off f lo hi x).val ∧ Binary.nearest (clamped (binarySample p fb bf) off f lo hi x).val ≤ hi := by
  have h : (lo : ℚ) ≤ hi := by exact_mod_cast hlh
  rw [clamped_val fb bf hp off f lo hi hlo hhi x]
  refine round_between Binary.nearest_near ?_ ?_ <;> split_ifs <;> linarith

omit [NeZero p] in
theorem unit_small (hp : 20 ≤ p) : (1 : ℚ) / 2 ^ p ≤ 1 / 1048576 := by
  have : (2 : ℚ) ^ 20 ≤ 2 ^ p := pow_le_pow_right₀ (by norm_num) hp
  norm_num at this
  gcongr

/-- A decoded code is encoded to itself. -/
theorem reencode (hp : 20 ≤ p) (off f lo hi : ℤ) (hoff : |off| ≤ 128) (hf : 127 ≤ f) (hf' : f ≤ 32767) (hlo : |lo| ≤ 32768) (hhi : |hi| ≤ 32768) (q : ℤ) (h1 : lo ≤ q) (h2 : q ≤ hi)
    (hq : |q - off| ≤ f + 1) : Binary.nearest (clamped (binarySample p fb bf) off f lo hi (((q - off : ℤ) : Binary p) / ((f : ℤ) : Binary p))).val = q := by
  have hu := unit_small hp
  have hu0 : (0 : ℚ) ≤ 1 / 2 ^ p := by positivity
  have hfq : (127 : ℚ) ≤ f := by exact_mod_cast hf
  have hfq' : (f : ℚ) ≤ 32767 := by exact_mod_cast hf'
  have hqq : |((q - off : ℤ) : ℚ)| ≤ f + 1 := by exact_mod_cast hq
  have hoq : |(off : ℚ)| ≤ 128 := by exact_mod_cast hoff
  have hd := decoded_near (p := p) (q - off) f (small hp (by omega)) (small hp (by rw [abs_of_nonneg] <;> omega))
  set d := (((q - off : ℤ) : Binary p) / ((f : ℤ) : Binary p)) with hdd
  have hfd : |(f : ℚ) * d.val - ((q - off : ℤ) : ℚ)| ≤ (f + 1) * (1 / 2 ^ p) := by
    have e : (f : ℚ) * d.val - ((q - off : ℤ) : ℚ) = f * (d.val - ((q - off : ℤ) : ℚ) / f) := by field_simp
    rw [e, abs_mul, abs_of_pos (by linarith)]
    rw [abs_div, abs_of_pos (a := (f : ℚ)) (by linarith)] at hd
    calc (f : ℚ) * _ ≤ f * (|((q - off : ℤ) : ℚ)| / f / 2 ^ p) := by gcongr
      _ = |((q - off : ℤ) : ℚ)| * (1 / 2 ^ p) := by field_simp
      _ ≤ _ := by gcongr
  have hF : |(f : ℚ) * d.val| ≤ (f + 1) * (1 + 1 / 1048576) := by
    calc |(f : ℚ) * d.val| = |((f : ℚ) * d.val - ((q - off : ℤ) : ℚ)) + ((q - off : ℤ) : ℚ)| := by ring_nf
      _ ≤ _ := abs_add_le _ _
      _ ≤ (f + 1) * (1 / 2 ^ p) + (f + 1) := add_le_add hfd hqq
      _ ≤ (f + 1) * (1 / 1048576) + (f + 1) := by gcongr
      _ = _ := by ring
  refine nearest_eq _ _ ((clamped_near fb bf hp off f lo hi (by omega) (by rw [abs_of_nonneg] <;> omega) hlo hhi d q ((f + 1) * (1 / 2 ^ p)) (by exact_mod_cast h1) (by exact_mod_cast h2)
    (by push_cast at hfd; convert hfd using 2; ring) _ hF).trans_lt ?_)
  rw [div_eq_mul_one_div]
  calc _ ≤ ((32768 * (1 + 1 / 1048576) + (128 + 2 * (32768 * (1 + 1 / 1048576)))) * (1 / 1048576) + 32768 * (1 / 1048576) : ℚ) := by
        have : (f : ℚ) + 1 ≤ 32768 := by linarith
        gcongr
    _ < _ := by norm_num

/-- Samples in range. -/
theorem within (hp : 20 ≤ p) (off f lo hi : ℤ) (hoff : |off| ≤ 128) (hf : 127 ≤ f) (hf' : f ≤ 32767) (hoff2 : f < 200 ∨ off = 0) (hlo : lo = off - f - 1) (hhi : hi = off + f) (x : Binary p)
    (h1 : -((f : ℚ) + 1) / f ≤ x.val) (h2 : x.val ≤ 1) :
    |(((Binary.nearest (clamped (binarySample p fb bf) off f lo hi x).val - off : ℤ) : Binary p) / ((f : ℤ) : Binary p)).val - x.val| ≤ 1 / (2 * f) + 6 / 2 ^ p := by
  have hu := unit_small hp
  have hoff' := abs_le.mp hoff
  have hu0 : (0 : ℚ) ≤ 1 / 2 ^ p := by positivity
  have hfq : (127 : ℚ) ≤ f := by exact_mod_cast hf
  have hfq' : (f : ℚ) ≤ 32767 := by exact_mod_cast hf'
  have hoq : |(off : ℚ)| ≤ 128 := by exact_mod_cast hoff
  have a1 : -((f : ℚ) + 1) ≤ f * x.val := by rw [div_le_iff₀ (by linarith)] at h1; linarith
  have a2 : (f : ℚ) * x.val ≤ f := by nlinarith
  have hF : |(f : ℚ) * x.val| ≤ f + 1 := by rw [abs_le]; constructor <;> linarith
  have hb := clamped_between fb bf hp off f lo hi (by rw [abs_le]; omega) (by rw [abs_le]; omega) (by omega) x
  have hn := clamped_near fb bf hp off f lo hi (by omega) (by rw [abs_of_nonneg] <;> omega) (by rw [abs_le]; omega) (by rw [abs_le]; omega) x (off + f * x.val) 0 (by rw [hlo]; push_cast; linarith) (by rw [hhi]; push_cast; linarith)
    (by simp) _ hF
  have hr := Binary.nearest_near (clamped (binarySample p fb bf) off f lo hi x).val
  generalize (clamped (binarySample p fb bf) off f lo hi x).val = c at *
  generalize Binary.nearest c = q at *
  have hd := decoded_near (p := p) (q - off) f (small hp (by rw [abs_le]; omega)) (small hp (by rw [abs_of_nonneg] <;> omega))
  have hqq : |((q - off : ℤ) : ℚ)| ≤ f + 1 := by
    have : |q - off| ≤ f + 1 := by rw [abs_le]; omega
    exact_mod_cast this
  have hq : |((q - off : ℤ) : ℚ) / f - x.val| ≤ 1 / (2 * f) + 4.1 / 2 ^ p := by
    have e : ((q - off : ℤ) : ℚ) / f - x.val = ((q - c) + (c - (off + f * x.val))) / f := by push_cast; field_simp; ring
    rw [e, abs_div, abs_of_pos (a := (f : ℚ)) (by linarith), div_le_iff₀ (by linarith)]
    refine (abs_add_le _ _).trans ((add_le_add hr hn).trans ?_)
    have e2 : (1 / (2 * (f : ℚ)) + 4.1 / 2 ^ p) * f = 1 / 2 + 4.1 * f * (1 / 2 ^ p) := by field_simp
    rw [e2, div_eq_mul_one_div ((f : ℚ) + 1 + _)]
    have : (f : ℚ) + 1 + (|(off : ℚ)| + 2 * (f + 1)) ≤ 4.1 * f := by
      rcases hoff2 with h | h
      · linarith
      · rw [h]; norm_num; linarith
    nlinarith
  have hd' : |((q - off : ℤ) : ℚ) / f| / 2 ^ p ≤ 1.01 / 2 ^ p := by
    gcongr
    rw [abs_div, abs_of_pos (a := (f : ℚ)) (by linarith), div_le_iff₀ (by linarith)]
    linarith
  refine (abs_sub_le _ _ _).trans ((add_le_add (hd.trans hd') hq).trans ?_)
  have : (0 : ℚ) ≤ 1 / 2 ^ p := hu0
  rw [div_eq_mul_one_div 1.01, div_eq_mul_one_div 4.1, div_eq_mul_one_div (6 : ℚ)]
  linarith

/-- Loud samples. -/
theorem loud (hp : 20 ≤ p) (off f lo hi : ℤ) (hoff : 0 ≤ off) (hoff' : off ≤ 128) (hf : 127 ≤ f) (hf' : f ≤ 32767) (hlo : lo = off - f - 1) (hhi : hi = off + f) (hlo' : -32768 ≤ lo) (hhi' : hi ≤ 32767)
    (x : Binary p) : (1 ≤ x.val → Binary.nearest (clamped (binarySample p fb bf) off f lo hi x).val = hi) ∧
      (x.val ≤ -((f : ℚ) + 1) / f → Binary.nearest (clamped (binarySample p fb bf) off f lo hi x).val = lo) := by
  have hu := unit_small hp
  have hu0 : (0 : ℚ) ≤ 1 / 2 ^ p := by positivity
  have hfq : (127 : ℚ) ≤ f := by exact_mod_cast hf
  have hfq' : (f : ℚ) ≤ 32767 := by exact_mod_cast hf'
  have hoq : (0 : ℚ) ≤ off := by exact_mod_cast hoff
  have hoq' : (off : ℚ) ≤ 128 := by exact_mod_cast hoff'
  have hlh : (lo : ℚ) ≤ hi := by exact_mod_cast (by omega : lo ≤ hi)
  have e1 : |(((f : ℤ) : Binary p) * x).val - f * x.val| ≤ |(f : ℚ) * x.val| / 2 ^ p := by
    have : |(((f : ℤ) : Binary p) * x).val - ((f : ℤ) : Binary p).val * x.val| ≤ |((f : ℤ) : Binary p).val * x.val| / 2 ^ p := Binary.round_error p _
    rwa [cast_val f (small hp (by rw [abs_le]; omega))] at this
  have e2 : |(((off : ℤ) : Binary p) + ((f : ℤ) : Binary p) * x).val - (off + (((f : ℤ) : Binary p) * x).val)| ≤ |(off : ℚ) + (((f : ℤ) : Binary p) * x).val| / 2 ^ p := by
    have : |(((off : ℤ) : Binary p) + ((f : ℤ) : Binary p) * x).val - (((off : ℤ) : Binary p).val + (((f : ℤ) : Binary p) * x).val)| ≤
        |((off : ℤ) : Binary p).val + (((f : ℤ) : Binary p) * x).val| / 2 ^ p := Binary.round_error p _
    rwa [cast_val off (small hp (by rw [abs_le]; omega))] at this
  rw [clamped_val fb bf hp off f lo hi (by rw [abs_le]; omega) (by rw [abs_le]; omega) x]
  generalize (((off : ℤ) : Binary p) + ((f : ℤ) : Binary p) * x).val = A at *
  generalize (((f : ℤ) : Binary p) * x).val = m at *
  rw [div_eq_mul_one_div] at e1 e2
  generalize (1 : ℚ) / 2 ^ p = u at *
  constructor
  · intro hx
    have a1 : (f : ℚ) ≤ f * x.val := by nlinarith
    rw [abs_of_nonneg (a := (f : ℚ) * x.val) (by linarith)] at e1
    have a2 : (f : ℚ) * (1 - u) ≤ m := by nlinarith [(abs_le.mp e1).1]
    have a3 : (0 : ℚ) ≤ off + m := by nlinarith
    rw [abs_of_nonneg a3] at e2
    have a4 : (hi : ℚ) - 1 / 4 ≤ A := by
      have : (off + (f : ℚ) * (1 - u)) * (1 - u) ≤ A := by nlinarith [(abs_le.mp e2).1]
      have h2 : u * ((off : ℚ) + 2 * f) ≤ 1 / 1048576 * (128 + 2 * 32767) := by gcongr
      have h3 : 0 ≤ (f : ℚ) * (u * u) := by positivity
      rw [hhi]; push_cast
      norm_num at h2
      linarith
    refine nearest_eq _ _ ?_
    split_ifs <;> rw [abs_lt] <;> constructor <;> linarith
  · intro hx
    have a1 : (f : ℚ) * x.val ≤ -(f + 1) := by rw [le_div_iff₀ (by linarith)] at hx; linarith
    rw [abs_of_nonpos (a := (f : ℚ) * x.val) (by linarith)] at e1
    have a2 : m ≤ -((f : ℚ) + 1) * (1 - u) := by nlinarith [(abs_le.mp e1).2]
    have hlo2 : (lo : ℚ) = off - f - 1 := by rw [hlo]; push_cast; ring
    have a3 : off + m ≤ lo + (f + 1) * u := by rw [hlo2]; linarith
    have a4 : A ≤ lo + 1 / 4 := by
      have h1 := (abs_le.mp e2).2
      rcases le_total 0 ((off : ℚ) + m) with h | h
      · rw [abs_of_nonneg h] at h1
        have hl : (lo : ℚ) ≤ 0 := by exact_mod_cast (by omega : lo ≤ 0)
        nlinarith
      · rw [abs_of_nonpos h] at h1
        have hl : (-32768 : ℚ) ≤ lo := by exact_mod_cast hlo'
        nlinarith
    refine nearest_eq _ _ ?_
    split_ifs <;> rw [abs_lt] <;> constructor <;> linarith

end WavBinary

section

open WavBinary

variable {p : ℕ} [NeZero p] (hp : 20 ≤ p) (fb : Binary p → BitVec 32) (bf : BitVec 32 → Binary p)
include hp

/-- **C69** A sample between the most negative code and full scale comes back within half a step and six units of rounding. -/
theorem C69_within {bits : Int} (hb : bits = 8 ∨ bits = 16) {x : Binary p} (h0 : -((fullScale bits : ℚ) + 1) / fullScale bits ≤ x.val) (h1 : x.val ≤ 1) :
    ∃ v, Codec (binarySample p fb bf) bits x v ∧ |v.val - x.val| ≤ 1 / (2 * fullScale bits) + 6 / 2 ^ p := by
  rcases hb with rfl | rfl
  · have hq := clamped_between fb bf hp 128 127 0 255 (by norm_num) (by norm_num) (by norm_num) x
    exact ⟨_, codec_8 rfl hq.1 hq.2, within fb bf hp 128 127 0 255 (by norm_num) (by norm_num) (by norm_num) (by norm_num) (by norm_num) (by norm_num) x h0 h1⟩
  · have hq := clamped_between fb bf hp 0 32767 (-32768) 32767 (by norm_num) (by norm_num) (by norm_num) x
    have := within fb bf hp 0 32767 (-32768) 32767 (by norm_num) (by norm_num) (by norm_num) (by norm_num) (by norm_num) (by norm_num) x h0 h1
    rw [sub_zero] at this
    exact ⟨_, codec_16 rfl hq.1 hq.2, this⟩

/-- **C69** Samples beyond the range saturate: at full scale, which is read as one exactly, and at the most negative code. -/
theorem C69_saturates {bits : Int} (hb : bits = 8 ∨ bits = 16) (x : Binary p) :
    (1 ≤ x.val → ∃ v, Codec (binarySample p fb bf) bits x v ∧ v.val = 1) ∧
    (x.val ≤ -((fullScale bits : ℚ) + 1) / fullScale bits → ∃ v, Codec (binarySample p fb bf) bits x v ∧ |v.val - -((fullScale bits : ℚ) + 1) / fullScale bits| ≤ 2 / 2 ^ p) := by
  have one : ∀ f : ℤ, 0 < f → f ≤ 32767 → (((f : ℤ) : Binary p) / ((f : ℤ) : Binary p)).val = 1 := by
    intro f h0 h1
    show Binary.round p (_ / _) = 1
    rw [cast_val f (small hp (by rw [abs_le]; omega)), div_self (by exact_mod_cast h0.ne')]
    exact Binary.round_of_representable p 1 ⟨1, 0, by rw [abs_one]; exact one_lt_pow₀ (by norm_num) (NeZero.ne p), by simp⟩
  rcases hb with rfl | rfl
  · obtain ⟨h1, h2⟩ := loud fb bf hp 128 127 0 255 (by norm_num) (by norm_num) (by norm_num) (by norm_num) (by norm_num) (by norm_num) (by norm_num) (by norm_num) x
    refine ⟨fun h => ⟨_, codec_8 (q := 255) (h1 h) (by norm_num) (by norm_num), one 127 (by norm_num) (by norm_num)⟩,
      fun h => ⟨_, codec_8 (q := 0) (h2 h) (by norm_num) (by norm_num), ?_⟩⟩
    refine le_trans (le_of_eq ?_) ((decoded_near (p := p) (-128) 127 (small hp (by norm_num)) (small hp (by norm_num))).trans ?_)
    · norm_num [binarySample, fullScale]
    · gcongr; norm_num
  · obtain ⟨h1, h2⟩ := loud fb bf hp 0 32767 (-32768) 32767 (by norm_num) (by norm_num) (by norm_num) (by norm_num) (by norm_num) (by norm_num) (by norm_num) (by norm_num) x
    refine ⟨fun h => ⟨_, codec_16 (q := 32767) (h1 h) (by norm_num) (by norm_num), one 32767 (by norm_num) (by norm_num)⟩,
      fun h => ⟨_, codec_16 (q := -32768) (h2 h) (by norm_num) (by norm_num), ?_⟩⟩
    refine le_trans (le_of_eq ?_) ((decoded_near (p := p) (-32768) 32767 (small hp (by norm_num)) (small hp (by norm_num))).trans ?_)
    · norm_num [binarySample, fullScale]
    · gcongr; norm_num

/-- **C69** Every code, decoded and encoded again, is itself: processing that only copies samples loses nothing, however often a file is read and written. -/
theorem C69_reencode (rate channels : Int) :
    (∀ q : Int, 0 ≤ q → q ≤ 255 → (Writer.init rate 8 channels).1.sample (binarySample p fb bf) (((q - 128 : ℤ) : Binary p) / ((127 : ℤ) : Binary p)) = .ok (writeLE q 1)) ∧
    (∀ q : Int, -32768 ≤ q → q ≤ 32767 → (Writer.init rate 16 channels).1.sample (binarySample p fb bf) (((q : ℤ) : Binary p) / ((32767 : ℤ) : Binary p)) = .ok (writeLE q 2)) := by
  constructor
  · intro q h0 h1
    have h : (binarySample p fb bf).nearbyint _ = q := reencode fb bf hp 128 127 0 255 (by norm_num) (by norm_num) (by norm_num) (by norm_num) (by norm_num) q h0 h1 (by rw [abs_le]; omega)
    simp only [clamped] at h
    simp only [Writer.init, if_true, Writer.sample, show ¬ ((1 : Int) = 4) by decide, if_false, h, int32_ok (v := q) (by omega), bind, Except.bind]
    rfl
  · intro q h0 h1
    have h : (binarySample p fb bf).nearbyint _ = q := reencode fb bf hp 0 32767 (-32768) 32767 (by norm_num) (by norm_num) (by norm_num) (by norm_num) (by norm_num) q h0 h1 (by rw [abs_le]; omega)
    simp only [clamped, sub_zero] at h
    simp only [Writer.init, if_true, show ¬ ((16 : Int) = 8) by decide, Writer.sample, show ¬ ((2 : Int) = 4) by decide, if_false, h, int32_ok (v := q) (by omega), bind, Except.bind]
    rfl

/-- **C69** through a file: PCM frames written anywhere in a session are read back within half a step and six units of what was written. -/
theorem C69_file {rate bits channels : Int} (hF : HeaderFits rate bits channels) (hb : bits = 8 ∨ bits = 16)
    {w : Writer} {hdr body : List Op} (hopen : Writer.open rate bits channels = .ok (w, hdr))
    (pre post : List (Call (Binary p))) (buf : List (Binary p)) (num stride : Int) (x : Nat → Nat → Binary p)
    (hx : ∀ n c, n < num.toNat → c < channels.toNat → buf[effStride channels stride * n + c]? = some (x n c) ∧ |(x n c).val| ≤ 1)
    (hrun : runCalls (binarySample p fb bf) (pre ++ .write buf num stride :: post) w = .ok body)
    (hsize : headerSize bits + ((pre ++ .write buf num stride :: post).map Call.frames).sum * (channels * width bits) ≤ 2147483647)
    (rstride : Int) (hs : channels ≤ effStride channels rstride) (out : List (Binary p))
    (hout : ∀ n k, n < num.toNat → k < channels.toNat → effStride channels rstride * n + k < out.length) :
    ∃ ops r r1 r2 out' v, Writer.session rate bits channels (runCalls (binarySample p fb bf) (pre ++ .write buf num stride :: post)) = .ok ops ∧
      Reader.open (OFile.replay ops).data = .ok r ∧ r.skip ((pre.map Call.frames).sum : Nat) = .ok r1 ∧
      r1.read (binarySample p fb bf) out num.toNat rstride = .ok (r2, out') ∧ r2.good = true ∧
      Placed out out' num.toNat channels.toNat (effStride channels rstride) v ∧
      ∀ n c, n < num.toNat → c < channels.toNat → |(v n c).val - (x n c).val| ≤ 1 / (2 * fullScale bits) + 6 / 2 ^ p := by
  have hc := hF.3
  have : ∀ n c, ∃ v, n < num.toNat → c < channels.toNat → Codec (binarySample p fb bf) bits (x n c) v ∧ |v.val - (x n c).val| ≤ 1 / (2 * fullScale bits) + 6 / 2 ^ p := by
    intro n c
    by_cases h : n < num.toNat ∧ c < channels.toNat
    · have ha := abs_le.1 (hx n c h.1 h.2).2
      have hfs : (0 : ℚ) < fullScale bits := by unfold fullScale; split_ifs <;> norm_num
      obtain ⟨v, hv⟩ := C69_within hp fb bf hb (x := x n c) (by rw [div_le_iff₀ hfs]; nlinarith [ha.1]) ha.2
      exact ⟨v, fun _ _ => hv⟩
    · exact ⟨0, fun h1 h2 => absurd ⟨h1, h2⟩ h⟩
  choose v hv using this
  obtain ⟨ops, r, r1, r2, out', h1, h2, h3, h4, h5, h6⟩ := file_read hF hopen
    (write_puts (v := v) (by omega) fun n c hn hc' => ⟨(hx n c hn hc').1, (hv n c hn hc').1⟩) hrun hsize hs hout
  exact ⟨ops, r, r1, r2, out', v, h1, h2, h3, h4, h5, h6, fun n c hn hc' => (hv n c hn hc').2⟩

end

/-- The code 12345 in single precision. -/
example : (Writer.init 8000 16 1).1.sample (binarySample 24 (fun _ => 0) fun _ => 0) (((12345 : ℤ) : Binary 24) / ((32767 : ℤ) : Binary 24)) = .ok (writeLE 12345 2) :=
  (C69_reencode (by norm_num) _ _ 8000 1).2 12345 (by norm_num) (by norm_num)

/-- A session with that sample. -/
example : ∃ w hdr body, Writer.open 8000 16 1 = .ok (w, hdr) ∧
    runCalls (binarySample 24 (fun _ => 0) fun _ => 0) [.write [((12345 : ℤ) : Binary 24) / ((32767 : ℤ) : Binary 24)] 1 (-1), .silence 3] w = .ok body := by
  have h := (C69_reencode (p := 24) (by norm_num) (fun _ => 0) (fun _ => 0) 8000 1).2 12345 (by norm_num) (by norm_num)
  refine ⟨(Writer.init 8000 16 1).1, _, writeLE 12345 2 ++ (List.replicate 3 (writeLE 0 2)).flatten, rfl, ?_⟩
  generalize ((12345 : ℤ) : Binary 24) / ((32767 : ℤ) : Binary 24) = x at h ⊢
  generalize binarySample 24 (fun _ => 0) (fun _ => 0) = T at h ⊢
  have hc : (Writer.init 8000 16 1).1.channels = 1 := rfl
  have hs : (Writer.init 8000 16 1).1.silence 3 = .ok (List.replicate 3 (writeLE 0 2)).flatten := rfl
  have hr : rd [x] 0 = .ok x := rfl
  simp [runCalls, Call.run, Writer.write, Writer.framesLoop, Writer.frame, h, hc, hs, hr, bind, Except.bind, pure, Except.pure]

end DSP
