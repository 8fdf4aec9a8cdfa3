import Verif.Model.Wav
import Verif.Lemmas.Base
import Mathlib.Tactic.IntervalCases
import Mathlib.Tactic.Positivity
import Mathlib.Tactic.Zify
import Mathlib.Tactic.Linarith
import Mathlib.Tactic.Ring
import Mathlib.Algebra.Order.Ring.Int

namespace DSP
namespace Wav

/-- Four bytes, least significant first, as a word. -/
def word4 (b0 b1 b2 b3 : Byte) : BitVec 32 := b3 ++ b2 ++ b1 ++ b0
/-- Two bytes, least significant first. -/
def word2 (b0 b1 : Byte) : BitVec 16 := b1 ++ b0

/-- The `i`-th byte of an `int`. -/
def byteOf (v : Int) (i : Nat) : Byte := ((BitVec.ofInt 32 v).sshiftRight (8 * i) &&& 255#32).setWidth 8

theorem byteOf_getLsbD (v : Int) (i j : Nat) (hj : j < 8) (hi : 8 * i + j < 32) :
    (byteOf v i).getLsbD j = (BitVec.ofInt 32 v).getLsbD (8 * i + j) := by
  unfold byteOf
  have h255 : (255#32).getLsbD j = true := by interval_cases j <;> decide
  have hj32 : ¬ (32 ≤ j) := by omega
  rw [BitVec.getLsbD_setWidth, BitVec.getLsbD_and, h255, BitVec.getLsbD_sshiftRight]
  simp [hj, hi, hj32]

theorem ofInt_setWidth (v : Int) (m n : Nat) (h : n ≤ m) : (BitVec.ofInt m v).setWidth n = BitVec.ofInt n v := by
  apply BitVec.eq_of_toNat_eq
  rw [BitVec.toNat_setWidth, BitVec.toNat_ofInt, BitVec.toNat_ofInt]
  have hd : ((2 ^ n : Nat) : Int) ∣ ((2 ^ m : Nat) : Int) := by exact_mod_cast Nat.pow_dvd_pow 2 h
  have h1 : (0 : Int) ≤ v % ((2 ^ m : Nat) : Int) := Int.emod_nonneg _ (by positivity)
  have h2 : (0 : Int) ≤ v % ((2 ^ n : Nat) : Int) := Int.emod_nonneg _ (by positivity)
  zify
  rw [Int.toNat_of_nonneg (by exact_mod_cast h1), Int.toNat_of_nonneg (by exact_mod_cast h2)]
  exact Int.emod_emod_of_dvd v (by exact_mod_cast hd)

theorem word4_byteOf (v : Int) : word4 (byteOf v 0) (byteOf v 1) (byteOf v 2) (byteOf v 3) = BitVec.ofInt 32 v := by
  apply BitVec.eq_of_getLsbD_eq
  intro i hi
  unfold word4
  simp only [BitVec.getLsbD_append]
  by_cases h0 : i < 8
  · rw [if_pos h0, byteOf_getLsbD v 0 i h0 (by omega)]; simp
  · rw [if_neg h0]
    by_cases h1 : i - 8 < 8
    · rw [if_pos h1, byteOf_getLsbD v 1 _ h1 (by omega)]; congr 1; omega
    · rw [if_neg h1]
      by_cases h2 : i - 8 - 8 < 8
      · rw [if_pos h2, byteOf_getLsbD v 2 _ h2 (by omega)]; congr 1; omega
      · rw [if_neg h2, byteOf_getLsbD v 3 _ (by omega) (by omega)]; congr 1; omega

theorem word2_byteOf (v : Int) : word2 (byteOf v 0) (byteOf v 1) = BitVec.ofInt 16 v := by
  apply BitVec.eq_of_getLsbD_eq
  intro i hi
  unfold word2
  have e : (BitVec.ofInt 16 v).getLsbD i = (BitVec.ofInt 32 v).getLsbD i := by
    rw [← ofInt_setWidth v 32 16 (by omega), BitVec.getLsbD_setWidth]; simp [hi]
  simp only [BitVec.getLsbD_append, e]
  by_cases h0 : i < 8
  · rw [if_pos h0, byteOf_getLsbD v 0 i h0 (by omega)]; simp
  · rw [if_neg h0, byteOf_getLsbD v 1 _ (by omega) (by omega)]; congr 1; omega

theorem byteOf_zero (v : Int) : byteOf v 0 = BitVec.ofInt 8 v := by
  apply BitVec.eq_of_getLsbD_eq
  intro i hi
  rw [byteOf_getLsbD v 0 i hi (by omega)]
  rw [← ofInt_setWidth v 32 8 (by omega), BitVec.getLsbD_setWidth]; simp [hi]

theorem get_at {d : List Byte} {p : Nat} {b : Byte} {l : List Byte} (h : d.drop p = b :: l) :
    IStream.get ⟨d, p, true⟩ = (b.setWidth 32, ⟨d, p + 1, true⟩) ∧ d.drop (p + 1) = l := by
  have h1 : d[p]? = some b := by
    have := congrArg (fun l => l[0]?) h; simpa using this
  refine ⟨by simp [IStream.get, h1], ?_⟩
  have := congrArg List.tail h; simpa using this

theorem readLE4_at {d : List Byte} {p : Nat} {b0 b1 b2 b3 : Byte} {l : List Byte} (h : d.drop p = b0 :: b1 :: b2 :: b3 :: l) :
    readLE ⟨d, p, true⟩ 4 = ((word4 b0 b1 b2 b3).toInt, ⟨d, p + 4, true⟩) := by
  obtain ⟨e0, h⟩ := get_at h
  obtain ⟨e1, h⟩ := get_at h
  obtain ⟨e2, h⟩ := get_at h
  obtain ⟨e3, h⟩ := get_at h
  have : (0#32 ||| BitVec.setWidth 32 b0 <<< (8 * 0) ||| BitVec.setWidth 32 b1 <<< (8 * (0+1)) ||| BitVec.setWidth 32 b2 <<< (8 * (0+1+1)) |||
      BitVec.setWidth 32 b3 <<< (8 * (0+1+1+1))) = word4 b0 b1 b2 b3 := by
    apply BitVec.eq_of_getLsbD_eq
    intro i hi
    unfold word4
    simp only [BitVec.getLsbD_append, BitVec.getLsbD_or, BitVec.getLsbD_shiftLeft, BitVec.getLsbD_setWidth]
    interval_cases i <;> simp
  simp only [readLE, readLoop, e0, e1, e2, e3, this]
  simp

theorem readLE2_at {d : List Byte} {p : Nat} {b0 b1 : Byte} {l : List Byte} (h : d.drop p = b0 :: b1 :: l) :
    readLE ⟨d, p, true⟩ 2 = ((word2 b0 b1).toInt, ⟨d, p + 2, true⟩) := by
  obtain ⟨e0, h⟩ := get_at h
  obtain ⟨e1, h⟩ := get_at h
  have : (0#32 ||| BitVec.setWidth 32 b0 <<< (8 * 0) ||| BitVec.setWidth 32 b1 <<< (8 * (0+1))) = (word2 b0 b1).setWidth 32 := by
    apply BitVec.eq_of_getLsbD_eq
    intro i hi
    unfold word2
    simp only [BitVec.getLsbD_append, BitVec.getLsbD_or, BitVec.getLsbD_shiftLeft, BitVec.getLsbD_setWidth]
    interval_cases i <;> simp
  have key : ∀ w : BitVec 16, (if (w.setWidth 32).toInt > 32767 then w.setWidth 32 ||| ~~~32767#32 else w.setWidth 32).toInt = w.toInt := by
    intro w
    have e : (w.setWidth 32).toInt = w.toNat := by
      rw [BitVec.toInt_eq_toNat_of_lt]
      · simp; omega
      · simp; omega
    rw [e]
    by_cases hm : w.msb = true
    · have hge : 32768 ≤ w.toNat := by simpa using BitVec.toNat_ge_of_msb_true hm
      rw [if_pos (by omega)]
      have : w.setWidth 32 ||| ~~~32767#32 = w.signExtend 32 := by
        have hb : w.getLsbD 15 = true := by simpa [BitVec.msb_eq_getLsbD_last] using hm
        apply BitVec.eq_of_getLsbD_eq
        intro i hi
        rw [BitVec.getLsbD_signExtend, hm, BitVec.getLsbD_or, BitVec.getLsbD_setWidth]
        interval_cases i <;> simp [hb]
      rw [this, BitVec.toInt_signExtend_of_le (by omega)]
    · have hlt : w.toNat < 32768 := by
        have := BitVec.toNat_lt_of_msb_false (by simpa using hm : w.msb = false); simpa using this
      rw [if_neg (by omega), e, BitVec.toInt_eq_toNat_of_lt (by omega)]
  have k := key (word2 b0 b1)
  simp only [readLE, readLoop, e0, e1, this]
  simp only [beq_self_eq_true, Bool.true_and, decide_eq_true_eq]
  simp only [show ((2 : Nat) == 3) = false from rfl, Bool.false_and, Bool.false_eq_true, if_false, k]

theorem readLE1_at {d : List Byte} {p : Nat} {b0 : Byte} {l : List Byte} (h : d.drop p = b0 :: l) :
    readLE ⟨d, p, true⟩ 1 = ((b0.toNat : Int), ⟨d, p + 1, true⟩) := by
  obtain ⟨e0, h⟩ := get_at h
  have : (BitVec.setWidth 32 b0).toInt = b0.toNat := by
    rw [BitVec.toInt_eq_toNat_of_lt]
    · simp; omega
    · simp; omega
  simp [readLE, readLoop, e0, this]

theorem read4_at {d : List Byte} {p : Nat} {b0 b1 b2 b3 : Byte} {l : List Byte} (h : d.drop p = b0 :: b1 :: b2 :: b3 :: l) :
    IStream.read ⟨d, p, true⟩ 4 = ([some b0, some b1, some b2, some b3], ⟨d, p + 4, true⟩) := by
  have e0 : d[p]? = some b0 := by have := congrArg (fun l => l[0]?) h; simpa using this
  have e1 : d[p + 1]? = some b1 := by have := congrArg (fun l => l[1]?) h; simpa using this
  have e2 : d[p + 2]? = some b2 := by have := congrArg (fun l => l[2]?) h; simpa using this
  have e3 : d[p + 3]? = some b3 := by have := congrArg (fun l => l[3]?) h; simpa using this
  simp [IStream.read, e0, e1, e2, e3]

/-- The first 44 or 58 bytes of a file, with the three fields that the destructor patches. -/
def pcmHeader (rate channels bytes : Int) (c0 c1 c2 c3 d0 d1 d2 d3 : Byte) : List Byte :=
  [0x52, 0x49, 0x46, 0x46, c0, c1, c2, c3, 0x57, 0x41, 0x56, 0x45, 0x66, 0x6d, 0x74, 0x20,
    byteOf 16 0, byteOf 16 1, byteOf 16 2, byteOf 16 3, byteOf 1 0, byteOf 1 1, byteOf channels 0, byteOf channels 1,
    byteOf rate 0, byteOf rate 1, byteOf rate 2, byteOf rate 3,
    byteOf (rate * channels * bytes) 0, byteOf (rate * channels * bytes) 1, byteOf (rate * channels * bytes) 2,
    byteOf (rate * channels * bytes) 3, byteOf (channels * bytes) 0, byteOf (channels * bytes) 1,
    byteOf (8 * bytes) 0, byteOf (8 * bytes) 1, 0x64, 0x61, 0x74, 0x61, d0, d1, d2, d3]

@[inherit_doc pcmHeader]
def floatHeader (rate channels : Int) (c0 c1 c2 c3 f0 f1 f2 f3 d0 d1 d2 d3 : Byte) : List Byte :=
  [0x52, 0x49, 0x46, 0x46, c0, c1, c2, c3, 0x57, 0x41, 0x56, 0x45, 0x66, 0x6d, 0x74, 0x20,
    byteOf 18 0, byteOf 18 1, byteOf 18 2, byteOf 18 3, byteOf 3 0, byteOf 3 1, byteOf channels 0, byteOf channels 1,
    byteOf rate 0, byteOf rate 1, byteOf rate 2, byteOf rate 3,
    byteOf (rate * channels * 4) 0, byteOf (rate * channels * 4) 1, byteOf (rate * channels * 4) 2,
    byteOf (rate * channels * 4) 3, byteOf (channels * 4) 0, byteOf (channels * 4) 1,
    byteOf 32 0, byteOf 32 1, byteOf 0 0, byteOf 0 1, 0x66, 0x61, 0x63, 0x74, byteOf 4 0, byteOf 4 1, byteOf 4 2, byteOf 4 3,
    f0, f1, f2, f3, 0x64, 0x61, 0x74, 0x61, d0, d1, d2, d3]

theorem toInt_ofInt32 {v : Int} (h : -2147483648 ≤ v ∧ v ≤ 2147483647) : (BitVec.ofInt 32 v).toInt = v := by
  rw [BitVec.toInt_ofInt]
  exact Int.bmod_eq_of_le (by norm_num; omega) (by norm_num; omega)

theorem toInt_ofInt16 {v : Int} (h : -32768 ≤ v ∧ v ≤ 32767) : (BitVec.ofInt 16 v).toInt = v := by
  rw [BitVec.toInt_ofInt]
  exact Int.bmod_eq_of_le (by norm_num; omega) (by norm_num; omega)

theorem int32_ok {v : Int} (h : -2147483648 ≤ v ∧ v ≤ 2147483647) : int32 v = .ok v := by simp [int32, h]

/-- The format limits: what has to hold for the header fields to fit. -/
structure Fits (rate channels bytes : Int) : Prop where
  hr : -2147483648 ≤ rate ∧ rate ≤ 2147483647
  hc : 1 ≤ channels
  ha : channels * bytes ≤ 32767
  hb : -2147483648 ≤ rate * channels * bytes ∧ rate * channels * bytes ≤ 2147483647

theorem Fits.rb {rate channels bytes : Int} (h : Fits rate channels bytes) (hb : 0 < bytes) :
    -2147483648 ≤ rate * bytes ∧ rate * bytes ≤ 2147483647 := by
  obtain ⟨-, hc, -, h1, h2⟩ := h
  rcases le_or_gt 0 rate with hr | hr
  · have : rate * bytes ≤ rate * channels * bytes := by nlinarith [mul_nonneg hr hb.le]
    have : 0 ≤ rate * bytes := mul_nonneg hr hb.le
    omega
  · have : rate * channels * bytes ≤ rate * bytes := by nlinarith [mul_pos (neg_pos.2 hr) hb]
    have : rate * bytes ≤ 0 := by nlinarith
    omega

theorem Fits.chan {rate channels bytes : Int} (h : Fits rate channels bytes) (hb : 0 < bytes) : channels ≤ 32767 := by
  obtain ⟨-, hc, h1, -⟩ := h; nlinarith

theorem Fits.align {rate channels bytes : Int} (h : Fits rate channels bytes) (hb : 0 < bytes) : 1 ≤ channels * bytes := by
  obtain ⟨-, hc, h1, -⟩ := h; nlinarith

theorem le4 {d : List Byte} {p : Nat} {v : Int} {l : List Byte}
    (h : d.drop p = byteOf v 0 :: byteOf v 1 :: byteOf v 2 :: byteOf v 3 :: l) (hv : -2147483648 ≤ v ∧ v ≤ 2147483647) :
    readLE ⟨d, p, true⟩ 4 = (v, ⟨d, p + 4, true⟩) := by
  rw [readLE4_at h, word4_byteOf, toInt_ofInt32 hv]

theorem le2 {d : List Byte} {p : Nat} {v : Int} {l : List Byte}
    (h : d.drop p = byteOf v 0 :: byteOf v 1 :: l) (hv : -32768 ≤ v ∧ v ≤ 32767) :
    readLE ⟨d, p, true⟩ 2 = (v, ⟨d, p + 2, true⟩) := by
  rw [readLE2_at h, word2_byteOf, toInt_ofInt16 hv]

theorem open_pcm {d payload : List Byte} {rate channels bytes : Int} {c0 c1 c2 c3 d0 d1 d2 d3 : Byte}
    (hd : d = pcmHeader rate channels bytes c0 c1 c2 c3 d0 d1 d2 d3 ++ payload)
    (hbytes : bytes = 1 ∨ bytes = 2) (hF : Fits rate channels bytes) :
    Reader.open d = Reader.dataChunk (.mk ⟨d, 36, true⟩ (some (8 * bytes)) (some bytes) (some rate) (some channels) none none none)
      (word4 c0 c1 c2 c3).toInt 16 (8 * bytes) bytes channels := by
  have hpos : 0 < bytes := by omega
  have hrb := hF.rb hpos
  have hch := hF.chan hpos
  have hal := hF.align hpos
  obtain ⟨hr, hc, ha, hb⟩ := hF
  have r0 := read4_at (d := d) (p := 0) (b0 := 0x52) (b1 := 0x49) (b2 := 0x46) (b3 := 0x46) (l := d.drop 4) (by rw [hd]; rfl)
  have r4 := readLE4_at (d := d) (p := 4) (b0 := c0) (b1 := c1) (b2 := c2) (b3 := c3) (l := d.drop 8) (by rw [hd]; rfl)
  have r8 := read4_at (d := d) (p := 8) (b0 := 0x57) (b1 := 0x41) (b2 := 0x56) (b3 := 0x45) (l := d.drop 12) (by rw [hd]; rfl)
  have r12 := read4_at (d := d) (p := 12) (b0 := 0x66) (b1 := 0x6d) (b2 := 0x74) (b3 := 0x20) (l := d.drop 16) (by rw [hd]; rfl)
  have r16 := le4 (d := d) (p := 16) (v := 16) (l := d.drop 20) (by rw [hd]; rfl) (by omega)
  have r20 := le2 (d := d) (p := 20) (v := 1) (l := d.drop 22) (by rw [hd]; rfl) (by omega)
  have r22 := le2 (d := d) (p := 22) (v := channels) (l := d.drop 24) (by rw [hd]; rfl) (by omega)
  have r24 := le4 (d := d) (p := 24) (v := rate) (l := d.drop 28) (by rw [hd]; rfl) (by omega)
  have r28 := le4 (d := d) (p := 28) (v := rate * channels * bytes) (l := d.drop 32) (by rw [hd]; rfl) (by omega)
  have r32 := le2 (d := d) (p := 32) (v := channels * bytes) (l := d.drop 34) (by rw [hd]; rfl) (by omega)
  have r34 := le2 (d := d) (p := 34) (v := 8 * bytes) (l := d.drop 36) (by rw [hd]; rfl) (by omega)
  have hring : rate * bytes * channels = rate * channels * bytes := by ring
  have hring2 : bytes * channels = channels * bytes := by ring
  have i1 : int32 (channels * bytes) = .ok (channels * bytes) := int32_ok (by omega)
  have i2 := int32_ok hrb
  have i3 := int32_ok hb
  have hdiv : Int.tdiv (8 * bytes) 8 = bytes := by rcases hbytes with rfl | rfl <;> rfl
  have c1 : cmp4 RIFF [some 0x52, some 0x49, some 0x46, some 0x46] = .ok false := rfl
  have c2 : cmp4 WAVE [some 0x57, some 0x41, some 0x56, some 0x45] = .ok false := rfl
  have c3 : cmp4 FMT [some 0x66, some 0x6d, some 0x74, some 0x20] = .ok false := rfl
  simp only [Reader.open, IStream.open, r0, r4, r8, r12, r16, r20, r22, r24, r28, r32, r34, c1, c2, c3, bind, Except.bind, Nat.zero_add,
    Nat.reduceAdd, Bool.false_eq_true, if_false, hdiv, hring2, i1, i2, hring, i3]
  rw [if_neg (by omega), if_neg (by omega), if_neg (by omega), if_neg (by omega), if_neg (by omega), if_neg (by simp),
    if_neg (by simp), if_neg (by omega)]

theorem open_float {d payload : List Byte} {rate channels : Int} {c0 c1 c2 c3 f0 f1 f2 f3 d0 d1 d2 d3 : Byte}
    (hd : d = floatHeader rate channels c0 c1 c2 c3 f0 f1 f2 f3 d0 d1 d2 d3 ++ payload) (hF : Fits rate channels 4) :
    Reader.open d = Reader.dataChunk (.mk ⟨d, 50, true⟩ (some 32) (some 4) (some rate) (some channels)
      (some (word4 f0 f1 f2 f3).toInt) none none)
      (word4 c0 c1 c2 c3).toInt 18 32 4 channels := by
  have hpos : (0 : Int) < 4 := by omega
  have hrb := hF.rb hpos
  have hch := hF.chan hpos
  have hal := hF.align hpos
  obtain ⟨hr, hc, ha, hb⟩ := hF
  have r0 := read4_at (d := d) (p := 0) (b0 := 0x52) (b1 := 0x49) (b2 := 0x46) (b3 := 0x46) (l := d.drop 4) (by rw [hd]; rfl)
  have r4 := readLE4_at (d := d) (p := 4) (b0 := c0) (b1 := c1) (b2 := c2) (b3 := c3) (l := d.drop 8) (by rw [hd]; rfl)
  have r8 := read4_at (d := d) (p := 8) (b0 := 0x57) (b1 := 0x41) (b2 := 0x56) (b3 := 0x45) (l := d.drop 12) (by rw [hd]; rfl)
  have r12 := read4_at (d := d) (p := 12) (b0 := 0x66) (b1 := 0x6d) (b2 := 0x74) (b3 := 0x20) (l := d.drop 16) (by rw [hd]; rfl)
  have r16 := le4 (d := d) (p := 16) (v := 18) (l := d.drop 20) (by rw [hd]; rfl) (by omega)
  have r20 := le2 (d := d) (p := 20) (v := 3) (l := d.drop 22) (by rw [hd]; rfl) (by omega)
  have r22 := le2 (d := d) (p := 22) (v := channels) (l := d.drop 24) (by rw [hd]; rfl) (by omega)
  have r24 := le4 (d := d) (p := 24) (v := rate) (l := d.drop 28) (by rw [hd]; rfl) (by omega)
  have r28 := le4 (d := d) (p := 28) (v := rate * channels * 4) (l := d.drop 32) (by rw [hd]; rfl) (by omega)
  have r32 := le2 (d := d) (p := 32) (v := channels * 4) (l := d.drop 34) (by rw [hd]; rfl) (by omega)
  have r34 := le2 (d := d) (p := 34) (v := 32) (l := d.drop 36) (by rw [hd]; rfl) (by omega)
  have r36 := le2 (d := d) (p := 36) (v := 0) (l := d.drop 38) (by rw [hd]; rfl) (by omega)
  have r38 := read4_at (d := d) (p := 38) (b0 := 0x66) (b1 := 0x61) (b2 := 0x63) (b3 := 0x74) (l := d.drop 42) (by rw [hd]; rfl)
  have r42 := le4 (d := d) (p := 42) (v := 4) (l := d.drop 46) (by rw [hd]; rfl) (by omega)
  have r46 := readLE4_at (d := d) (p := 46) (b0 := f0) (b1 := f1) (b2 := f2) (b3 := f3) (l := d.drop 50) (by rw [hd]; rfl)
  have hring : rate * 4 * channels = rate * channels * 4 := by ring
  have hring2 : 4 * channels = channels * 4 := by ring
  have i1 : int32 (channels * 4) = .ok (channels * 4) := int32_ok (by omega)
  have i2 := int32_ok hrb
  have i3 := int32_ok hb
  have hdiv : Int.tdiv 32 8 = 4 := rfl
  have c1 : cmp4 RIFF [some 0x52, some 0x49, some 0x46, some 0x46] = .ok false := rfl
  have c2 : cmp4 WAVE [some 0x57, some 0x41, some 0x56, some 0x45] = .ok false := rfl
  have c3 : cmp4 FMT [some 0x66, some 0x6d, some 0x74, some 0x20] = .ok false := rfl
  have c4 : cmp4 FACT [some 0x66, some 0x61, some 0x63, some 0x74] = .ok false := rfl
  simp only [Reader.open, IStream.open, r0, r4, r8, r12, r16, r20, r22, r24, r28, r32, r34, c1, c2, c3, bind, Except.bind, Nat.zero_add,
    Nat.reduceAdd, Bool.false_eq_true, if_false, hdiv, hring2, i1, i2, hring, i3, r36, r38, r42, r46, c4]
  rw [if_neg (by omega), if_neg (by omega), if_neg (by omega), if_neg (by omega), if_neg (by omega), if_neg (by simp),
    if_neg (by simp), if_pos trivial, if_neg (by simp), if_neg (by simp)]

/-- What the reader makes of a header, as a function of the patched fields. -/
def framesOf (bytes channels cs fs ds : Int) : Option Int :=
  if ds ≤ 0 ∨ cs ≤ 0 then some (-1)
  else if ds + (if bytes = 4 then 58 else 44) - 8 ≠ cs then none
  else some (if bytes = 4 then fs else Int.tdiv ds (channels * bytes))

/-- Offset and factor of the three formats. -/
def offsetOf (bytes : Int) : Int := if bytes = 1 then 128 else 0
@[inherit_doc offsetOf] def factorOf (bytes : Int) : Int := if bytes = 1 then 127 else if bytes = 2 then 32767 else 1

/-- The header of either kind. -/
def header (rate channels bytes : Int) (c0 c1 c2 c3 f0 f1 f2 f3 d0 d1 d2 d3 : Byte) : List Byte :=
  if bytes = 4 then floatHeader rate channels c0 c1 c2 c3 f0 f1 f2 f3 d0 d1 d2 d3
  else pcmHeader rate channels bytes c0 c1 c2 c3 d0 d1 d2 d3

/-- Its length. -/
def overheadOf (bytes : Int) : Nat := if bytes = 4 then 58 else 44

/-- The reader in front of the first sample. -/
def readerAt (d : List Byte) (pos : Nat) (rate channels bytes frames : Int) : Reader :=
  ⟨⟨d, pos, true⟩, some (8 * bytes), some bytes, some rate, some channels, some frames, some (offsetOf bytes), some (factorOf bytes)⟩

theorem open_header {d payload : List Byte} {rate channels bytes : Int} {c0 c1 c2 c3 f0 f1 f2 f3 d0 d1 d2 d3 : Byte} {fr : Int}
    (hd : d = header rate channels bytes c0 c1 c2 c3 f0 f1 f2 f3 d0 d1 d2 d3 ++ payload)
    (hbytes : bytes = 1 ∨ bytes = 2 ∨ bytes = 4) (hF : Fits rate channels bytes)
    (hds : (word4 d0 d1 d2 d3).toInt + overheadOf bytes ≤ 2147483647)
    (hf : framesOf bytes channels (word4 c0 c1 c2 c3).toInt (word4 f0 f1 f2 f3).toInt (word4 d0 d1 d2 d3).toInt = some fr) :
    Reader.open d = .ok (readerAt d (overheadOf bytes) rate channels bytes fr) := by
  have cD : cmp4 DATA [some 0x64, some 0x61, some 0x74, some 0x61] = .ok false := rfl
  by_cases h4 : bytes = 4
  · subst h4
    simp only [overheadOf, if_true] at hds
    rw [header, if_pos rfl] at hd
    rw [open_float hd hF]
    have r50 := read4_at (d := d) (p := 50) (b0 := 0x64) (b1 := 0x61) (b2 := 0x74) (b3 := 0x61) (l := d.drop 54) (by rw [hd]; rfl)
    have r54 := readLE4_at (d := d) (p := 54) (b0 := d0) (b1 := d1) (b2 := d2) (b3 := d3) (l := d.drop 58) (by rw [hd]; rfl)
    simp only [Reader.dataChunk, r50, r54, cD, bind, Except.bind, Nat.reduceAdd, Bool.false_eq_true, if_false, if_true]
    simp only [framesOf, if_true] at hf
    generalize (word4 c0 c1 c2 c3).toInt = cs at *
    generalize (word4 f0 f1 f2 f3).toInt = fs at *
    generalize (word4 d0 d1 d2 d3).toInt = ds at *
    by_cases hc : ds ≤ 0 ∨ cs ≤ 0
    · rw [if_pos hc] at hf ⊢
      simp only [Option.some.injEq] at hf; subst hf
      rfl
    · rw [if_neg hc] at hf ⊢
      by_cases he : ds + 58 - 8 ≠ cs
      · rw [if_pos he] at hf; simp at hf
      · rw [if_neg he] at hf
        rw [int32_ok (by omega)]
        simp only [Option.some.injEq] at hf; subst hf
        simp only [if_neg he]
        rfl
  · have hb2 : bytes = 1 ∨ bytes = 2 := by omega
    simp only [overheadOf, h4, if_false] at hds
    rw [header, if_neg h4] at hd
    rw [open_pcm hd hb2 hF]
    have r50 := read4_at (d := d) (p := 36) (b0 := 0x64) (b1 := 0x61) (b2 := 0x74) (b3 := 0x61) (l := d.drop 40) (by rw [hd]; rfl)
    have r54 := readLE4_at (d := d) (p := 40) (b0 := d0) (b1 := d1) (b2 := d2) (b3 := d3) (l := d.drop 44) (by rw [hd]; rfl)
    have hfin : ∀ f : Int, Reader.finish (.mk ⟨d, 44, true⟩ (some (8 * bytes)) (some bytes) (some rate) (some channels) (some f) none none)
        (8 * bytes) = .ok (readerAt d (overheadOf bytes) rate channels bytes f) := by
      intro f; rcases hb2 with rfl | rfl <;> rfl
    have h32 : ¬ (8 * bytes = 32) := by omega
    simp only [Reader.dataChunk, r50, r54, cD, bind, Except.bind, Nat.reduceAdd, Bool.false_eq_true, if_false, if_true, h32, hfin]
    simp only [framesOf, h4, if_false] at hf
    generalize (word4 c0 c1 c2 c3).toInt = cs at *
    generalize (word4 f0 f1 f2 f3).toInt = fs at *
    generalize (word4 d0 d1 d2 d3).toInt = ds at *
    have hal := hF.align (by omega)
    by_cases hc : ds ≤ 0 ∨ cs ≤ 0
    · rw [if_pos hc] at hf ⊢
      simp only [Option.some.injEq] at hf; subst hf
      rfl
    · rw [if_neg hc] at hf ⊢
      by_cases he : ds + 44 - 8 ≠ cs
      · rw [if_pos he] at hf; simp at hf
      · rw [if_neg he] at hf
        rw [int32_ok (by omega)]
        simp only [Option.some.injEq] at hf; subst hf
        simp only [if_neg he]
        have hring2 : bytes * channels = channels * bytes := by ring
        rw [hring2, int32_ok (v := channels * bytes) (by have := hF.ha; omega)]
        simp only
        rw [if_neg (by omega)]

end Wav
end DSP
