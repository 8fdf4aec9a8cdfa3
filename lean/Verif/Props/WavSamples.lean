import Verif.Lemmas.WavSamples
import Verif.Props.Wav
import Mathlib.Algebra.Order.Field.Basic
import Mathlib.Algebra.Order.Ring.Rat
import Mathlib.Algebra.Order.Group.Abs
import Mathlib.Tactic.FieldSimp
import Mathlib.Algebra.Field.Rat
import Mathlib.Algebra.Order.Round
import Mathlib.Data.Rat.Floor

/-! Properties C20, C21 and C23: samples through a file. -/

namespace DSP
open Wav Spec

/-- Frames in a file read back: cell `stride * n + c` of the destination holds `v n c`, all others are untouched. -/
structure Spec.Placed {α : Type} (out out' : List α) (frames channels stride : Nat) (v : Nat → Nat → α) : Prop where
  length : out'.length = out.length
  placed : ∀ n c, n < frames → c < channels → out'[stride * n + c]? = some (v n c)
  untouched : ∀ i, (∀ n c, n < frames → c < channels → i ≠ stride * n + c) → out'[i]? = out[i]?

/-- A file made by any sequence of calls, opened, skipped to the frames of one of the calls, and read. -/
theorem Wav.file_read {α : Type} {T : Sample α} {rate bits channels : Int} (hF : HeaderFits rate bits channels)
    {w : Writer} {hdr body : List Op} (hopen : Writer.open rate bits channels = .ok (w, hdr))
    {pre post : List (Call α)} {c : Call α} {v : Nat → Nat → α} (hcp : CallPuts T bits channels c v)
    (hrun : runCalls T (pre ++ c :: post) w = .ok body)
    (hsize : headerSize bits + ((pre ++ c :: post).map Call.frames).sum * (channels * width bits) ≤ 2147483647)
    {stride : Int} (hs : channels ≤ effStride channels stride) {out : List α}
    (hout : ∀ n k, n < c.frames → k < channels.toNat → effStride channels stride * n + k < out.length) :
    ∃ ops r r1 r2 out', Writer.session rate bits channels (runCalls T (pre ++ c :: post)) = .ok ops ∧
      Reader.open (OFile.replay ops).data = .ok r ∧ r.skip ((pre.map Call.frames).sum : Nat) = .ok r1 ∧
      r1.read T out c.frames stride = .ok (r2, out') ∧ r2.good = true ∧
      Placed out out' c.frames channels.toNat (effStride channels stride) v := by
  obtain ⟨payload, rfl, hn, hwc, hwb, hw⟩ := calls_payload hF hopen hrun
  obtain ⟨ops, hsess, ⟨h, hd, ha⟩, -⟩ := session_states hF hopen hrun hn (by rw [hn]; exact hsize)
  obtain ⟨ho, hl⟩ := open_announces (payload := payload) (width_cases bits) (Spec_fits hF) ha
  have hc := hF.3
  -- the payload consists of three parts
  obtain ⟨g, hgr, hgd⟩ := hcp
  have hgr' := hgr rate
  rw [← hw] at hgr'
  rw [runCalls_append] at hrun
  simp only [bind, Except.bind, pure, Except.pure] at hrun
  split at hrun
  · simp at hrun
  rename_i a ha'
  simp only [runCalls, hgr', bind, Except.bind, pure, Except.pure] at hrun
  split at hrun
  · simp at hrun
  rename_i b hb'
  split at hb'
  · simp at hb'
  rename_i b2 hb2
  simp only [Except.ok.injEq] at hb' hrun
  subst hb'
  obtain ⟨pa, rfl, hpa⟩ := puts_calls (by omega) ha'
  obtain ⟨pb, rfl, hpb⟩ := puts_calls (by omega) hb2
  rw [← List.map_append, ← List.map_append] at hrun
  have hpay : pa ++ (dataBytes g channels.toNat c.frames 0 ++ pb) = payload :=
    List.map_injective_iff.2 (fun _ _ h => by simpa using h) hrun
  have hwidth : ((width bits).toNat : Int) = width bits := Int.toNat_of_nonneg (by have := width_cases bits; omega)
  have hcast : ((channels.toNat : Nat) : Int) = channels := Int.toNat_of_nonneg (by omega)
  rw [hwc, hwb] at hpa
  have hpa' : (pa.length : Int) = ((pre.map Call.frames).sum : Nat) * channels * width bits := by
    rw [hpa]; push_cast; rw [hwidth, hcast]; ring
  have hle : pa.length ≤ payload.length := by rw [← hpay]; simp
  have hws := width_cases bits
  have hsz : (payload.length : Int) ≤ 2147483647 := by rw [hn]; omega
  have hP : 0 ≤ ((((pre.map Call.frames).sum : Nat) : Int)) * channels := mul_nonneg (by omega) (by omega)
  have hskip : (readerAt (h ++ payload) (overheadOf (width bits)) rate channels (width bits) (if ((pre ++ c :: post).map Call.frames).sum = 0 then -1 else
      (((pre ++ c :: post).map Call.frames).sum : Nat))).skip ((pre.map Call.frames).sum : Nat) =
      .ok (readerAt (h ++ payload) (overheadOf (width bits) + pa.length) rate channels (width bits) (if ((pre ++ c :: post).map Call.frames).sum = 0 then -1 else
      (((pre ++ c :: post).map Call.frames).sum : Nat))) := by
    have i1 : int32 ((((pre.map Call.frames).sum : Nat) : Int) * channels) = .ok ((((pre.map Call.frames).sum : Nat) : Int) * channels) := by
      apply int32_ok
      rcases hws with e | e | e <;> rw [e] at hpa' <;> omega
    have i2 : int32 ((((pre.map Call.frames).sum : Nat) : Int) * channels * width bits) = .ok (pa.length : Int) := by
      rw [← hpa']; exact int32_ok (by omega)
    simp only [Reader.skip, readerAt, get!, bind, Except.bind, i1, i2, pure, Except.pure, seekCur_nat]
  have hdrop : (h ++ payload).drop (overheadOf (width bits) + pa.length) = dataBytes g channels.toNat c.frames 0 ++ pb := by
    rw [← hl, ← hpay]
    rw [← List.drop_drop]
    simp
  obtain ⟨out', e, F⟩ := call_read (rate := rate) (fr := (if ((pre ++ c :: post).map Call.frames).sum = 0 then -1 else
      (((pre ++ c :: post).map Call.frames).sum : Nat))) hc hgd hdrop hs hout
  exact ⟨ops, _, _, _, out', hsess, by rw [hd, ho], hskip, e, rfl, F.len, fun n k h1 h2 => F.hit n k ⟨h1, h2⟩, fun i hi => F.miss i (fun n k h' => hi n k h'.1 h'.2)⟩

theorem Wav.seekCur_zero (s : IStream) : s.seekCur 0 = s := by
  obtain ⟨d, p, ok⟩ := s
  cases ok
  · rfl
  · exact seekCur_nat d p 0

/-- **C21.** Anything written in floating point mode anywhere in a file is read back from there as `ofBits (bits x)`; for a `TYPE`
that is `float` these conversions undo each other and the sample is unchanged. -/
theorem C21_float {α : Type} {T : Sample α} (hT : ∀ x, T.ofBits (T.bits x) = x) {rate bits channels : Int} (hF : HeaderFits rate bits channels)
    (h8 : bits ≠ 8) (h16 : bits ≠ 16)
    {w : Writer} {hdr body : List Op} (hopen : Writer.open rate bits channels = .ok (w, hdr))
    (pre post : List (Call α)) (buf : List α) (num stride : Int) (x : Nat → Nat → α)
    (hx : ∀ n c, n < num.toNat → c < channels.toNat → buf[effStride channels stride * n + c]? = some (x n c))
    (hrun : runCalls T (pre ++ .write buf num stride :: post) w = .ok body)
    (hsize : headerSize bits + ((pre ++ .write buf num stride :: post).map Call.frames).sum * (channels * width bits) ≤ 2147483647)
    (rstride : Int) (hs : channels ≤ effStride channels rstride) (out : List α)
    (hout : ∀ n k, n < num.toNat → k < channels.toNat → effStride channels rstride * n + k < out.length) :
    ∃ ops r r1 r2 out', Writer.session rate bits channels (runCalls T (pre ++ .write buf num stride :: post)) = .ok ops ∧
      Reader.open (OFile.replay ops).data = .ok r ∧ r.skip ((pre.map Call.frames).sum : Nat) = .ok r1 ∧
      r1.read T out num.toNat rstride = .ok (r2, out') ∧ r2.good = true ∧
      Placed out out' num.toNat channels.toNat (effStride channels rstride) x := by
  have hc := hF.3
  refine file_read hF hopen (write_puts (by omega) fun n c hn hc' => ⟨hx n c hn hc', ?_⟩) hrun hsize hs hout
  have := codec_float (T := T) h8 h16 (x n c)
  rwa [hT] at this

/-- **C21** for raw bit patterns: every pattern survives, no matter which floating point value (or NaN) it denotes. -/
theorem C21_bits {rate bits channels : Int} (hF : HeaderFits rate bits channels) (h8 : bits ≠ 8) (h16 : bits ≠ 16)
    (buf out : List (BitVec 32)) (num : Nat) (hbuf : buf.length = num * channels.toNat) (hout : out.length = num * channels.toNat)
    (hsize : headerSize bits + num * (channels * width bits) ≤ 2147483647) :
    ∃ ops r r', Writer.session rate bits channels (runCalls rawSample [.write buf num (-1)]) = .ok ops ∧
      Reader.open (OFile.replay ops).data = .ok r ∧ r.read rawSample out num (-1) = .ok (r', buf) ∧ r'.good = true := by
  have hc := hF.3
  have heff : effStride channels (-1) = channels.toNat := by simp [effStride]
  have hix : ∀ n c, n < num → c < channels.toNat → channels.toNat * n + c < num * channels.toNat := by
    intro n c hn hc
    calc channels.toNat * n + c < channels.toNat * n + channels.toNat := by omega
      _ = channels.toNat * (n + 1) := by ring
      _ ≤ channels.toNat * num := Nat.mul_le_mul_left _ hn
      _ = num * channels.toNat := by ring
  obtain ⟨w, hdr, hopen, -⟩ := C19_opens hF
  have hcp := write_puts (T := rawSample) (bits := bits) (channels := channels) (num := num) (stride := -1) (by omega) (buf := buf)
    (x := fun n c => buf[channels.toNat * n + c]?.getD 0) (v := fun n c => buf[channels.toNat * n + c]?.getD 0)
    (fun n c hn hc' => by
      have hlt : channels.toNat * n + c < buf.length := by rw [hbuf]; exact hix n c (by simpa using hn) hc'
      refine ⟨by simp [heff, hlt], ?_⟩
      have := codec_float (T := rawSample) h8 h16 (buf[channels.toNat * n + c]?.getD 0)
      exact this)
  have hrun : ∃ body, runCalls rawSample ([] ++ .write buf num (-1) :: []) w = .ok body := by
    obtain ⟨g, hg, -⟩ := hcp
    obtain ⟨w', e, hw⟩ := writer_open hF
    rw [hopen] at e
    simp only [Except.ok.injEq, Prod.mk.injEq] at e
    obtain ⟨rfl, -⟩ := e
    have := hg rate
    rw [← hw] at this
    simp only [List.nil_append, runCalls, this, bind, Except.bind, pure, Except.pure]
    exact ⟨_, rfl⟩
  obtain ⟨body, hrun⟩ := hrun
  obtain ⟨ops, r, r1, r2, out', h1, h2, h3, h4, h5, h6⟩ := file_read (out := out) (stride := -1) hF hopen hcp hrun
    (by simpa [Call.frames] using hsize) (by rw [heff]; omega)
    (fun n k hn hk => by rw [heff, hout]; exact hix n k (by simpa [Call.frames] using hn) hk)
  have hr1 : r1 = r := by
    simp only [List.map_nil, List.sum_nil, Reader.skip, get!, bind, Except.bind] at h3
    split at h3
    · simp at h3
    rename_i ch hch
    simp only [Int.zero_mul, Nat.cast_zero, int32] at h3
    norm_num at h3
    split at h3
    · simp at h3
    simp only [pure, Except.pure, Except.ok.injEq] at h3
    rw [← h3, seekCur_zero]
  subst hr1
  refine ⟨ops, r1, r2, h1, h2, ?_, h5⟩
  have hfr : Call.frames (.write buf (num : Int) (-1)) = num := by simp [Call.frames]
  rw [hfr] at h4 h6
  rw [h4]
  congr 2
  apply List.ext_getElem?
  intro i
  by_cases hi : i < num * channels.toNat
  · have hch : 0 < channels.toNat := by omega
    have hdm := Nat.div_add_mod i channels.toNat
    have := h6.placed (i / channels.toNat) (i % channels.toNat) (by rw [Nat.div_lt_iff_lt_mul hch]; exact hi) (Nat.mod_lt _ hch)
    rw [heff, hdm] at this
    rw [this]
    rw [List.getElem?_eq_getElem (by omega)]; rfl
  · rw [List.getElem?_eq_none (by rw [h6.length]; omega), List.getElem?_eq_none (by omega)]

/-- `TYPE` as an ordered field with exact arithmetic. -/
def Wav.fieldSample {K : Type} [Field K] [LinearOrder K] (round : K → Int) (bits : K → BitVec 32) (ofBits : BitVec 32 → K) : Sample K where
  ofInt := fun n => (n : K)
  add := (· + ·)
  mul := (· * ·)
  div := (· / ·)
  min := min
  max := max
  nearbyint := round
  bits := bits
  ofBits := ofBits

/-- Full scale code of a PCM format, its most negative code and the value of the latter. -/
def Spec.fullScale (bits : Int) : Int := if bits = 8 then 127 else 32767

section PCM
variable {K : Type} [Field K] [LinearOrder K] [IsStrictOrderedRing K]

theorem Wav.round_int {round : K → Int} (hround : ∀ v, |(round v : K) - v| ≤ 1 / 2) (n : Int) : round (n : K) = n := by
  have h := hround n
  rw [← Int.cast_sub, ← Int.cast_abs] at h
  have h2 : (|round (n : K) - n| : Int) < 1 := by
    have : ((|round (n : K) - n| : Int) : K) < ((1 : Int) : K) := lt_of_le_of_lt h (by push_cast; norm_num)
    exact_mod_cast this
  have h3 := abs_lt.1 h2
  omega

theorem Wav.round_between {round : K → Int} (hround : ∀ v, |(round v : K) - v| ≤ 1 / 2) {v : K} {lo hi : Int} (h1 : (lo : K) ≤ v) (h2 : v ≤ hi) :
    lo ≤ round v ∧ round v ≤ hi := by
  have h := abs_le.1 (hround v)
  constructor
  · by_contra hc
    have : ((round v : Int) : K) + 1 ≤ lo := by exact_mod_cast (by omega : round v + 1 ≤ lo)
    have : (1 : K) ≤ 1 / 2 := by linarith [h.1]
    norm_num at this
  · by_contra hc
    have : ((hi : Int) : K) + 1 ≤ round v := by exact_mod_cast (by omega : hi + 1 ≤ round v)
    have : (1 : K) ≤ 1 / 2 := by linarith [h.2]
    norm_num at this

variable {round : K → Int} (hround : ∀ v, |(round v : K) - v| ≤ 1 / 2) {fb : K → BitVec 32} {bf : BitVec 32 → K}
include hround

/-- **C20.** A sample between the most negative code and full scale comes back within half a step. -/
theorem C20_within {bits : Int} (hb : bits = 8 ∨ bits = 16) {x : K} (h0 : -((fullScale bits : K) + 1) / fullScale bits ≤ x) (h1 : x ≤ 1) :
    ∃ v, Codec (fieldSample round fb bf) bits x v ∧ |v - x| ≤ 1 / (2 * fullScale bits) := by
  rcases hb with rfl | rfl
  · simp only [fullScale, if_true, Int.cast_ofNat] at *
    have h0' : (-128 : K) ≤ 127 * x := by
      have := (div_le_iff₀ (by norm_num : (0 : K) < 127)).1 h0; linarith
    have hlo : ((0 : Int) : K) ≤ 128 + 127 * x := by push_cast; linarith
    have hhi : 128 + 127 * x ≤ ((255 : Int) : K) := by push_cast; linarith
    have hq := round_between hround hlo hhi
    refine ⟨_, codec_8 (q := round (128 + 127 * x)) ?_ hq.1 hq.2, ?_⟩
    · simp only [fieldSample, Int.cast_ofNat]
      rw [max_eq_left hlo, min_eq_left (by simpa using hhi)]
    · simp only [fieldSample]
      have h := hround (128 + 127 * x)
      have e : (((round (128 + 127 * x) - 128 : Int) : K) / ((127 : Int) : K) - x) = ((round (128 + 127 * x) : K) - (128 + 127 * x)) / 127 := by
        push_cast; field_simp; ring
      rw [e, abs_div, abs_of_pos (by norm_num : (0 : K) < 127), div_le_div_iff₀ (by norm_num) (by norm_num)]
      linarith
  · simp only [fullScale, show ¬ ((16 : Int) = 8) by decide, if_false, Int.cast_ofNat] at *
    have h0' : (-32768 : K) ≤ 32767 * x := by
      have := (div_le_iff₀ (by norm_num : (0 : K) < 32767)).1 h0; linarith
    have hlo : ((-32768 : Int) : K) ≤ 0 + 32767 * x := by push_cast; linarith
    have hhi : 0 + 32767 * x ≤ ((32767 : Int) : K) := by push_cast; linarith
    have hq := round_between hround hlo hhi
    refine ⟨_, codec_16 (q := round (0 + 32767 * x)) ?_ hq.1 hq.2, ?_⟩
    · simp only [fieldSample, Int.cast_ofNat, Int.cast_zero]
      rw [max_eq_left (by simpa using hlo), min_eq_left (by simpa using hhi)]
    · simp only [fieldSample]
      have h := hround (0 + 32767 * x)
      have e : (((round (0 + 32767 * x) : Int) : K) / ((32767 : Int) : K) - x) = ((round (0 + 32767 * x) : K) - (0 + 32767 * x)) / 32767 := by
        push_cast; field_simp; ring
      rw [e, abs_div, abs_of_pos (by norm_num : (0 : K) < 32767), div_le_div_iff₀ (by norm_num) (by norm_num)]
      linarith

/-- **C20.** Samples beyond the range saturate: at full scale (exactly 1) above, at the most negative code below. -/
theorem C20_saturates {bits : Int} (hb : bits = 8 ∨ bits = 16) (x : K) :
    (1 ≤ x → Codec (fieldSample round fb bf) bits x 1) ∧
    (x ≤ -((fullScale bits : K) + 1) / fullScale bits → Codec (fieldSample round fb bf) bits x (-((fullScale bits : K) + 1) / fullScale bits)) := by
  rcases hb with rfl | rfl
  · simp only [fullScale, if_true, Int.cast_ofNat]
    constructor <;> intro h
    · have e : (1 : K) = (fieldSample round fb bf).div ((fieldSample round fb bf).ofInt (255 - 128)) ((fieldSample round fb bf).ofInt 127) := by
        simp only [fieldSample]; norm_num
      rw [e]
      refine codec_8 ?_ (by decide) (by decide)
      simp only [fieldSample, Int.cast_ofNat, Int.cast_zero]
      rw [max_eq_left (by linarith), min_eq_right (by linarith)]
      exact_mod_cast round_int hround 255
    · have h' := (le_div_iff₀ (by norm_num : (0 : K) < 127)).1 h
      have e : (-(127 + 1) / 127 : K) = (fieldSample round fb bf).div ((fieldSample round fb bf).ofInt (0 - 128)) ((fieldSample round fb bf).ofInt 127) := by
        simp only [fieldSample]; norm_num
      rw [e]
      refine codec_8 ?_ (by decide) (by decide)
      simp only [fieldSample, Int.cast_ofNat, Int.cast_zero]
      rw [max_eq_right (by linarith), min_eq_left (by norm_num)]
      exact_mod_cast round_int hround 0
  · simp only [fullScale, show ¬ ((16 : Int) = 8) by decide, if_false, Int.cast_ofNat]
    constructor <;> intro h
    · have e : (1 : K) = (fieldSample round fb bf).div ((fieldSample round fb bf).ofInt 32767) ((fieldSample round fb bf).ofInt 32767) := by
        simp only [fieldSample]; norm_num
      rw [e]
      refine codec_16 ?_ (by decide) (by decide)
      simp only [fieldSample, Int.cast_ofNat, Int.cast_zero, Int.cast_neg]
      rw [max_eq_left (by linarith), min_eq_right (by linarith)]
      exact_mod_cast round_int hround 32767
    · have h' := (le_div_iff₀ (by norm_num : (0 : K) < 32767)).1 h
      have e : (-(32767 + 1) / 32767 : K) = (fieldSample round fb bf).div ((fieldSample round fb bf).ofInt (-32768)) ((fieldSample round fb bf).ofInt 32767) := by
        simp only [fieldSample]; norm_num
      rw [e]
      refine codec_16 ?_ (by decide) (by decide)
      simp only [fieldSample, Int.cast_ofNat, Int.cast_zero, Int.cast_neg]
      rw [max_eq_right (by linarith), min_eq_left (by norm_num)]
      exact_mod_cast round_int hround (-32768)

/-- **C20.** Decoding a code and encoding the result gives the same code: decoded values are reproduced exactly from then on. -/
theorem C20_reencode (rate channels : Int) :
    (∀ q : Int, 0 ≤ q → q ≤ 255 → (Writer.init rate 8 channels).1.sample (fieldSample round fb bf) ((q - 128 : K) / 127) = .ok (writeLE q 1)) ∧
    (∀ q : Int, -32768 ≤ q → q ≤ 32767 → (Writer.init rate 16 channels).1.sample (fieldSample round fb bf) ((q : K) / 32767) = .ok (writeLE q 2)) := by
  constructor
  · intro q h0 h1
    have h0' : ((0 : Int) : K) ≤ q := by exact_mod_cast h0
    have h1' : (q : K) ≤ ((255 : Int) : K) := by exact_mod_cast h1
    simp only [Writer.init, if_true, Writer.sample, show ¬ ((1 : Int) = 4) by decide, if_false, fieldSample, Int.cast_ofNat]
    rw [show (128 + 127 * (((q : K) - 128) / 127) : K) = q by field_simp; ring, max_eq_left h0', min_eq_left (by simpa using h1'),
      round_int hround, int32_ok (by omega)]
    rfl
  · intro q h0 h1
    have h0' : ((-32768 : Int) : K) ≤ q := by exact_mod_cast h0
    have h1' : (q : K) ≤ ((32767 : Int) : K) := by exact_mod_cast h1
    simp only [Writer.init, if_true, show ¬ ((16 : Int) = 8) by decide, Writer.sample, show ¬ ((2 : Int) = 4) by decide, if_false, fieldSample, Int.cast_ofNat,
      Int.cast_zero]
    rw [show (0 + 32767 * ((q : K) / 32767) : K) = q by field_simp; ring, max_eq_left h0', min_eq_left (by simpa using h1'),
      round_int hround, int32_ok (by omega)]
    rfl

/-- **C20** through a file: PCM frames written anywhere in a session are read back within half a step of what was written. -/
theorem C20_file {rate bits channels : Int} (hF : HeaderFits rate bits channels) (hb : bits = 8 ∨ bits = 16)
    {w : Writer} {hdr body : List Op} (hopen : Writer.open rate bits channels = .ok (w, hdr))
    (pre post : List (Call K)) (buf : List K) (num stride : Int) (x : Nat → Nat → K)
    (hx : ∀ n c, n < num.toNat → c < channels.toNat → buf[effStride channels stride * n + c]? = some (x n c) ∧ |x n c| ≤ 1)
    (hrun : runCalls (fieldSample round fb bf) (pre ++ .write buf num stride :: post) w = .ok body)
    (hsize : headerSize bits + ((pre ++ .write buf num stride :: post).map Call.frames).sum * (channels * width bits) ≤ 2147483647)
    (rstride : Int) (hs : channels ≤ effStride channels rstride) (out : List K)
    (hout : ∀ n k, n < num.toNat → k < channels.toNat → effStride channels rstride * n + k < out.length) :
    ∃ ops r r1 r2 out' v, Writer.session rate bits channels (runCalls (fieldSample round fb bf) (pre ++ .write buf num stride :: post)) = .ok ops ∧
      Reader.open (OFile.replay ops).data = .ok r ∧ r.skip ((pre.map Call.frames).sum : Nat) = .ok r1 ∧
      r1.read (fieldSample round fb bf) out num.toNat rstride = .ok (r2, out') ∧ r2.good = true ∧
      Placed out out' num.toNat channels.toNat (effStride channels rstride) v ∧
      ∀ n c, n < num.toNat → c < channels.toNat → |v n c - x n c| ≤ 1 / (2 * fullScale bits) := by
  have hc := hF.3
  have : ∀ n c, ∃ v, n < num.toNat → c < channels.toNat → Codec (fieldSample round fb bf) bits (x n c) v ∧ |v - x n c| ≤ 1 / (2 * fullScale bits) := by
    intro n c
    by_cases h : n < num.toNat ∧ c < channels.toNat
    · have ha := abs_le.1 (hx n c h.1 h.2).2
      have hfs : (0 : K) < fullScale bits := by unfold fullScale; split_ifs <;> norm_num
      obtain ⟨v, hv⟩ := C20_within hround (fb := fb) (bf := bf) hb (x := x n c)
        (by rw [div_le_iff₀ hfs]; nlinarith [ha.1]) ha.2
      exact ⟨v, fun _ _ => hv⟩
    · exact ⟨0, fun h1 h2 => absurd ⟨h1, h2⟩ h⟩
  choose v hv using this
  obtain ⟨ops, r, r1, r2, out', h1, h2, h3, h4, h5, h6⟩ := file_read hF hopen
    (write_puts (v := v) (by omega) fun n c hn hc' => ⟨(hx n c hn hc').1, (hv n c hn hc').1⟩) hrun hsize hs hout
  exact ⟨ops, r, r1, r2, out', v, h1, h2, h3, h4, h5, h6, fun n c hn hc' => (hv n c hn hc').2⟩

end PCM

/-- **C23.** `write` visits exactly the cells `stride * n + c`, frame by frame, channel by channel. -/
theorem C23_write {α : Type} {T : Sample α} {w : Writer} {buf : List α} {num stride : Int} {ops : List Op} (hc : 0 ≤ w.channels)
    (h : w.write T buf num stride = .ok ops) :
    ∃ f : Nat → Nat → List Op,
      (∀ n c, n < num.toNat → c < w.channels.toNat → ∃ x, buf[effStride w.channels stride * n + c]? = some x ∧ w.sample T x = .ok (f n c)) ∧
      ops = (List.range num.toNat).flatMap fun n => (List.range w.channels.toNat).flatMap fun c => f n c := by
  -- a frame
  have hframe : ∀ (s n k c : Nat) (ops : List Op), w.frame T buf (s : Int) (n : Int) k (c : Int) = .ok ops →
      ∃ f : Nat → List Op, (∀ j, j < k → ∃ x, buf[s * n + (c + j)]? = some x ∧ w.sample T x = .ok (f j)) ∧ ops = (List.range k).flatMap f := by
    intro s n k
    induction k with
    | zero =>
      intro c ops h
      simp only [Writer.frame, Except.ok.injEq] at h
      exact ⟨fun _ => [], by omega, by simp [h]⟩
    | succ k ih =>
      intro c ops h
      have hidx : (s : Int) * (n : Int) + (c : Int) = ((s * n + c : Nat) : Int) := by push_cast; ring
      simp only [Writer.frame, bind, Except.bind, hidx] at h
      split at h
      · simp at h
      rename_i x hx
      split at h
      · simp at h
      rename_i a ha
      split at h
      · simp at h
      rename_i b hb
      simp only [pure, Except.pure, Except.ok.injEq] at h
      rw [show ((c : Int) + 1) = ((c + 1 : Nat) : Int) by push_cast; rfl] at hb
      obtain ⟨f, hf, rfl⟩ := ih (c + 1) b hb
      refine ⟨fun j => if j = 0 then a else f (j - 1), ?_, ?_⟩
      · intro j hj
        rcases Nat.eq_zero_or_pos j with rfl | hj0
        · have := rd_eq_ok_iff.1 hx
          rw [Int.toNat_natCast] at this
          exact ⟨x, by simpa using this.2, by simpa using ha⟩
        · obtain ⟨x', h1, h2⟩ := hf (j - 1) (by omega)
          refine ⟨x', ?_, by simp only; rw [if_neg (by omega)]; exact h2⟩
          rw [show c + 1 + (j - 1) = c + j by omega] at h1; exact h1
      · rw [← h, List.range_succ_eq_map]
        simp [List.flatMap_map]
  have hframes : ∀ (s k n : Nat) (ops : List Op), w.framesLoop T buf (s : Int) k (n : Int) = .ok ops →
      ∃ f : Nat → Nat → List Op, (∀ m c, m < k → c < w.channels.toNat → ∃ x, buf[s * (n + m) + c]? = some x ∧ w.sample T x = .ok (f m c)) ∧
        ops = (List.range k).flatMap fun m => (List.range w.channels.toNat).flatMap fun c => f m c := by
    intro s k
    induction k with
    | zero =>
      intro n ops h
      simp only [Writer.framesLoop, Except.ok.injEq] at h
      exact ⟨fun _ _ => [], by omega, by simp [h]⟩
    | succ k ih =>
      intro n ops h
      simp only [Writer.framesLoop, bind, Except.bind] at h
      split at h
      · simp at h
      rename_i a ha
      split at h
      · simp at h
      rename_i b hb
      simp only [pure, Except.pure, Except.ok.injEq] at h
      rw [show ((n : Int) + 1) = ((n + 1 : Nat) : Int) by push_cast; rfl] at hb
      obtain ⟨f, hf, rfl⟩ := ih (n + 1) b hb
      obtain ⟨g, hg, rfl⟩ := hframe s n _ 0 a ha
      refine ⟨fun m c => if m = 0 then g c else f (m - 1) c, ?_, ?_⟩
      · intro m c hm hc
        rcases Nat.eq_zero_or_pos m with rfl | hm0
        · simpa using hg c hc
        · obtain ⟨x', h1, h2⟩ := hf (m - 1) c (by omega) hc
          refine ⟨x', ?_, by simp only; rw [if_neg (by omega)]; exact h2⟩
          rw [show n + 1 + (m - 1) = n + m by omega] at h1; exact h1
      · rw [← h, List.range_succ_eq_map]
        simp [List.flatMap_map]
  unfold Writer.write at h
  rw [effStride_cast hc] at h
  obtain ⟨f, hf, he⟩ := hframes _ _ 0 ops h
  exact ⟨f, fun n c h1 h2 => by simpa using hf n c h1 h2, he⟩

/-- **C23.** Frames written with one stride anywhere in a session land, read with another stride, in exactly the cells `rstride * n + c` of the
destination and nowhere else; what a sample turns into is the business of C20 and C21. -/
theorem C23_layout {α : Type} {T : Sample α} {rate bits channels : Int} (hF : HeaderFits rate bits channels)
    {w : Writer} {hdr body : List Op} (hopen : Writer.open rate bits channels = .ok (w, hdr))
    (pre post : List (Call α)) (buf : List α) (num stride : Int) (x v : Nat → Nat → α)
    (hx : ∀ n c, n < num.toNat → c < channels.toNat → buf[effStride channels stride * n + c]? = some (x n c) ∧ Codec T bits (x n c) (v n c))
    (hrun : runCalls T (pre ++ .write buf num stride :: post) w = .ok body)
    (hsize : headerSize bits + ((pre ++ .write buf num stride :: post).map Call.frames).sum * (channels * width bits) ≤ 2147483647)
    (rstride : Int) (hs : channels ≤ effStride channels rstride) (out : List α)
    (hout : ∀ n k, n < num.toNat → k < channels.toNat → effStride channels rstride * n + k < out.length) :
    ∃ ops r r1 r2 out', Writer.session rate bits channels (runCalls T (pre ++ .write buf num stride :: post)) = .ok ops ∧
      Reader.open (OFile.replay ops).data = .ok r ∧ r.skip ((pre.map Call.frames).sum : Nat) = .ok r1 ∧
      r1.read T out num.toNat rstride = .ok (r2, out') ∧ r2.good = true ∧
      Placed out out' num.toNat channels.toNat (effStride channels rstride) v := by
  have hc := hF.3
  exact file_read hF hopen (write_puts (by omega) hx) hrun hsize hs hout

/-- **C23.** `silence(num)` anywhere in a session is read back as `num` frames of zeros. -/
theorem C23_silence {α : Type} {T : Sample α} {zero : α} (hz : T.ofBits 0 = zero) (hz' : ∀ f : Int, f ≠ 0 → T.div (T.ofInt 0) (T.ofInt f) = zero)
    {rate bits channels : Int} (hF : HeaderFits rate bits channels)
    {w : Writer} {hdr body : List Op} (hopen : Writer.open rate bits channels = .ok (w, hdr))
    (pre post : List (Call α)) (num : Nat)
    (hrun : runCalls T (pre ++ .silence num :: post) w = .ok body)
    (hsize : headerSize bits + ((pre ++ .silence num :: post).map Call.frames).sum * (channels * width bits) ≤ 2147483647)
    (rstride : Int) (hs : channels ≤ effStride channels rstride) (out : List α)
    (hout : ∀ n k, n < num → k < channels.toNat → effStride channels rstride * n + k < out.length) :
    ∃ ops r r1 r2 out', Writer.session rate bits channels (runCalls T (pre ++ .silence num :: post)) = .ok ops ∧
      Reader.open (OFile.replay ops).data = .ok r ∧ r.skip ((pre.map Call.frames).sum : Nat) = .ok r1 ∧
      r1.read T out num rstride = .ok (r2, out') ∧ r2.good = true ∧
      Placed out out' num channels.toNat (effStride channels rstride) (fun _ _ => zero) := by
  have hc := hF.3
  have hb : (num : Int) * channels ≤ 2147483647 := by
    have h1 : (num : Int) * (channels * width bits) ≤ ((pre ++ .silence num :: post : List (Call α)).map Call.frames).sum * (channels * width bits) := by
      apply mul_le_mul_of_nonneg_right
      · simp [Call.frames]; omega
      · have := width_cases bits; exact mul_nonneg (by omega) (by omega)
    have h2 : (num : Int) * channels ≤ (num : Int) * (channels * width bits) := by
      apply mul_le_mul_of_nonneg_left _ (by omega)
      rcases width_cases bits with e | e | e <;> rw [e] <;> omega
    omega
  have hv : (fun _ _ => if width bits = 4 then T.ofBits 0 else T.div (T.ofInt 0) (T.ofInt (factorOf (width bits))) : Nat → Nat → α) = fun _ _ => zero := by
    funext _ _
    split_ifs
    · exact hz
    · apply hz'; unfold factorOf; split_ifs <;> decide
  have hp := silence_puts (T := T) (bits := bits) (channels := channels) (num := num) (by omega) (by omega) hb
  rw [hv] at hp
  exact file_read hF hopen hp hrun hsize hs (out := out) (by simpa [Call.frames] using hout)

theorem Wav.get_good {s : IStream} (h : s.get.2.ok = true) : s.ok = true ∧ s.get.2 = { s with pos := s.pos + 1 } := by
  unfold IStream.get at *
  split_ifs at * with ho
  · split at h
    · exact ⟨ho, rfl⟩
    · simp at h
  · simp_all

theorem Wav.readLoop_good {k : Nat} : ∀ {i : Nat} {v : BitVec 32} {s : IStream}, (readLoop k i v s).2.ok = true →
    s.ok = true ∧ (readLoop k i v s).2 = { s with pos := s.pos + k } := by
  induction k with
  | zero => intro i v s h; exact ⟨h, rfl⟩
  | succ k ih =>
    intro i v s h
    simp only [readLoop] at h ⊢
    obtain ⟨h1, h2⟩ := ih h
    obtain ⟨h3, h4⟩ := get_good h1
    refine ⟨h3, ?_⟩
    rw [h2, h4]
    simp only [IStream.mk.injEq, true_and, and_true]; omega

theorem Wav.sample_good {α : Type} {T : Sample α} {r r' : Reader} {v : α} {bytes : Nat} (hb : r.bytes = some (bytes : Int)) (h : r.sample T = .ok (v, r'))
    (hg : r'.good = true) : r.good = true ∧ r' = { r with is := { r.is with pos := r.is.pos + bytes } } := by
  simp only [Reader.sample, hb, get!, bind, Except.bind] at h
  by_cases h4 : (bytes : Int) = 4
  · rw [if_pos h4] at h
    simp only [pure, Except.pure, Except.ok.injEq, Prod.mk.injEq] at h
    obtain ⟨-, rfl⟩ := h
    have h4' : bytes = 4 := by omega
    subst h4'
    obtain ⟨a, b⟩ := readLoop_good (k := 4) (i := 0) (v := 0#32) (s := r.is) hg
    exact ⟨a, by simp only [readLE]; rw [b, hb]⟩
  · rw [if_neg h4] at h
    split at h
    · simp at h
    split at h
    · simp at h
    simp only [pure, Except.pure, Except.ok.injEq, Prod.mk.injEq] at h
    obtain ⟨-, rfl⟩ := h
    obtain ⟨a, b⟩ := readLoop_good (k := bytes) (i := 0) (v := 0#32) (s := r.is) hg
    exact ⟨a, by simp only [readLE, Int.toNat_natCast]; rw [b, hb]⟩

theorem Wav.frame_good {α : Type} {T : Sample α} {bytes : Nat} {stride n : Int} {k : Nat} : ∀ {c : Int} {r r' : Reader} {out out' : List α},
    r.bytes = some (bytes : Int) → Reader.frame T stride n k c r out = .ok (r', out') → r'.good = true →
    r.good = true ∧ r' = { r with is := { r.is with pos := r.is.pos + k * bytes } } := by
  induction k with
  | zero =>
    intro c r r' out out' hb h hg
    simp only [Reader.frame, Except.ok.injEq, Prod.mk.injEq] at h
    obtain ⟨rfl, -⟩ := h
    exact ⟨hg, by simp⟩
  | succ k ih =>
    intro c r r' out out' hb h hg
    simp only [Reader.frame, bind, Except.bind] at h
    split at h
    · simp at h
    rename_i p hp
    obtain ⟨v, r1⟩ := p
    simp only at h
    split at h
    · simp at h
    have hb1 : r1.bytes = some (bytes : Int) := by
      simp only [Reader.sample, hb, get!, bind, Except.bind] at hp
      split_ifs at hp
      · simp only [pure, Except.pure, Except.ok.injEq, Prod.mk.injEq] at hp
        obtain ⟨-, rfl⟩ := hp; rfl
      · split at hp
        · simp at hp
        split at hp
        · simp at hp
        simp only [pure, Except.pure, Except.ok.injEq, Prod.mk.injEq] at hp
        obtain ⟨-, rfl⟩ := hp; rfl
    obtain ⟨h1, h2⟩ := ih hb1 h hg
    obtain ⟨h3, h4⟩ := sample_good hb hp h1
    refine ⟨h3, ?_⟩
    rw [h2, h4]
    simp only [Reader.mk.injEq, IStream.mk.injEq, true_and, and_true]; ring

theorem Wav.frames_good {α : Type} {T : Sample α} {bytes : Nat} {stride channels : Int} {k : Nat} : ∀ {n : Int} {r r' : Reader} {out out' : List α},
    r.bytes = some (bytes : Int) → Reader.framesLoop T stride channels k n r out = .ok (r', out') → r'.good = true →
    r.good = true ∧ r' = { r with is := { r.is with pos := r.is.pos + k * (channels.toNat * bytes) } } := by
  induction k with
  | zero =>
    intro n r r' out out' hb h hg
    simp only [Reader.framesLoop, Except.ok.injEq, Prod.mk.injEq] at h
    obtain ⟨rfl, -⟩ := h
    exact ⟨hg, by simp⟩
  | succ k ih =>
    intro n r r' out out' hb h hg
    simp only [Reader.framesLoop, bind, Except.bind] at h
    split at h
    · simp at h
    rename_i p hp
    obtain ⟨r1, o1⟩ := p
    simp only at h
    have hb1 : r1.bytes = some (bytes : Int) := by
      have : ∀ (m : Nat) (c : Int) (r r1 : Reader) (out o1 : List α), r.bytes = some (bytes : Int) →
          Reader.frame T stride n m c r out = .ok (r1, o1) → r1.bytes = some (bytes : Int) := by
        intro m
        induction m with
        | zero =>
          intro c r r1 out o1 hb h
          simp only [Reader.frame, Except.ok.injEq, Prod.mk.injEq] at h
          rw [← h.1]; exact hb
        | succ m ihm =>
          intro c r r1 out o1 hb h
          simp only [Reader.frame, bind, Except.bind] at h
          split at h
          · simp at h
          rename_i p hp
          split at h
          · simp at h
          refine ihm _ _ _ _ _ ?_ h
          obtain ⟨v, r2⟩ := p
          simp only [Reader.sample, hb, get!, bind, Except.bind] at hp
          split_ifs at hp
          · simp only [pure, Except.pure, Except.ok.injEq, Prod.mk.injEq] at hp
            obtain ⟨-, rfl⟩ := hp; rfl
          · split at hp
            · simp at hp
            split at hp
            · simp at hp
            simp only [pure, Except.pure, Except.ok.injEq, Prod.mk.injEq] at hp
            obtain ⟨-, rfl⟩ := hp; rfl
      exact this _ _ _ _ _ _ hb hp
    obtain ⟨h1, h2⟩ := ih hb1 h hg
    obtain ⟨h3, h4⟩ := frame_good hb hp h1
    refine ⟨h3, ?_⟩
    rw [h2, h4]
    simp only [Reader.mk.injEq, IStream.mk.injEq, true_and, and_true]; ring

/-- **C23.** For any file: where reading `num` frames succeeds without reaching the end, `skip(num)` leaves the reader in the same state. -/
theorem C23_skip {α : Type} {T : Sample α} {r r' : Reader} {out out' : List α} {num : Nat} {stride : Int} {channels bytes : Nat}
    (hc : r.channels = some (channels : Int)) (hb : r.bytes = some (bytes : Int)) (hsize : num * channels * bytes ≤ 2147483647)
    (hsize' : num * channels ≤ 2147483647)
    (h : r.read T out num stride = .ok (r', out')) (hg : r'.good = true) : r.skip num = .ok r' := by
  simp only [Reader.read, hc, get!, bind, Except.bind, Int.toNat_natCast] at h
  obtain ⟨h1, h2⟩ := frames_good hb h hg
  have i1 : int32 ((num : Int) * (channels : Int)) = .ok ((num : Int) * (channels : Int)) := int32_ok (by exact_mod_cast (by omega : _ ∧ _))
  have i2 : int32 ((num : Int) * (channels : Int) * (bytes : Int)) = .ok ((num * channels * bytes : Nat) : Int) := by
    rw [int32_ok (by exact_mod_cast (by omega : _ ∧ _))]; push_cast; rfl
  simp only [Reader.skip, hc, hb, get!, bind, Except.bind, i1, i2, pure, Except.pure]
  rw [h2]
  have : r.is = ⟨r.is.data, r.is.pos, true⟩ := by
    obtain ⟨⟨d, p, o⟩, _⟩ := r
    simp only [Reader.good] at h1
    rw [h1]
  rw [this, seekCur_nat]
  simp only [Int.toNat_natCast, mul_assoc, hc, hb]

-- concrete sessions: `Codec` and the theorems above are met by real data
example : Codec (fieldSample (fun v : ℚ => round v) (fun _ => 0) (fun _ => 0)) 16 (1/2) (16384 / 32767) := by
  have := codec_16 (T := fieldSample (fun v : ℚ => round v) (fun _ => 0) (fun _ => 0)) (x := 1/2) (q := 16384)
    (by simp only [fieldSample]; norm_num) (by decide) (by decide)
  simpa [fieldSample] using this
example : ∀ v : ℚ, |((round v : Int) : ℚ) - v| ≤ 1 / 2 := fun v => by rw [abs_sub_comm]; exact abs_sub_round v
example : ((Writer.session 48000 32 2 (runCalls rawSample [.silence 1, .write [1#32, 2#32, 9#32, 0xffc00001#32, 4#32, 9#32] 2 3, .silence 1])).bind fun ops =>
    (Reader.open (OFile.replay ops).data).bind fun r => (r.skip 1).bind fun r => (r.read rawSample (List.replicate 4 7#32) 2).map fun x => (x.2, x.1.good)) =
    .ok ([1#32, 2#32, 0xffc00001#32, 4#32], true) := by decide +kernel
-- reading past the end is noticed
example : ((Writer.session 8000 16 1 (runCalls rawSample [.write [1#32, 2#32] 2 (-1)])).bind fun ops =>
    (Reader.open (OFile.replay ops).data).bind fun r => (r.read rawSample (List.replicate 3 7#32) 3).map fun x => x.1.good) =
    .ok false := by decide +kernel

end DSP
