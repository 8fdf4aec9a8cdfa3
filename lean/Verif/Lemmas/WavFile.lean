import Verif.Lemmas.Wav
import Verif.Spec.Wav

/-! The states of a file while `WriteWAV` works on it. -/

namespace DSP
namespace Wav
open Spec

/-- What a user does with an open writer: `write(buf, num, stride)` or `silence(num)`. -/
inductive Call (α : Type)
  | write (buf : List α) (num stride : Int)
  | silence (num : Int)

/-- The frames a call adds to the file. -/
def Call.frames {α : Type} : Call α → Nat
  | .write _ num _ => num.toNat
  | .silence num => num.toNat

/-- One call. -/
def Call.run {α : Type} (T : Sample α) (w : Writer) : Call α → M (List Op)
  | .write buf num stride => w.write T buf num stride
  | .silence num => w.silence num

/-- Runs the calls. -/
def runCalls {α : Type} (T : Sample α) : List (Call α) → Writer → M (List Op)
  | [], _ => .ok []
  | c :: cs, w => do
    let a ← c.run T w
    let b ← runCalls T cs w
    return a ++ b

theorem replay_append (a b : List Op) : OFile.replay (a ++ b) = b.foldl OFile.step (OFile.replay a) := by
  simp [OFile.replay, List.foldl_append]

theorem foldl_puts (bs d : List Byte) : (bs.map Op.put).foldl OFile.step ⟨d, d.length⟩ = ⟨d ++ bs, (d ++ bs).length⟩ := by
  induction bs generalizing d with
  | nil => simp
  | cons b bs ih =>
    simp only [List.map_cons, List.foldl_cons]
    have : OFile.step ⟨d, d.length⟩ (.put b) = ⟨d ++ [b], (d ++ [b]).length⟩ := by simp [OFile.step]
    rw [this, ih]; simp

theorem replay_puts (bs : List Byte) : OFile.replay (bs.map Op.put) = ⟨bs, bs.length⟩ := by
  have := foldl_puts bs []; simpa [OFile.replay] using this

theorem writeLE_eq (v : Int) (b : Nat) : writeLE v b = ((List.range b).map (byteOf v)).map Op.put := by
  simp [writeLE, byteOf]

theorem writer_open {rate bits channels : Int} (hF : HeaderFits rate bits channels) :
    ∃ w, Writer.open rate bits channels = .ok (w, (header rate channels w.bytes
      (byteOf (if w.bytes = 4 then 50 else 36) 0) (byteOf (if w.bytes = 4 then 50 else 36) 1) (byteOf (if w.bytes = 4 then 50 else 36) 2)
      (byteOf (if w.bytes = 4 then 50 else 36) 3) (byteOf 0 0) (byteOf 0 1) (byteOf 0 2) (byteOf 0 3)
      (byteOf (-1) 0) (byteOf (-1) 1) (byteOf (-1) 2) (byteOf (-1) 3)).map Op.put) ∧
      w = (Writer.init rate bits channels).1 := by
  obtain ⟨h1, h2, h3, h4, h5, h6⟩ := hF
  have hrc : -2147483648 ≤ rate * channels ∧ rate * channels ≤ 2147483647 := by
    unfold width at *; split_ifs at * <;> omega
  have hal : 1 ≤ channels * width bits := by unfold width at *; split_ifs at * <;> omega
  refine ⟨_, ?_, rfl⟩
  unfold Writer.open Writer.init
  by_cases e8 : bits = 8
  · subst e8
    simp only [width, if_true] at *
    simp only [int32_ok hrc, int32_ok (v := rate * channels * 1) (by omega), int32_ok (v := channels * 1) (by omega), bind, Except.bind]
    rfl
  · by_cases e16 : bits = 16
    · subst e16
      simp only [width, if_true, if_false, e8] at *
      simp only [int32_ok hrc, int32_ok (v := rate * channels * 2) (by omega), int32_ok (v := channels * 2) (by omega), bind, Except.bind]
      rfl
    · simp only [width, if_false, e8, e16] at *
      simp only [int32_ok hrc, int32_ok (v := rate * channels * 4) (by omega), int32_ok (v := channels * 4) (by omega), bind, Except.bind]
      rfl

/-- Put-only output of a given length. -/
def Puts (ops : List Op) (n : Nat) : Prop := ∃ bs : List Byte, ops = bs.map Op.put ∧ bs.length = n

theorem Puts.append {a b : List Op} {m n : Nat} (ha : Puts a m) (hb : Puts b n) : Puts (a ++ b) (m + n) := by
  obtain ⟨x, rfl, rfl⟩ := ha; obtain ⟨y, rfl, rfl⟩ := hb
  exact ⟨x ++ y, by simp, by simp⟩

theorem puts_writeLE (v : Int) (b : Nat) : Puts (writeLE v b) b := ⟨_, writeLE_eq v b, by simp⟩

theorem puts_sample {α : Type} {T : Sample α} {w : Writer} {x : α} {ops : List Op} (h : w.sample T x = .ok ops) :
    Puts ops w.bytes.toNat := by
  unfold Writer.sample at h
  by_cases h4 : w.bytes = 4
  · rw [if_pos h4] at h; simp only [Except.ok.injEq] at h; subst h; rw [h4]; exact puts_writeLE _ 4
  · rw [if_neg h4] at h
    simp only [bind, Except.bind] at h
    split at h
    · simp at h
    · simp only [pure, Except.pure, Except.ok.injEq] at h; subst h; exact puts_writeLE _ _

theorem puts_frame {α : Type} {T : Sample α} {w : Writer} {buf : List α} {stride n : Int} {k : Nat} {c : Int} {ops : List Op}
    (h : w.frame T buf stride n k c = .ok ops) : Puts ops (k * w.bytes.toNat) := by
  induction k generalizing c ops with
  | zero => simp only [Writer.frame, Except.ok.injEq] at h; subst h; exact ⟨[], rfl, by simp⟩
  | succ k ih =>
    simp only [Writer.frame, bind, Except.bind] at h
    split at h
    · simp at h
    · split at h
      · simp at h
      · rename_i h1
        split at h
        · simp at h
        · rename_i h2
          simp only [pure, Except.pure, Except.ok.injEq] at h; subst h
          have := (puts_sample h1).append (ih h2)
          rwa [show (k + 1) * w.bytes.toNat = w.bytes.toNat + k * w.bytes.toNat by ring]

theorem puts_frames {α : Type} {T : Sample α} {w : Writer} {buf : List α} {stride : Int} {k : Nat} {n : Int} {ops : List Op}
    (h : w.framesLoop T buf stride k n = .ok ops) : Puts ops (k * (w.channels.toNat * w.bytes.toNat)) := by
  induction k generalizing n ops with
  | zero => simp only [Writer.framesLoop, Except.ok.injEq] at h; subst h; exact ⟨[], rfl, by simp⟩
  | succ k ih =>
    simp only [Writer.framesLoop, bind, Except.bind] at h
    split at h
    · simp at h
    · rename_i h1
      split at h
      · simp at h
      · rename_i h2
        simp only [pure, Except.pure, Except.ok.injEq] at h; subst h
        have := (puts_frame h1).append (ih h2)
        rwa [show (k + 1) * (w.channels.toNat * w.bytes.toNat) = w.channels.toNat * w.bytes.toNat + k * (w.channels.toNat * w.bytes.toNat) by ring]

theorem puts_silence {w : Writer} {num : Int} {ops : List Op} (hc : 0 ≤ w.channels) (h : w.silence num = .ok ops) :
    Puts ops (num.toNat * (w.channels.toNat * w.bytes.toNat)) := by
  simp only [Writer.silence, int32, bind, Except.bind] at h
  split at h
  · simp at h
  · rename_i v hv
    simp only [pure, Except.pure, Except.ok.injEq] at h; subst h
    split_ifs at hv
    simp only [Except.ok.injEq] at hv; subst hv
    have : (num * w.channels).toNat = num.toNat * w.channels.toNat := by
      rcases le_or_gt 0 num with h | h
      · exact Int.toNat_mul h hc
      · rw [show num.toNat = 0 by omega, Nat.zero_mul, Int.toNat_eq_zero]; nlinarith
    rw [this, ← mul_assoc]
    generalize num.toNat * w.channels.toNat = k
    induction k with
    | zero => exact ⟨[], rfl, by simp⟩
    | succ k ih =>
      rw [List.replicate_succ, List.flatten_cons, show (k + 1) * w.bytes.toNat = w.bytes.toNat + k * w.bytes.toNat by ring]
      exact (puts_writeLE _ _).append ih

theorem puts_calls {α : Type} {T : Sample α} {w : Writer} {calls : List (Call α)} {ops : List Op} (hc : 0 ≤ w.channels)
    (h : runCalls T calls w = .ok ops) : Puts ops ((calls.map Call.frames).sum * (w.channels.toNat * w.bytes.toNat)) := by
  induction calls generalizing ops with
  | nil => simp only [runCalls, Except.ok.injEq] at h; subst h; exact ⟨[], rfl, by simp⟩
  | cons c cs ih =>
    simp only [runCalls, bind, Except.bind] at h
    split at h
    · simp at h
    · rename_i h1
      split at h
      · simp at h
      · rename_i h2
        simp only [pure, Except.pure, Except.ok.injEq] at h; subst h
        rw [List.map_cons, List.sum_cons, Nat.add_mul]
        refine Puts.append ?_ (ih h2)
        cases c with
        | write buf num stride => exact puts_frames h1
        | silence num => exact puts_silence hc h1

theorem word4_neg (x y z : Byte) : (word4 x y z (byteOf (-1) 3)).toInt < 0 := by
  have h : byteOf (-1) 3 = 255#8 := by decide
  have : (word4 x y z (byteOf (-1) 3)).msb = true := by
    rw [h, BitVec.msb_eq_getLsbD_last]; simp only [word4, BitVec.getLsbD_append]; rfl
  exact BitVec.toInt_neg_of_msb_true this

theorem framesOf_neg {bytes channels cs fs ds : Int} (h : ds ≤ 0) : framesOf bytes channels cs fs ds = some (-1) := by
  simp [framesOf, h]

theorem framesOf_full {bytes channels : Int} {n S : Nat} (hb : bytes = 1 ∨ bytes = 2 ∨ bytes = 4) (hc : 1 ≤ channels)
    (hn : (S : Int) = n * (channels * bytes)) :
    framesOf bytes channels (((if bytes = 4 then 58 else 44 : Nat) : Int) + S - 8) n S = some (if n = 0 then -1 else (n : Int)) := by
  have hal : 1 ≤ channels * bytes := by nlinarith [show 1 ≤ bytes by omega]
  by_cases h0 : n = 0
  · subst h0
    have : (S : Int) = 0 := by simpa using hn
    rw [framesOf_neg (by omega)]; simp
  · have hS : 1 ≤ (S : Int) := by
      rw [hn]; have : (1 : Int) ≤ n := by omega
      nlinarith
    unfold framesOf
    rw [if_neg (by split_ifs <;> push_cast <;> omega), if_neg (by split_ifs <;> push_cast <;> omega), if_neg h0]
    by_cases h4 : bytes = 4
    · rw [if_pos h4]
    · rw [if_neg h4, hn, Int.mul_tdiv_cancel _ (by omega)]

/-- The destructor's operations. -/
def closeOps (bytes : Int) (n S : Nat) : List Op :=
  let C : Int := ((if bytes = 4 then 58 else 44 : Nat) : Int) + S - 8
  [.seek 4, .put (byteOf C 0), .put (byteOf C 1), .put (byteOf C 2), .put (byteOf C 3)] ++
  (if bytes = 4 then [.seek 46, .put (byteOf n 0), .put (byteOf n 1), .put (byteOf n 2), .put (byteOf n 3)] else []) ++
  [.seek (if bytes = 4 then 54 else 40), .put (byteOf S 0), .put (byteOf S 1), .put (byteOf S 2), .put (byteOf S 3)]

theorem writer_close {w : Writer} {n S : Nat} (hb : w.bytes = 1 ∨ w.bytes = 2 ∨ w.bytes = 4) (hc : 1 ≤ w.channels)
    (ha : w.channels * w.bytes ≤ 32767)
    (hn : (S : Int) = n * (w.channels * w.bytes)) (hs : ((if w.bytes = 4 then 58 else 44 : Nat) : Int) + S ≤ 2147483647) :
    w.close ((if w.bytes = 4 then 58 else 44) + S) = .ok (closeOps w.bytes n S) := by
  obtain ⟨bytes, channels, rate, a, b, c, d⟩ := w
  simp only at *
  have hal : 1 ≤ channels * bytes := by nlinarith [show 1 ≤ bytes by omega]
  by_cases h4 : bytes = 4
  · subst h4
    simp only [if_true] at hs
    simp only [Writer.close, if_true]
    rw [int32_ok (by omega)]
    simp only [bind, Except.bind, M.ite, decide_true, if_true]
    rw [int32_ok (by omega)]
    have : ((58 + S : Nat) : Int) - (58 : Nat) = n * (4 * channels) := by push_cast; rw [hn]; ring
    have e2 : ((58 + S : Nat) : Int) - (58 : Nat) = S := by push_cast; ring
    simp only [show decide (4 * channels = 0) = false by simp; omega, Bool.false_eq_true, if_false, pure, Except.pure]
    rw [this, Int.mul_tdiv_cancel _ (by omega), ← this, e2]
    simp only [closeOps, if_true]
    push_cast
    rfl
  · simp only [h4, if_false] at hs
    simp only [Writer.close, h4, if_false]
    rw [int32_ok (by omega)]
    simp only [bind, Except.bind, M.ite, decide_false, Bool.false_eq_true, if_false, pure, Except.pure]
    have e2 : ((44 + S : Nat) : Int) - (44 : Nat) = S := by push_cast; ring
    rw [e2]
    simp only [closeOps, h4, if_false]
    push_cast
    rfl

theorem width_cases (bits : Int) : width bits = 1 ∨ width bits = 2 ∨ width bits = 4 := by unfold width; split_ifs <;> simp

theorem headerSize_eq (bits : Int) : headerSize bits = if width bits = 4 then 58 else 44 := by
  unfold headerSize width; split_ifs <;> simp_all

theorem init_bytes (rate bits channels : Int) : (Writer.init rate bits channels).1.bytes = width bits ∧
    (Writer.init rate bits channels).1.channels = channels := by
  unfold Writer.init width; split_ifs <;> simp

theorem header_length (rate channels bytes : Int) (c0 c1 c2 c3 f0 f1 f2 f3 d0 d1 d2 d3 : Byte) :
    (header rate channels bytes c0 c1 c2 c3 f0 f1 f2 f3 d0 d1 d2 d3).length = if bytes = 4 then 58 else 44 := by
  unfold header; split_ifs <;> rfl

/-- A header as the writer leaves it at some point: the right format, and variable fields that announce `fr` frames. -/
def Announces (rate channels bytes fr : Int) (hdr : List Byte) : Prop :=
  ∃ c0 c1 c2 c3 f0 f1 f2 f3 d0 d1 d2 d3 : Byte, hdr = header rate channels bytes c0 c1 c2 c3 f0 f1 f2 f3 d0 d1 d2 d3 ∧
    framesOf bytes channels (word4 c0 c1 c2 c3).toInt (word4 f0 f1 f2 f3).toInt (word4 d0 d1 d2 d3).toInt = some fr ∧
    (word4 d0 d1 d2 d3).toInt + overheadOf bytes ≤ 2147483647

theorem announces_none {rate channels bytes : Int} {c0 c1 c2 c3 f0 f1 f2 f3 d0 d1 d2 d3 : Byte} {hdr : List Byte}
    (h : hdr = header rate channels bytes c0 c1 c2 c3 f0 f1 f2 f3 d0 d1 d2 d3) (hd : d3 = byteOf (-1) 3) :
    Announces rate channels bytes (-1) hdr := by
  have := word4_neg d0 d1 d2
  rw [← hd] at this
  exact ⟨_, _, _, _, _, _, _, _, _, _, _, _, h, framesOf_neg (by omega), by unfold overheadOf; split_ifs <;> push_cast <;> omega⟩

theorem announces_float (rate channels : Int) (c0 c1 c2 c3 f0 f1 f2 f3 d0 d1 d2 : Byte) :
    Announces rate channels 4 (-1) (floatHeader rate channels c0 c1 c2 c3 f0 f1 f2 f3 d0 d1 d2 (byteOf (-1) 3)) :=
  announces_none (by rw [header, if_pos rfl]) rfl

theorem announces_pcm {bytes : Int} (h : ¬ bytes = 4) (rate channels : Int) (c0 c1 c2 c3 d0 d1 d2 : Byte) :
    Announces rate channels bytes (-1) (pcmHeader rate channels bytes c0 c1 c2 c3 d0 d1 d2 (byteOf (-1) 3)) :=
  announces_none (f0 := 0) (f1 := 0) (f2 := 0) (f3 := 0) (by rw [header, if_neg h]) rfl

theorem float_length (r ch : Int) (c0 c1 c2 c3 f0 f1 f2 f3 d0 d1 d2 d3 : Byte) :
    (floatHeader r ch c0 c1 c2 c3 f0 f1 f2 f3 d0 d1 d2 d3).length = 58 := Eq.trans rfl rfl

theorem pcm_length (r ch b : Int) (c0 c1 c2 c3 d0 d1 d2 d3 : Byte) :
    (pcmHeader r ch b c0 c1 c2 c3 d0 d1 d2 d3).length = 44 := Eq.trans rfl rfl

theorem step_put {d : List Byte} {p : Nat} {x : Byte} (h : p < d.length) : OFile.step ⟨d, p⟩ (.put x) = ⟨d.set p x, p + 1⟩ := by
  simp [OFile.step, h]

theorem step_seek (d : List Byte) (p q : Nat) : OFile.step ⟨d, p⟩ (.seek q) = ⟨d, q⟩ := Eq.trans rfl rfl

theorem fput4 (r ch : Int) (c0 c1 c2 c3 f0 f1 f2 f3 d0 d1 d2 d3 x : Byte) (P : List Byte) : OFile.step ⟨floatHeader r ch c0 c1 c2 c3 f0 f1 f2 f3 d0 d1 d2 d3 ++ P, 4⟩ (.put x) = ⟨floatHeader r ch x c1 c2 c3 f0 f1 f2 f3 d0 d1 d2 d3 ++ P, 5⟩ := by
  rw [step_put (by rw [List.length_append, float_length]; omega)]; rfl
theorem fput5 (r ch : Int) (c0 c1 c2 c3 f0 f1 f2 f3 d0 d1 d2 d3 x : Byte) (P : List Byte) : OFile.step ⟨floatHeader r ch c0 c1 c2 c3 f0 f1 f2 f3 d0 d1 d2 d3 ++ P, 5⟩ (.put x) = ⟨floatHeader r ch c0 x c2 c3 f0 f1 f2 f3 d0 d1 d2 d3 ++ P, 6⟩ := by
  rw [step_put (by rw [List.length_append, float_length]; omega)]; rfl
theorem fput6 (r ch : Int) (c0 c1 c2 c3 f0 f1 f2 f3 d0 d1 d2 d3 x : Byte) (P : List Byte) : OFile.step ⟨floatHeader r ch c0 c1 c2 c3 f0 f1 f2 f3 d0 d1 d2 d3 ++ P, 6⟩ (.put x) = ⟨floatHeader r ch c0 c1 x c3 f0 f1 f2 f3 d0 d1 d2 d3 ++ P, 7⟩ := by
  rw [step_put (by rw [List.length_append, float_length]; omega)]; rfl
theorem fput7 (r ch : Int) (c0 c1 c2 c3 f0 f1 f2 f3 d0 d1 d2 d3 x : Byte) (P : List Byte) : OFile.step ⟨floatHeader r ch c0 c1 c2 c3 f0 f1 f2 f3 d0 d1 d2 d3 ++ P, 7⟩ (.put x) = ⟨floatHeader r ch c0 c1 c2 x f0 f1 f2 f3 d0 d1 d2 d3 ++ P, 8⟩ := by
  rw [step_put (by rw [List.length_append, float_length]; omega)]; rfl
theorem fput46 (r ch : Int) (c0 c1 c2 c3 f0 f1 f2 f3 d0 d1 d2 d3 x : Byte) (P : List Byte) : OFile.step ⟨floatHeader r ch c0 c1 c2 c3 f0 f1 f2 f3 d0 d1 d2 d3 ++ P, 46⟩ (.put x) = ⟨floatHeader r ch c0 c1 c2 c3 x f1 f2 f3 d0 d1 d2 d3 ++ P, 47⟩ := by
  rw [step_put (by rw [List.length_append, float_length]; omega)]; rfl
theorem fput47 (r ch : Int) (c0 c1 c2 c3 f0 f1 f2 f3 d0 d1 d2 d3 x : Byte) (P : List Byte) : OFile.step ⟨floatHeader r ch c0 c1 c2 c3 f0 f1 f2 f3 d0 d1 d2 d3 ++ P, 47⟩ (.put x) = ⟨floatHeader r ch c0 c1 c2 c3 f0 x f2 f3 d0 d1 d2 d3 ++ P, 48⟩ := by
  rw [step_put (by rw [List.length_append, float_length]; omega)]; rfl
theorem fput48 (r ch : Int) (c0 c1 c2 c3 f0 f1 f2 f3 d0 d1 d2 d3 x : Byte) (P : List Byte) : OFile.step ⟨floatHeader r ch c0 c1 c2 c3 f0 f1 f2 f3 d0 d1 d2 d3 ++ P, 48⟩ (.put x) = ⟨floatHeader r ch c0 c1 c2 c3 f0 f1 x f3 d0 d1 d2 d3 ++ P, 49⟩ := by
  rw [step_put (by rw [List.length_append, float_length]; omega)]; rfl
theorem fput49 (r ch : Int) (c0 c1 c2 c3 f0 f1 f2 f3 d0 d1 d2 d3 x : Byte) (P : List Byte) : OFile.step ⟨floatHeader r ch c0 c1 c2 c3 f0 f1 f2 f3 d0 d1 d2 d3 ++ P, 49⟩ (.put x) = ⟨floatHeader r ch c0 c1 c2 c3 f0 f1 f2 x d0 d1 d2 d3 ++ P, 50⟩ := by
  rw [step_put (by rw [List.length_append, float_length]; omega)]; rfl
theorem fput54 (r ch : Int) (c0 c1 c2 c3 f0 f1 f2 f3 d0 d1 d2 d3 x : Byte) (P : List Byte) : OFile.step ⟨floatHeader r ch c0 c1 c2 c3 f0 f1 f2 f3 d0 d1 d2 d3 ++ P, 54⟩ (.put x) = ⟨floatHeader r ch c0 c1 c2 c3 f0 f1 f2 f3 x d1 d2 d3 ++ P, 55⟩ := by
  rw [step_put (by rw [List.length_append, float_length]; omega)]; rfl
theorem fput55 (r ch : Int) (c0 c1 c2 c3 f0 f1 f2 f3 d0 d1 d2 d3 x : Byte) (P : List Byte) : OFile.step ⟨floatHeader r ch c0 c1 c2 c3 f0 f1 f2 f3 d0 d1 d2 d3 ++ P, 55⟩ (.put x) = ⟨floatHeader r ch c0 c1 c2 c3 f0 f1 f2 f3 d0 x d2 d3 ++ P, 56⟩ := by
  rw [step_put (by rw [List.length_append, float_length]; omega)]; rfl
theorem fput56 (r ch : Int) (c0 c1 c2 c3 f0 f1 f2 f3 d0 d1 d2 d3 x : Byte) (P : List Byte) : OFile.step ⟨floatHeader r ch c0 c1 c2 c3 f0 f1 f2 f3 d0 d1 d2 d3 ++ P, 56⟩ (.put x) = ⟨floatHeader r ch c0 c1 c2 c3 f0 f1 f2 f3 d0 d1 x d3 ++ P, 57⟩ := by
  rw [step_put (by rw [List.length_append, float_length]; omega)]; rfl
theorem fput57 (r ch : Int) (c0 c1 c2 c3 f0 f1 f2 f3 d0 d1 d2 d3 x : Byte) (P : List Byte) : OFile.step ⟨floatHeader r ch c0 c1 c2 c3 f0 f1 f2 f3 d0 d1 d2 d3 ++ P, 57⟩ (.put x) = ⟨floatHeader r ch c0 c1 c2 c3 f0 f1 f2 f3 d0 d1 d2 x ++ P, 58⟩ := by
  rw [step_put (by rw [List.length_append, float_length]; omega)]; rfl
theorem pput4 (r ch b : Int) (c0 c1 c2 c3 d0 d1 d2 d3 x : Byte) (P : List Byte) : OFile.step ⟨pcmHeader r ch b c0 c1 c2 c3 d0 d1 d2 d3 ++ P, 4⟩ (.put x) = ⟨pcmHeader r ch b x c1 c2 c3 d0 d1 d2 d3 ++ P, 5⟩ := by
  rw [step_put (by rw [List.length_append, pcm_length]; omega)]; rfl
theorem pput5 (r ch b : Int) (c0 c1 c2 c3 d0 d1 d2 d3 x : Byte) (P : List Byte) : OFile.step ⟨pcmHeader r ch b c0 c1 c2 c3 d0 d1 d2 d3 ++ P, 5⟩ (.put x) = ⟨pcmHeader r ch b c0 x c2 c3 d0 d1 d2 d3 ++ P, 6⟩ := by
  rw [step_put (by rw [List.length_append, pcm_length]; omega)]; rfl
theorem pput6 (r ch b : Int) (c0 c1 c2 c3 d0 d1 d2 d3 x : Byte) (P : List Byte) : OFile.step ⟨pcmHeader r ch b c0 c1 c2 c3 d0 d1 d2 d3 ++ P, 6⟩ (.put x) = ⟨pcmHeader r ch b c0 c1 x c3 d0 d1 d2 d3 ++ P, 7⟩ := by
  rw [step_put (by rw [List.length_append, pcm_length]; omega)]; rfl
theorem pput7 (r ch b : Int) (c0 c1 c2 c3 d0 d1 d2 d3 x : Byte) (P : List Byte) : OFile.step ⟨pcmHeader r ch b c0 c1 c2 c3 d0 d1 d2 d3 ++ P, 7⟩ (.put x) = ⟨pcmHeader r ch b c0 c1 c2 x d0 d1 d2 d3 ++ P, 8⟩ := by
  rw [step_put (by rw [List.length_append, pcm_length]; omega)]; rfl
theorem pput40 (r ch b : Int) (c0 c1 c2 c3 d0 d1 d2 d3 x : Byte) (P : List Byte) : OFile.step ⟨pcmHeader r ch b c0 c1 c2 c3 d0 d1 d2 d3 ++ P, 40⟩ (.put x) = ⟨pcmHeader r ch b c0 c1 c2 c3 x d1 d2 d3 ++ P, 41⟩ := by
  rw [step_put (by rw [List.length_append, pcm_length]; omega)]; rfl
theorem pput41 (r ch b : Int) (c0 c1 c2 c3 d0 d1 d2 d3 x : Byte) (P : List Byte) : OFile.step ⟨pcmHeader r ch b c0 c1 c2 c3 d0 d1 d2 d3 ++ P, 41⟩ (.put x) = ⟨pcmHeader r ch b c0 c1 c2 c3 d0 x d2 d3 ++ P, 42⟩ := by
  rw [step_put (by rw [List.length_append, pcm_length]; omega)]; rfl
theorem pput42 (r ch b : Int) (c0 c1 c2 c3 d0 d1 d2 d3 x : Byte) (P : List Byte) : OFile.step ⟨pcmHeader r ch b c0 c1 c2 c3 d0 d1 d2 d3 ++ P, 42⟩ (.put x) = ⟨pcmHeader r ch b c0 c1 c2 c3 d0 d1 x d3 ++ P, 43⟩ := by
  rw [step_put (by rw [List.length_append, pcm_length]; omega)]; rfl
theorem pput43 (r ch b : Int) (c0 c1 c2 c3 d0 d1 d2 d3 x : Byte) (P : List Byte) : OFile.step ⟨pcmHeader r ch b c0 c1 c2 c3 d0 d1 d2 d3 ++ P, 43⟩ (.put x) = ⟨pcmHeader r ch b c0 c1 c2 c3 d0 d1 d2 x ++ P, 44⟩ := by
  rw [step_put (by rw [List.length_append, pcm_length]; omega)]; rfl

/-- The states of the file while the destructor works. -/
theorem close_states {rate channels bytes : Int} {n : Nat} {payload : List Byte} (hb : bytes = 1 ∨ bytes = 2 ∨ bytes = 4)
    (hc : 1 ≤ channels) (hn : (payload.length : Int) = n * (channels * bytes))
    (hs : ((if bytes = 4 then 58 else 44 : Nat) : Int) + payload.length ≤ 2147483647)
    {c0 c1 c2 c3 f0 f1 f2 f3 : Byte} {pos : Nat} {hdr : List Byte}
    (hh : hdr = header rate channels bytes c0 c1 c2 c3 f0 f1 f2 f3 (byteOf (-1) 0) (byteOf (-1) 1) (byteOf (-1) 2) (byteOf (-1) 3)) :
    (∃ hdr', ((closeOps bytes n payload.length).foldl OFile.step ⟨hdr ++ payload, pos⟩).data = hdr' ++ payload ∧
      Announces rate channels bytes (if n = 0 then -1 else (n : Int)) hdr') ∧
    ∀ j, ∃ hdr' fr, (((closeOps bytes n payload.length).take j).foldl OFile.step ⟨hdr ++ payload, pos⟩).data = hdr' ++ payload ∧
      Announces rate channels bytes fr hdr' ∧ (fr = -1 ∨ fr = n) := by
  have hfull := framesOf_full hb hc hn
  have hS : -2147483648 ≤ (payload.length : Int) ∧ (payload.length : Int) ≤ 2147483647 := by split_ifs at hs <;> omega
  have hC : -2147483648 ≤ ((if bytes = 4 then 58 else 44 : Nat) : Int) + (payload.length : Int) - 8 ∧
      ((if bytes = 4 then 58 else 44 : Nat) : Int) + (payload.length : Int) - 8 ≤ 2147483647 := by omega
  have hN : -2147483648 ≤ (n : Int) ∧ (n : Int) ≤ 2147483647 := by
    have : 1 ≤ channels * bytes := by nlinarith [show 1 ≤ bytes by omega]
    have : (n : Int) ≤ payload.length := by nlinarith
    omega
  have hw : ∀ v : Int, -2147483648 ≤ v ∧ v ≤ 2147483647 → (word4 (byteOf v 0) (byteOf v 1) (byteOf v 2) (byteOf v 3)).toInt = v := by
    intro v hv; rw [word4_byteOf, toInt_ofInt32 hv]
  by_cases h4 : bytes = 4
  · subst h4
    have hall : Announces rate channels 4 (if n = 0 then -1 else (n : Int)) (floatHeader rate channels
        (byteOf (58 + payload.length - 8) 0) (byteOf (58 + payload.length - 8) 1) (byteOf (58 + payload.length - 8) 2) (byteOf (58 + payload.length - 8) 3)
        (byteOf n 0) (byteOf n 1) (byteOf n 2) (byteOf n 3)
        (byteOf payload.length 0) (byteOf payload.length 1) (byteOf payload.length 2) (byteOf payload.length 3)) := by
      simp only [if_true] at hfull hC
      push_cast at hfull hC
      exact ⟨_, _, _, _, _, _, _, _, _, _, _, _, rfl, by rw [hw _ hC, hw _ hN, hw _ hS]; exact hfull, by rw [hw _ hS]; simp only [if_true] at hs; simp only [overheadOf, if_true]; omega⟩
    have hall2 : ∃ fr, Announces rate channels 4 fr (floatHeader rate channels
        (byteOf (58 + payload.length - 8) 0) (byteOf (58 + payload.length - 8) 1) (byteOf (58 + payload.length - 8) 2) (byteOf (58 + payload.length - 8) 3)
        (byteOf n 0) (byteOf n 1) (byteOf n 2) (byteOf n 3)
        (byteOf payload.length 0) (byteOf payload.length 1) (byteOf payload.length 2) (byteOf payload.length 3)) ∧ (fr = -1 ∨ fr = n) :=
      ⟨_, hall, by split_ifs <;> simp⟩
    rw [header, if_pos rfl] at hh
    subst hh
    have hops : closeOps 4 n payload.length = [.seek 4, .put (byteOf (58 + payload.length - 8) 0), .put (byteOf (58 + payload.length - 8) 1),
        .put (byteOf (58 + payload.length - 8) 2), .put (byteOf (58 + payload.length - 8) 3),
        .seek 46, .put (byteOf n 0), .put (byteOf n 1), .put (byteOf n 2), .put (byteOf n 3),
        .seek 54, .put (byteOf payload.length 0), .put (byteOf payload.length 1), .put (byteOf payload.length 2), .put (byteOf payload.length 3)] := by
      simp only [closeOps, if_true, Nat.cast_ofNat, List.cons_append, List.nil_append]
    rw [hops]
    constructor
    · refine ⟨_, ?_, hall⟩
      rw [List.foldl_cons, step_seek, List.foldl_cons, fput4, List.foldl_cons, fput5, List.foldl_cons, fput6, List.foldl_cons, fput7, List.foldl_cons, step_seek, List.foldl_cons, fput46, List.foldl_cons, fput47, List.foldl_cons, fput48, List.foldl_cons, fput49, List.foldl_cons, step_seek, List.foldl_cons, fput54, List.foldl_cons, fput55, List.foldl_cons, fput56, List.foldl_cons, fput57, List.foldl_nil]
    · intro j
      by_cases hj : j < 15
      · interval_cases j
        · rw [List.take_zero, List.foldl_nil]
          exact ⟨_, -1, rfl, announces_float .., .inl rfl⟩
        · rw [List.take_succ_cons, List.take_zero, List.foldl_cons, step_seek, List.foldl_nil]
          exact ⟨_, -1, rfl, announces_float .., .inl rfl⟩
        · rw [List.take_succ_cons, List.take_succ_cons, List.take_zero, List.foldl_cons, step_seek, List.foldl_cons, fput4, List.foldl_nil]
          exact ⟨_, -1, rfl, announces_float .., .inl rfl⟩
        · rw [List.take_succ_cons, List.take_succ_cons, List.take_succ_cons, List.take_zero, List.foldl_cons, step_seek, List.foldl_cons, fput4, List.foldl_cons, fput5, List.foldl_nil]
          exact ⟨_, -1, rfl, announces_float .., .inl rfl⟩
        · rw [List.take_succ_cons, List.take_succ_cons, List.take_succ_cons, List.take_succ_cons, List.take_zero, List.foldl_cons, step_seek, List.foldl_cons, fput4, List.foldl_cons, fput5, List.foldl_cons, fput6, List.foldl_nil]
          exact ⟨_, -1, rfl, announces_float .., .inl rfl⟩
        · rw [List.take_succ_cons, List.take_succ_cons, List.take_succ_cons, List.take_succ_cons, List.take_succ_cons, List.take_zero, List.foldl_cons, step_seek, List.foldl_cons, fput4, List.foldl_cons, fput5, List.foldl_cons, fput6, List.foldl_cons, fput7, List.foldl_nil]
          exact ⟨_, -1, rfl, announces_float .., .inl rfl⟩
        · rw [List.take_succ_cons, List.take_succ_cons, List.take_succ_cons, List.take_succ_cons, List.take_succ_cons, List.take_succ_cons, List.take_zero, List.foldl_cons, step_seek, List.foldl_cons, fput4, List.foldl_cons, fput5, List.foldl_cons, fput6, List.foldl_cons, fput7, List.foldl_cons, step_seek, List.foldl_nil]
          exact ⟨_, -1, rfl, announces_float .., .inl rfl⟩
        · rw [List.take_succ_cons, List.take_succ_cons, List.take_succ_cons, List.take_succ_cons, List.take_succ_cons, List.take_succ_cons, List.take_succ_cons, List.take_zero, List.foldl_cons, step_seek, List.foldl_cons, fput4, List.foldl_cons, fput5, List.foldl_cons, fput6, List.foldl_cons, fput7, List.foldl_cons, step_seek, List.foldl_cons, fput46, List.foldl_nil]
          exact ⟨_, -1, rfl, announces_float .., .inl rfl⟩
        · rw [List.take_succ_cons, List.take_succ_cons, List.take_succ_cons, List.take_succ_cons, List.take_succ_cons, List.take_succ_cons, List.take_succ_cons, List.take_succ_cons, List.take_zero, List.foldl_cons, step_seek, List.foldl_cons, fput4, List.foldl_cons, fput5, List.foldl_cons, fput6, List.foldl_cons, fput7, List.foldl_cons, step_seek, List.foldl_cons, fput46, List.foldl_cons, fput47, List.foldl_nil]
          exact ⟨_, -1, rfl, announces_float .., .inl rfl⟩
        · rw [List.take_succ_cons, List.take_succ_cons, List.take_succ_cons, List.take_succ_cons, List.take_succ_cons, List.take_succ_cons, List.take_succ_cons, List.take_succ_cons, List.take_succ_cons, List.take_zero, List.foldl_cons, step_seek, List.foldl_cons, fput4, List.foldl_cons, fput5, List.foldl_cons, fput6, List.foldl_cons, fput7, List.foldl_cons, step_seek, List.foldl_cons, fput46, List.foldl_cons, fput47, List.foldl_cons, fput48, List.foldl_nil]
          exact ⟨_, -1, rfl, announces_float .., .inl rfl⟩
        · rw [List.take_succ_cons, List.take_succ_cons, List.take_succ_cons, List.take_succ_cons, List.take_succ_cons, List.take_succ_cons, List.take_succ_cons, List.take_succ_cons, List.take_succ_cons, List.take_succ_cons, List.take_zero, List.foldl_cons, step_seek, List.foldl_cons, fput4, List.foldl_cons, fput5, List.foldl_cons, fput6, List.foldl_cons, fput7, List.foldl_cons, step_seek, List.foldl_cons, fput46, List.foldl_cons, fput47, List.foldl_cons, fput48, List.foldl_cons, fput49, List.foldl_nil]
          exact ⟨_, -1, rfl, announces_float .., .inl rfl⟩
        · rw [List.take_succ_cons, List.take_succ_cons, List.take_succ_cons, List.take_succ_cons, List.take_succ_cons, List.take_succ_cons, List.take_succ_cons, List.take_succ_cons, List.take_succ_cons, List.take_succ_cons, List.take_succ_cons, List.take_zero, List.foldl_cons, step_seek, List.foldl_cons, fput4, List.foldl_cons, fput5, List.foldl_cons, fput6, List.foldl_cons, fput7, List.foldl_cons, step_seek, List.foldl_cons, fput46, List.foldl_cons, fput47, List.foldl_cons, fput48, List.foldl_cons, fput49, List.foldl_cons, step_seek, List.foldl_nil]
          exact ⟨_, -1, rfl, announces_float .., .inl rfl⟩
        · rw [List.take_succ_cons, List.take_succ_cons, List.take_succ_cons, List.take_succ_cons, List.take_succ_cons, List.take_succ_cons, List.take_succ_cons, List.take_succ_cons, List.take_succ_cons, List.take_succ_cons, List.take_succ_cons, List.take_succ_cons, List.take_zero, List.foldl_cons, step_seek, List.foldl_cons, fput4, List.foldl_cons, fput5, List.foldl_cons, fput6, List.foldl_cons, fput7, List.foldl_cons, step_seek, List.foldl_cons, fput46, List.foldl_cons, fput47, List.foldl_cons, fput48, List.foldl_cons, fput49, List.foldl_cons, step_seek, List.foldl_cons, fput54, List.foldl_nil]
          exact ⟨_, -1, rfl, announces_float .., .inl rfl⟩
        · rw [List.take_succ_cons, List.take_succ_cons, List.take_succ_cons, List.take_succ_cons, List.take_succ_cons, List.take_succ_cons, List.take_succ_cons, List.take_succ_cons, List.take_succ_cons, List.take_succ_cons, List.take_succ_cons, List.take_succ_cons, List.take_succ_cons, List.take_zero, List.foldl_cons, step_seek, List.foldl_cons, fput4, List.foldl_cons, fput5, List.foldl_cons, fput6, List.foldl_cons, fput7, List.foldl_cons, step_seek, List.foldl_cons, fput46, List.foldl_cons, fput47, List.foldl_cons, fput48, List.foldl_cons, fput49, List.foldl_cons, step_seek, List.foldl_cons, fput54, List.foldl_cons, fput55, List.foldl_nil]
          exact ⟨_, -1, rfl, announces_float .., .inl rfl⟩
        · rw [List.take_succ_cons, List.take_succ_cons, List.take_succ_cons, List.take_succ_cons, List.take_succ_cons, List.take_succ_cons, List.take_succ_cons, List.take_succ_cons, List.take_succ_cons, List.take_succ_cons, List.take_succ_cons, List.take_succ_cons, List.take_succ_cons, List.take_succ_cons, List.take_zero, List.foldl_cons, step_seek, List.foldl_cons, fput4, List.foldl_cons, fput5, List.foldl_cons, fput6, List.foldl_cons, fput7, List.foldl_cons, step_seek, List.foldl_cons, fput46, List.foldl_cons, fput47, List.foldl_cons, fput48, List.foldl_cons, fput49, List.foldl_cons, step_seek, List.foldl_cons, fput54, List.foldl_cons, fput55, List.foldl_cons, fput56, List.foldl_nil]
          exact ⟨_, -1, rfl, announces_float .., .inl rfl⟩
      · rw [List.take_of_length_le (by simp; omega)]
        obtain ⟨fr, h1, h2⟩ := hall2
        refine ⟨_, fr, ?_, h1, h2⟩
        rw [List.foldl_cons, step_seek, List.foldl_cons, fput4, List.foldl_cons, fput5, List.foldl_cons, fput6, List.foldl_cons, fput7, List.foldl_cons, step_seek, List.foldl_cons, fput46, List.foldl_cons, fput47, List.foldl_cons, fput48, List.foldl_cons, fput49, List.foldl_cons, step_seek, List.foldl_cons, fput54, List.foldl_cons, fput55, List.foldl_cons, fput56, List.foldl_cons, fput57, List.foldl_nil]
  · rw [header, if_neg h4] at hh
    subst hh
    have hall : Announces rate channels bytes (if n = 0 then -1 else (n : Int)) (pcmHeader rate channels bytes
        (byteOf (44 + payload.length - 8) 0) (byteOf (44 + payload.length - 8) 1) (byteOf (44 + payload.length - 8) 2) (byteOf (44 + payload.length - 8) 3)
        (byteOf payload.length 0) (byteOf payload.length 1) (byteOf payload.length 2) (byteOf payload.length 3)) := by
      simp only [h4, if_false] at hfull hC
      push_cast at hfull hC
      refine ⟨_, _, _, _, byteOf n 0, byteOf n 1, byteOf n 2, byteOf n 3, _, _, _, _, by rw [header, if_neg h4], by rw [hw _ hC, hw _ hN, hw _ hS]; exact hfull, by rw [hw _ hS]; simp only [h4, if_false] at hs; simp only [overheadOf, h4, if_false]; omega⟩
    have hall2 : ∃ fr, Announces rate channels bytes fr (pcmHeader rate channels bytes
        (byteOf (44 + payload.length - 8) 0) (byteOf (44 + payload.length - 8) 1) (byteOf (44 + payload.length - 8) 2) (byteOf (44 + payload.length - 8) 3)
        (byteOf payload.length 0) (byteOf payload.length 1) (byteOf payload.length 2) (byteOf payload.length 3)) ∧ (fr = -1 ∨ fr = n) :=
      ⟨_, hall, by split_ifs <;> simp⟩
    have hops : closeOps bytes n payload.length = [.seek 4, .put (byteOf (44 + payload.length - 8) 0), .put (byteOf (44 + payload.length - 8) 1),
        .put (byteOf (44 + payload.length - 8) 2), .put (byteOf (44 + payload.length - 8) 3),
        .seek 40, .put (byteOf payload.length 0), .put (byteOf payload.length 1), .put (byteOf payload.length 2), .put (byteOf payload.length 3)] := by
      simp only [closeOps, h4, if_false, Nat.cast_ofNat, List.cons_append, List.nil_append]
    rw [hops]
    constructor
    · refine ⟨_, ?_, hall⟩
      rw [List.foldl_cons, step_seek, List.foldl_cons, pput4, List.foldl_cons, pput5, List.foldl_cons, pput6, List.foldl_cons, pput7, List.foldl_cons, step_seek, List.foldl_cons, pput40, List.foldl_cons, pput41, List.foldl_cons, pput42, List.foldl_cons, pput43, List.foldl_nil]
    · intro j
      by_cases hj : j < 10
      · interval_cases j
        · rw [List.take_zero, List.foldl_nil]
          exact ⟨_, -1, rfl, announces_pcm h4 .., .inl rfl⟩
        · rw [List.take_succ_cons, List.take_zero, List.foldl_cons, step_seek, List.foldl_nil]
          exact ⟨_, -1, rfl, announces_pcm h4 .., .inl rfl⟩
        · rw [List.take_succ_cons, List.take_succ_cons, List.take_zero, List.foldl_cons, step_seek, List.foldl_cons, pput4, List.foldl_nil]
          exact ⟨_, -1, rfl, announces_pcm h4 .., .inl rfl⟩
        · rw [List.take_succ_cons, List.take_succ_cons, List.take_succ_cons, List.take_zero, List.foldl_cons, step_seek, List.foldl_cons, pput4, List.foldl_cons, pput5, List.foldl_nil]
          exact ⟨_, -1, rfl, announces_pcm h4 .., .inl rfl⟩
        · rw [List.take_succ_cons, List.take_succ_cons, List.take_succ_cons, List.take_succ_cons, List.take_zero, List.foldl_cons, step_seek, List.foldl_cons, pput4, List.foldl_cons, pput5, List.foldl_cons, pput6, List.foldl_nil]
          exact ⟨_, -1, rfl, announces_pcm h4 .., .inl rfl⟩
        · rw [List.take_succ_cons, List.take_succ_cons, List.take_succ_cons, List.take_succ_cons, List.take_succ_cons, List.take_zero, List.foldl_cons, step_seek, List.foldl_cons, pput4, List.foldl_cons, pput5, List.foldl_cons, pput6, List.foldl_cons, pput7, List.foldl_nil]
          exact ⟨_, -1, rfl, announces_pcm h4 .., .inl rfl⟩
        · rw [List.take_succ_cons, List.take_succ_cons, List.take_succ_cons, List.take_succ_cons, List.take_succ_cons, List.take_succ_cons, List.take_zero, List.foldl_cons, step_seek, List.foldl_cons, pput4, List.foldl_cons, pput5, List.foldl_cons, pput6, List.foldl_cons, pput7, List.foldl_cons, step_seek, List.foldl_nil]
          exact ⟨_, -1, rfl, announces_pcm h4 .., .inl rfl⟩
        · rw [List.take_succ_cons, List.take_succ_cons, List.take_succ_cons, List.take_succ_cons, List.take_succ_cons, List.take_succ_cons, List.take_succ_cons, List.take_zero, List.foldl_cons, step_seek, List.foldl_cons, pput4, List.foldl_cons, pput5, List.foldl_cons, pput6, List.foldl_cons, pput7, List.foldl_cons, step_seek, List.foldl_cons, pput40, List.foldl_nil]
          exact ⟨_, -1, rfl, announces_pcm h4 .., .inl rfl⟩
        · rw [List.take_succ_cons, List.take_succ_cons, List.take_succ_cons, List.take_succ_cons, List.take_succ_cons, List.take_succ_cons, List.take_succ_cons, List.take_succ_cons, List.take_zero, List.foldl_cons, step_seek, List.foldl_cons, pput4, List.foldl_cons, pput5, List.foldl_cons, pput6, List.foldl_cons, pput7, List.foldl_cons, step_seek, List.foldl_cons, pput40, List.foldl_cons, pput41, List.foldl_nil]
          exact ⟨_, -1, rfl, announces_pcm h4 .., .inl rfl⟩
        · rw [List.take_succ_cons, List.take_succ_cons, List.take_succ_cons, List.take_succ_cons, List.take_succ_cons, List.take_succ_cons, List.take_succ_cons, List.take_succ_cons, List.take_succ_cons, List.take_zero, List.foldl_cons, step_seek, List.foldl_cons, pput4, List.foldl_cons, pput5, List.foldl_cons, pput6, List.foldl_cons, pput7, List.foldl_cons, step_seek, List.foldl_cons, pput40, List.foldl_cons, pput41, List.foldl_cons, pput42, List.foldl_nil]
          exact ⟨_, -1, rfl, announces_pcm h4 .., .inl rfl⟩
      · rw [List.take_of_length_le (by simp; omega)]
        obtain ⟨fr, h1, h2⟩ := hall2
        refine ⟨_, fr, ?_, h1, h2⟩
        rw [List.foldl_cons, step_seek, List.foldl_cons, pput4, List.foldl_cons, pput5, List.foldl_cons, pput6, List.foldl_cons, pput7, List.foldl_cons, step_seek, List.foldl_cons, pput40, List.foldl_cons, pput41, List.foldl_cons, pput42, List.foldl_cons, pput43, List.foldl_nil]

theorem Spec_fits {rate bits channels : Int} (hF : HeaderFits rate bits channels) : Fits rate channels (width bits) :=
  ⟨⟨hF.1, hF.2⟩, hF.3, hF.4, hF.5, hF.6⟩

/-- All states of a session's file from the end of the header on. -/
theorem session_states {rate bits channels : Int} (hF : HeaderFits rate bits channels) {w : Writer} {hdr : List Op}
    (hopen : Writer.open rate bits channels = .ok (w, hdr)) {body : Writer → M (List Op)} {payload : List Byte} {n : Nat}
    (hbody : body w = .ok (payload.map Op.put)) (hn : (payload.length : Int) = n * (channels * width bits))
    (hsize : (headerSize bits : Int) + payload.length ≤ 2147483647) :
    ∃ ops, Writer.session rate bits channels body = .ok ops ∧
      (∃ h, (OFile.replay ops).data = h ++ payload ∧ Announces rate channels (width bits) (if n = 0 then -1 else (n : Int)) h) ∧
      ∀ k, headerSize bits ≤ k → ∃ h fr, (OFile.replay (ops.take k)).data = h ++ payload.take (k - headerSize bits) ∧
        Announces rate channels (width bits) fr h ∧ (fr = -1 ∨ fr = n) := by
  obtain ⟨w', e, hw⟩ := writer_open hF
  rw [hopen] at e
  simp only [Except.ok.injEq, Prod.mk.injEq] at e
  obtain ⟨rfl, hhdr⟩ := e
  have hib := init_bytes rate bits channels
  rw [← hw] at hib
  obtain ⟨hib, hic⟩ := hib
  rw [hib] at hhdr
  generalize hH : header rate channels (width bits)
      (byteOf (if width bits = 4 then 50 else 36) 0) (byteOf (if width bits = 4 then 50 else 36) 1) (byteOf (if width bits = 4 then 50 else 36) 2)
      (byteOf (if width bits = 4 then 50 else 36) 3) (byteOf 0 0) (byteOf 0 1) (byteOf 0 2) (byteOf 0 3)
      (byteOf (-1) 0) (byteOf (-1) 1) (byteOf (-1) 2) (byteOf (-1) 3) = H at hhdr
  have hHl : H.length = headerSize bits := by rw [← hH, header_length, headerSize_eq]
  have hrep : OFile.replay (hdr ++ payload.map Op.put) = ⟨H ++ payload, (H ++ payload).length⟩ := by
    rw [hhdr, ← List.map_append, replay_puts]
  have hclose : w.close (H ++ payload).length = .ok (closeOps w.bytes n payload.length) := by
    have := writer_close (w := w) (n := n) (S := payload.length) (by rw [hib]; exact width_cases bits) (by rw [hic]; exact hF.3)
      (by rw [hib, hic]; exact hF.4) (by rw [hib, hic]; exact hn) (by rw [hib, ← headerSize_eq]; exact hsize)
    rw [hib, ← headerSize_eq] at this
    rw [List.length_append, hHl, this, hib]
  obtain ⟨c1, c2⟩ := close_states (rate := rate) (pos := (H ++ payload).length) (width_cases bits) hF.3 hn (by rw [← headerSize_eq]; exact hsize) hH.symm
  rw [hib] at hclose
  refine ⟨hdr ++ payload.map Op.put ++ closeOps (width bits) n payload.length, ?_, ?_, ?_⟩
  · simp only [Writer.session, hopen, hbody, hrep, hclose, bind, Except.bind, pure, Except.pure]
  · rw [replay_append, hrep]; exact c1
  · intro k hk
    have hlen : (hdr ++ payload.map Op.put).length = headerSize bits + payload.length := by rw [hhdr]; simp [hHl]
    by_cases hkp : k ≤ headerSize bits + payload.length
    · rw [List.take_append_of_le_length (by omega), hhdr, ← List.map_append, ← List.map_take, replay_puts]
      refine ⟨H, -1, ?_, announces_none hH.symm rfl, .inl rfl⟩
      simp only [List.take_append, hHl]
      rw [List.take_of_length_le (by omega)]
    · obtain ⟨h, fr, e, ha, hfr⟩ := c2 (k - (headerSize bits + payload.length))
      refine ⟨h, fr, ?_, ha, hfr⟩
      rw [List.take_append, hlen, List.take_of_length_le (l := hdr ++ payload.map Op.put) (by omega), replay_append, hrep, e,
        List.take_of_length_le (l := payload) (by omega)]

theorem open_announces {rate channels bytes fr : Int} {h payload : List Byte} (hb : bytes = 1 ∨ bytes = 2 ∨ bytes = 4)
    (hF : Fits rate channels bytes) (ha : Announces rate channels bytes fr h) :
    Reader.open (h ++ payload) = .ok (readerAt (h ++ payload) (overheadOf bytes) rate channels bytes fr) ∧ h.length = overheadOf bytes := by
  obtain ⟨c0, c1, c2, c3, f0, f1, f2, f3, d0, d1, d2, d3, rfl, hf, hd⟩ := ha
  exact ⟨open_header rfl hb hF hd hf, header_length ..⟩

/-- The bytes put by put-only operations. -/
theorem calls_payload {α : Type} {T : Sample α} {rate bits channels : Int} (hF : HeaderFits rate bits channels) {w : Writer} {hdr body : List Op}
    (hopen : Writer.open rate bits channels = .ok (w, hdr)) {calls : List (Call α)} (hrun : runCalls T calls w = .ok body) :
    ∃ payload : List Byte, body = payload.map Op.put ∧
      (payload.length : Int) = ((calls.map Call.frames).sum : Nat) * (channels * width bits) ∧ w.channels = channels ∧ w.bytes = width bits ∧
        w = (Writer.init rate bits channels).1 := by
  obtain ⟨w', e, hw⟩ := writer_open hF
  rw [hopen] at e
  simp only [Except.ok.injEq, Prod.mk.injEq] at e
  obtain ⟨rfl, -⟩ := e
  have hib := init_bytes rate bits channels
  rw [← hw] at hib
  obtain ⟨hib, hic⟩ := hib
  have hc := hF.3
  obtain ⟨bs, rfl, hl⟩ := puts_calls (by omega) hrun
  refine ⟨bs, rfl, ?_, hic, hib, hw⟩
  rw [hl, hic, hib]
  push_cast
  rw [Int.toNat_of_nonneg (by omega), Int.toNat_of_nonneg (by have := width_cases bits; omega)]

end Wav
end DSP
