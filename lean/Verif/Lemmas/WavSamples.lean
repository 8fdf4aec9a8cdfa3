import Verif.Lemmas.WavFile

/-! Sample level of wav.hh: what `write` puts and what `read` makes of it. -/

namespace DSP
namespace Wav
open Spec

theorem seekCur_nat (d : List Byte) (p n : Nat) : IStream.seekCur ⟨d, p, true⟩ (n : Int) = ⟨d, p + n, true⟩ := by
  have h : (0 : Int) ≤ (p : Int) + (n : Int) := by omega
  simp only [IStream.seekCur, if_true, if_pos h]
  rfl

/-- The bytes of `k` channels from `c` on. -/
def frameBytes (g : Nat → List Byte) : Nat → Nat → List Byte
  | 0, _ => []
  | k + 1, c => g c ++ frameBytes g k (c + 1)

/-- The bytes of `k` frames from `n` on. -/
def dataBytes (g : Nat → Nat → List Byte) (channels : Nat) : Nat → Nat → List Byte
  | 0, _ => []
  | k + 1, n => frameBytes (g n) channels 0 ++ dataBytes g channels k (n + 1)

/-- Bytes that a reader of a given format decodes to `v`. -/
def Decodes {α : Type} (T : Sample α) (rate channels bytes fr : Int) (cb : List Byte) (v : α) : Prop :=
  (cb.length : Int) = bytes ∧ ∀ (d l : List Byte) (p : Nat), d.drop p = cb ++ l →
    (readerAt d p rate channels bytes fr).sample T = .ok (v, readerAt d (p + cb.length) rate channels bytes fr)

theorem drop_of_append {d a l : List Byte} {p : Nat} (h : d.drop p = a ++ l) : d.drop (p + a.length) = l := by
  rw [← List.drop_drop, h]; simp

/-- The written values are in place and nothing else changed. -/
structure Filled {α : Type} (out out' : List α) (P : Nat → Nat → Prop) (t : Nat) (v : Nat → Nat → α) : Prop where
  len : out'.length = out.length
  hit : ∀ n c, P n c → out'[t * n + c]? = some (v n c)
  miss : ∀ i, (∀ n c, P n c → i ≠ t * n + c) → out'[i]? = out[i]?

theorem frame_read {α : Type} {T : Sample α} {rate channels bytes fr : Int} {g : Nat → List Byte} {v : Nat → α}
    {d l : List Byte} {t n : Nat} {k c p : Nat} {out : List α}
    (hg : ∀ j, c ≤ j → j < c + k → Decodes T rate channels bytes fr (g j) (v j))
    (hd : d.drop p = frameBytes g k c ++ l) (hb : ∀ j, j < c + k → t * n + j < out.length) :
    ∃ out', Reader.frame T (t : Int) (n : Int) k (c : Int) (readerAt d p rate channels bytes fr) out =
        .ok (readerAt d (p + (frameBytes g k c).length) rate channels bytes fr, out') ∧
      out'.length = out.length ∧ (∀ j, c ≤ j → j < c + k → out'[t * n + j]? = some (v j)) ∧
      (∀ i, (∀ j, c ≤ j → j < c + k → i ≠ t * n + j) → out'[i]? = out[i]?) := by
  induction k generalizing c p out with
  | zero => exact ⟨out, by simp [Reader.frame, frameBytes], rfl, by intro j h1 h2; omega, by simp⟩
  | succ k ih =>
    simp only [frameBytes, List.append_assoc] at hd
    have hs := (hg c (by omega) (by omega)).2 d _ p hd
    have hidx : (t : Int) * (n : Int) + (c : Int) = ((t * n + c : Nat) : Int) := by push_cast; ring
    have hlt := hb c (by omega)
    have hd' := drop_of_append hd
    obtain ⟨out', e, h1, h2, h3⟩ := ih (c := c + 1) (p := p + (g c).length) (out := out.set (t * n + c) (v c))
      (fun j a b => hg j (by omega) (by omega)) hd' (fun j hj => by rw [List.length_set]; exact hb j (by omega))
    refine ⟨out', ?_, by simpa using h1, ?_, ?_⟩
    · simp only [Reader.frame, hs, bind, Except.bind, hidx, wr_nat hlt]
      rw [show ((c : Int) + 1) = ((c + 1 : Nat) : Int) by push_cast; rfl, e]
      simp [frameBytes, Nat.add_assoc]
    · intro j hj1 hj2
      by_cases hjc : j = c
      · subst hjc
        rw [h3 _ (by intro j' h1 h2 he; omega)]
        simp [hlt]
      · exact h2 j (by omega) (by omega)
    · intro i hi
      rw [h3 i (fun j h1 h2 => hi j (by omega) (by omega)), List.getElem?_set_ne]
      exact fun he => hi c (by omega) (by omega) he.symm

theorem frames_read {α : Type} {T : Sample α} {rate bytes fr : Int} {channels : Nat} {g : Nat → Nat → List Byte} {v : Nat → Nat → α}
    {d l : List Byte} {t : Nat} (ht : channels ≤ t) {k n p : Nat} {out : List α}
    (hg : ∀ m c, n ≤ m → m < n + k → c < channels → Decodes T rate channels bytes fr (g m c) (v m c))
    (hd : d.drop p = dataBytes g channels k n ++ l) (hb : ∀ m c, m < n + k → c < channels → t * m + c < out.length) :
    ∃ out', Reader.framesLoop T (t : Int) (channels : Int) k (n : Int) (readerAt d p rate channels bytes fr) out =
        .ok (readerAt d (p + (dataBytes g channels k n).length) rate channels bytes fr, out') ∧
      Filled out out' (fun m c => n ≤ m ∧ m < n + k ∧ c < channels) t v := by
  induction k generalizing n p out with
  | zero => exact ⟨out, by simp [Reader.framesLoop, dataBytes], rfl, by intro m c h; omega, by simp⟩
  | succ k ih =>
    simp only [dataBytes, List.append_assoc] at hd
    obtain ⟨o1, e1, l1, f1, f2⟩ := frame_read (T := T) (rate := rate) (channels := channels) (bytes := bytes) (fr := fr) (v := v n) (t := t) (n := n) (out := out)
      (fun j _ h2 => hg n j (by omega) (by omega) (by omega)) hd (fun j hj => hb n j (by omega) (by omega))
    obtain ⟨o2, e2, F⟩ := ih (n := n + 1) (p := p + (frameBytes (g n) channels 0).length) (out := o1)
      (fun m c a b c' => hg m c (by omega) (by omega) c') (drop_of_append hd) (fun m c a b => by rw [l1]; exact hb m c (by omega) b)
    have hsep : ∀ m c m' c', c < channels → c' < channels → t * m + c = t * m' + c' → m = m' ∧ c = c' := by
      intro m c m' c' hc hc' he
      have h1 : (t * m + c) / t = m := by rw [Nat.mul_add_div (by omega)]; rw [Nat.div_eq_of_lt (by omega)]; rfl
      have h2 : (t * m' + c') / t = m' := by rw [Nat.mul_add_div (by omega)]; rw [Nat.div_eq_of_lt (by omega)]; rfl
      have : m = m' := by rw [← h1, ← h2, he]
      subst this
      exact ⟨rfl, by omega⟩
    refine ⟨o2, ?_, ?_, ?_, ?_⟩
    · simp only [Reader.framesLoop, Int.toNat_natCast, bind, Except.bind]
      rw [show (0 : Int) = ((0 : Nat) : Int) from rfl, e1]
      simp only
      rw [show ((n : Int) + 1) = ((n + 1 : Nat) : Int) by push_cast; rfl, e2]
      simp [dataBytes, Nat.add_assoc]
    · rw [F.len, l1]
    · rintro m c ⟨h1, h2, h3⟩
      by_cases hm : m = n
      · subst hm
        rw [F.miss _ (by rintro m' c' ⟨a, b, c''⟩ he; have := hsep _ _ _ _ h3 c'' he; omega)]
        exact f1 c (by omega) (by omega)
      · exact F.hit m c ⟨by omega, by omega, h3⟩
    · intro i hi
      rw [F.miss i (fun m c h => hi m c ⟨by omega, by omega, h.2.2⟩), f2 i (fun j _ h2 => hi n j ⟨by omega, by omega, by omega⟩)]

theorem frame_write {α : Type} {T : Sample α} {w : Writer} {buf : List α} {s n k c : Nat} {g : Nat → List Byte} {x : Nat → α}
    (hx : ∀ j, c ≤ j → j < c + k → buf[s * n + j]? = some (x j))
    (hg : ∀ j, c ≤ j → j < c + k → w.sample T (x j) = .ok ((g j).map Op.put)) :
    w.frame T buf (s : Int) (n : Int) k (c : Int) = .ok ((frameBytes g k c).map Op.put) := by
  induction k generalizing c with
  | zero => rfl
  | succ k ih =>
    have hidx : (s : Int) * (n : Int) + (c : Int) = ((s * n + c : Nat) : Int) := by push_cast; ring
    have hr : rd buf ((s * n + c : Nat) : Int) = .ok (x c) := rd_of_getElem? (by omega) (by rw [Int.toNat_natCast]; exact hx c (by omega) (by omega))
    simp only [Writer.frame, hidx, hr, hg c (by omega) (by omega), bind, Except.bind]
    rw [show ((c : Int) + 1) = ((c + 1 : Nat) : Int) by push_cast; rfl,
      ih (c := c + 1) (fun j a b => hx j (by omega) (by omega)) (fun j a b => hg j (by omega) (by omega))]
    simp [frameBytes, pure, Except.pure]

theorem frames_write {α : Type} {T : Sample α} {w : Writer} {buf : List α} {s k n : Nat} {channels : Nat} {g : Nat → Nat → List Byte} {x : Nat → Nat → α}
    (hc : w.channels = channels)
    (hx : ∀ m c, n ≤ m → m < n + k → c < channels → buf[s * m + c]? = some (x m c))
    (hg : ∀ m c, n ≤ m → m < n + k → c < channels → w.sample T (x m c) = .ok ((g m c).map Op.put)) :
    w.framesLoop T buf (s : Int) k (n : Int) = .ok ((dataBytes g channels k n).map Op.put) := by
  induction k generalizing n with
  | zero => rfl
  | succ k ih =>
    have h1 := frame_write (T := T) (w := w) (buf := buf) (s := s) (n := n) (k := channels) (c := 0) (g := g n) (x := x n)
      (fun j _ h => hx n j (by omega) (by omega) (by omega)) (fun j _ h => hg n j (by omega) (by omega) (by omega))
    simp only [Writer.framesLoop, hc, Int.toNat_natCast, bind, Except.bind]
    rw [show (0 : Int) = ((0 : Nat) : Int) from rfl, h1]
    simp only
    rw [show ((n : Int) + 1) = ((n + 1 : Nat) : Int) by push_cast; rfl,
      ih (n := n + 1) (fun m c a b d => hx m c (by omega) (by omega) d) (fun m c a b d => hg m c (by omega) (by omega) d)]
    simp [dataBytes, pure, Except.pure]

theorem decodes_float {α : Type} {T : Sample α} {rate channels fr : Int} (b : BitVec 32) :
    Decodes T rate channels 4 fr ((List.range 4).map (byteOf b.toInt)) (T.ofBits b) := by
  refine ⟨rfl, fun d l p h => ?_⟩
  have h' : d.drop p = byteOf b.toInt 0 :: byteOf b.toInt 1 :: byteOf b.toInt 2 :: byteOf b.toInt 3 :: l := h
  have hr : -2147483648 ≤ b.toInt ∧ b.toInt ≤ 2147483647 := by
    have h1 := BitVec.le_toInt b; have h2 := @BitVec.toInt_lt 32 b; omega
  have := le4 h' hr
  simp only [Reader.sample, readerAt, get!, bind, Except.bind, if_true, this, pure, Except.pure, BitVec.ofInt_toInt]
  rfl

theorem decodes_8 {α : Type} {T : Sample α} {rate channels fr : Int} {q : Int} (h0 : 0 ≤ q) (h1 : q ≤ 255) :
    Decodes T rate channels 1 fr ((List.range 1).map (byteOf q)) (T.div (T.ofInt (q - 128)) (T.ofInt 127)) := by
  refine ⟨rfl, fun d l p h => ?_⟩
  have h' : d.drop p = byteOf q 0 :: l := h
  have h2 := readLE1_at h'
  have h3 : ((byteOf q 0).toNat : Int) = q := by
    rw [byteOf_zero, BitVec.toNat_ofInt]
    omega
  rw [h3] at h2
  have hn : ¬ ((1 : Int) = 4) := by decide
  have ht : (1 : Int).toNat = 1 := rfl
  simp only [Reader.sample, readerAt, get!, bind, Except.bind, if_neg hn, ht, h2, pure, Except.pure]
  rfl

theorem decodes_16 {α : Type} {T : Sample α} {rate channels fr : Int} {q : Int} (h0 : -32768 ≤ q) (h1 : q ≤ 32767) :
    Decodes T rate channels 2 fr ((List.range 2).map (byteOf q)) (T.div (T.ofInt q) (T.ofInt 32767)) := by
  refine ⟨rfl, fun d l p h => ?_⟩
  have h' : d.drop p = byteOf q 0 :: byteOf q 1 :: l := h
  have h2 := le2 h' ⟨h0, h1⟩
  have hn : ¬ ((2 : Int) = 4) := by decide
  have ht : (2 : Int).toNat = 2 := rfl
  simp only [Reader.sample, readerAt, get!, bind, Except.bind, if_neg hn, ht, h2, pure, Except.pure]
  simp only [offsetOf, show ¬ ((2 : Int) = 1) by decide, if_false, Int.sub_zero]
  rfl

theorem frameBytes_length {g : Nat → List Byte} {b : Nat} (k c : Nat) (h : ∀ j, c ≤ j → j < c + k → (g j).length = b) :
    (frameBytes g k c).length = k * b := by
  induction k generalizing c with
  | zero => simp [frameBytes]
  | succ k ih =>
    simp only [frameBytes, List.length_append, h c (by omega) (by omega), ih (c + 1) (fun j _ _ => h j (by omega) (by omega))]
    ring

theorem dataBytes_length {g : Nat → Nat → List Byte} {b channels : Nat} (k n : Nat)
    (h : ∀ m c, n ≤ m → m < n + k → c < channels → (g m c).length = b) : (dataBytes g channels k n).length = k * (channels * b) := by
  induction k generalizing n with
  | zero => simp [dataBytes]
  | succ k ih =>
    simp only [dataBytes, List.length_append, ih (n + 1) (fun m c _ _ h3 => h m c (by omega) (by omega) h3),
      frameBytes_length channels 0 (fun j _ _ => h n j (by omega) (by omega) (by omega))]
    ring

/-- Sample `x` written by a writer of bit depth `bits` is read back as `v`. -/
def Codec {α : Type} (T : Sample α) (bits : Int) (x v : α) : Prop :=
  ∃ cb : List Byte, (∀ rate channels, (Writer.init rate bits channels).1.sample T x = .ok (cb.map Op.put)) ∧
    ∀ rate channels fr, Decodes T rate channels (width bits) fr cb v

theorem codec_float {α : Type} {T : Sample α} {bits : Int} (h8 : bits ≠ 8) (h16 : bits ≠ 16) (x : α) : Codec T bits x (T.ofBits (T.bits x)) := by
  refine ⟨(List.range 4).map (byteOf (T.bits x).toInt), fun rate channels => ?_, fun rate channels fr => ?_⟩
  · simp only [Writer.init, h8, h16, if_false, Writer.sample, if_true, writeLE_eq]
  · rw [show width bits = 4 by simp [width, h8, h16]]; exact decodes_float _

theorem codec_8 {α : Type} {T : Sample α} {x : α} {q : Int}
    (hq : T.nearbyint (T.min (T.max (T.add (T.ofInt 128) (T.mul (T.ofInt 127) x)) (T.ofInt 0)) (T.ofInt 255)) = q)
    (h0 : 0 ≤ q) (h1 : q ≤ 255) : Codec T 8 x (T.div (T.ofInt (q - 128)) (T.ofInt 127)) := by
  refine ⟨(List.range 1).map (byteOf q), fun rate channels => ?_, fun rate channels fr => decodes_8 h0 h1⟩
  simp only [Writer.init, if_true, Writer.sample, show ¬ ((1 : Int) = 4) by decide, if_false, hq, int32_ok (v := q) (by omega), bind, Except.bind,
    writeLE_eq]
  rfl

theorem codec_16 {α : Type} {T : Sample α} {x : α} {q : Int}
    (hq : T.nearbyint (T.min (T.max (T.add (T.ofInt 0) (T.mul (T.ofInt 32767) x)) (T.ofInt (-32768))) (T.ofInt 32767)) = q)
    (h0 : -32768 ≤ q) (h1 : q ≤ 32767) : Codec T 16 x (T.div (T.ofInt q) (T.ofInt 32767)) := by
  refine ⟨(List.range 2).map (byteOf q), fun rate channels => ?_, fun rate channels fr => decodes_16 h0 h1⟩
  simp only [Writer.init, show ¬ ((16 : Int) = 8) by decide, if_true, Writer.sample, show ¬ ((2 : Int) = 4) by decide, if_false, hq, int32_ok (v := q) (by omega), bind, Except.bind,
    writeLE_eq]
  rfl

/-- The stride a call uses. -/
def effStride (channels stride : Int) : Nat := (if stride < 0 then channels else stride).toNat

theorem effStride_cast {channels stride : Int} (hc : 0 ≤ channels) :
    (if stride < 0 then channels else stride) = (effStride channels stride : Int) := by
  unfold effStride; rw [Int.toNat_of_nonneg]; split_ifs <;> omega

/-- A call puts frames that decode to `v`. -/
def CallPuts {α : Type} (T : Sample α) (bits channels : Int) (c : Call α) (v : Nat → Nat → α) : Prop :=
  ∃ g : Nat → Nat → List Byte, (∀ rate, c.run T (Writer.init rate bits channels).1 = .ok ((dataBytes g channels.toNat c.frames 0).map Op.put)) ∧
    ∀ n k, n < c.frames → k < channels.toNat → ∀ rate fr, Decodes T rate channels (width bits) fr (g n k) (v n k)

theorem write_puts {α : Type} {T : Sample α} {bits channels num stride : Int} (hc : 0 ≤ channels) {buf : List α} {x v : Nat → Nat → α}
    (hx : ∀ n c, n < num.toNat → c < channels.toNat → buf[effStride channels stride * n + c]? = some (x n c) ∧ Codec T bits (x n c) (v n c)) :
    CallPuts T bits channels (.write buf num stride) v := by
  have : ∀ n c, ∃ cb : List Byte, n < num.toNat → c < channels.toNat →
      (∀ rate channels, (Writer.init rate bits channels).1.sample T (x n c) = .ok (cb.map Op.put)) ∧
        ∀ rate channels fr, Decodes T rate channels (width bits) fr cb (v n c) := by
    intro n c
    by_cases h : n < num.toNat ∧ c < channels.toNat
    · obtain ⟨cb, h1, h2⟩ := (hx n c h.1 h.2).2
      exact ⟨cb, fun _ _ => ⟨h1, h2⟩⟩
    · exact ⟨[], fun h1 h2 => absurd ⟨h1, h2⟩ h⟩
  choose g hg using this
  refine ⟨g, fun rate => ?_, fun n c hn hc' rate fr => (hg n c hn hc').2 rate channels fr⟩
  simp only [Call.run, Writer.write, (init_bytes rate bits channels).2, Call.frames]
  rw [effStride_cast hc]
  exact frames_write (T := T) (w := (Writer.init rate bits channels).1) (buf := buf) (s := effStride channels stride) (k := num.toNat) (n := 0)
    (channels := channels.toNat) (g := g) (x := x)
    (by rw [(init_bytes rate bits channels).2, Int.toNat_of_nonneg hc]) (fun m c _ h h' => (hx m c (by omega) h').1)
    (fun m c _ h h' => (hg m c (by omega) h').1 rate channels)

theorem flatten_frame (b : List Byte) (k c : Nat) : frameBytes (fun _ => b) k c = (List.replicate k b).flatten := by
  induction k generalizing c with
  | zero => rfl
  | succ k ih => simp [frameBytes, ih, List.replicate_succ]

theorem flatten_data (b : List Byte) (ch k n : Nat) : dataBytes (fun _ _ => b) ch k n = (List.replicate (k * ch) b).flatten := by
  induction k generalizing n with
  | zero => simp [dataBytes]
  | succ k ih =>
    simp only [dataBytes, ih, flatten_frame]
    rw [← List.flatten_append, List.replicate_append_replicate]; congr 2; ring

theorem silence_puts {α : Type} {T : Sample α} {bits channels num : Int} (hc : 0 ≤ channels) (hn : 0 ≤ num) (hs : num * channels ≤ 2147483647) :
    CallPuts T bits channels (.silence num)
      (fun _ _ => if width bits = 4 then T.ofBits 0 else T.div (T.ofInt 0) (T.ofInt (factorOf (width bits)))) := by
  refine ⟨fun _ _ => (List.range (width bits).toNat).map (byteOf (offsetOf (width bits))), fun rate => ?_, fun n c _ _ rate fr => ?_⟩
  · simp only [Call.run, Writer.silence, (init_bytes rate bits channels).1, (init_bytes rate bits channels).2, Call.frames]
    have h0 : 0 ≤ num * channels := mul_nonneg hn hc
    rw [int32_ok (by omega)]
    have ho : (Writer.init rate bits channels).1.offset = offsetOf (width bits) := by
      unfold Writer.init width; split_ifs <;> rfl
    simp only [bind, Except.bind, pure, Except.pure, flatten_data, ho, writeLE_eq, Int.toNat_mul hn hc]
    rw [List.map_flatten, List.map_replicate]
  · rcases width_cases bits with h | h | h <;> rw [h]
    · have := decodes_8 (T := T) (rate := rate) (channels := channels) (fr := fr) (q := 128) (by decide) (by decide)
      exact this
    · have := decodes_16 (T := T) (rate := rate) (channels := channels) (fr := fr) (q := 0) (by decide) (by decide)
      exact this
    · have := decodes_float (T := T) (rate := rate) (channels := channels) (fr := fr) 0#32
      exact this

theorem runCalls_append {α : Type} {T : Sample α} (a b : List (Call α)) (w : Writer) :
    runCalls T (a ++ b) w = (do let x ← runCalls T a w; let y ← runCalls T b w; return x ++ y) := by
  induction a with
  | nil =>
    simp only [List.nil_append, runCalls, bind, Except.bind, pure, Except.pure]
    cases runCalls T b w <;> simp
  | cons c cs ih =>
    simp only [List.cons_append, runCalls, ih, bind, Except.bind, pure, Except.pure]
    cases c.run T w <;> simp
    cases runCalls T cs w <;> simp
    cases runCalls T b w <;> simp

/-- A reader in front of the frames of a call reads them. -/
theorem call_read {α : Type} {T : Sample α} {rate bits channels fr : Int} (hc : 1 ≤ channels) {c : Call α} {g : Nat → Nat → List Byte} {v : Nat → Nat → α}
    (hg : ∀ n k, n < c.frames → k < channels.toNat → ∀ rate fr, Decodes T rate channels (width bits) fr (g n k) (v n k))
    {d l : List Byte} {p : Nat} (hd : d.drop p = dataBytes g channels.toNat c.frames 0 ++ l) {stride : Int} (hs : channels ≤ effStride channels stride)
    {out : List α} (hout : ∀ n k, n < c.frames → k < channels.toNat → effStride channels stride * n + k < out.length) :
    ∃ out', (readerAt d p rate channels (width bits) fr).read T out c.frames stride =
        .ok (readerAt d (p + (dataBytes g channels.toNat c.frames 0).length) rate channels (width bits) fr, out') ∧
      Filled out out' (fun n k => n < c.frames ∧ k < channels.toNat) (effStride channels stride) v := by
  have hcast : ((channels.toNat : Nat) : Int) = channels := Int.toNat_of_nonneg (by omega)
  obtain ⟨out', e, F⟩ := frames_read (T := T) (rate := rate) (bytes := width bits) (fr := fr) (channels := channels.toNat) (g := g) (v := v) (d := d) (l := l)
    (t := effStride channels stride) (by omega) (k := c.frames) (n := 0) (p := p) (out := out)
    (fun m k _ h1 h2 => by rw [hcast]; exact hg m k (by omega) h2 rate fr) hd (fun m k h1 h2 => hout m k (by omega) h2)
  refine ⟨out', ?_, F.len, fun n k h => F.hit n k ⟨by omega, by omega, h.2⟩, fun i h => F.miss i (fun n k h' => h n k ⟨by omega, h'.2.2⟩)⟩
  rw [hcast] at e
  have : (readerAt d p rate channels (width bits) fr).channels = some channels := rfl
  simp only [Reader.read, this, get!, bind, Except.bind, Int.toNat_natCast]
  rw [effStride_cast (by omega)]
  exact e

end Wav
end DSP
