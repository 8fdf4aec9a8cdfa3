import Verif.Props.WavSamples

/-! Property C24: what `ReadWAV` accepts, for every byte string. -/

namespace DSP
open Wav Spec

/-- A little-endian signed field of a file; `none` if the file is too short. -/
def Spec.field32 (data : List Byte) (p : Nat) : Option Int :=
  match data.drop p with
  | b0 :: b1 :: b2 :: b3 :: _ => some (b3 ++ b2 ++ b1 ++ b0 : BitVec 32).toInt
  | _ => none
@[inherit_doc Spec.field32]
def Spec.field16 (data : List Byte) (p : Nat) : Option Int :=
  match data.drop p with
  | b0 :: b1 :: _ => some (b1 ++ b0 : BitVec 16).toInt
  | _ => none

namespace Wav

theorem get_drop {s : IStream} (h : s.get.2.ok = true) : ∃ b l, s.data.drop s.pos = b :: l := by
  unfold IStream.get at h
  split_ifs at h with ho
  · split at h
    · rename_i b hb
      have hlt : s.pos < s.data.length := by
        by_contra hc; rw [List.getElem?_eq_none (by omega)] at hb; simp at hb
      exact ⟨_, _, List.drop_eq_getElem_cons hlt⟩
    · simp at h
  · simp_all

theorem readLE4_good {s : IStream} (h : (readLE s 4).2.ok = true) :
    s.ok = true ∧ (readLE s 4).2 = ⟨s.data, s.pos + 4, true⟩ ∧ field32 s.data s.pos = some (readLE s 4).1 := by
  have h' : (readLoop 4 0 0#32 s).2.ok = true := h
  obtain ⟨h1, h2⟩ := readLoop_good h'
  have hs : s = ⟨s.data, s.pos, true⟩ := by obtain ⟨d, p, o⟩ := s; simp only at h1; rw [h1]
  simp only [readLoop] at h'
  obtain ⟨g1, e1⟩ := get_good h'
  obtain ⟨b3, l3, d3⟩ := get_drop h'
  obtain ⟨g2, e2⟩ := get_good g1
  obtain ⟨b2, l2, d2⟩ := get_drop g1
  obtain ⟨g3, e3⟩ := get_good g2
  obtain ⟨b1, l1, d1⟩ := get_drop g2
  obtain ⟨g4, e4⟩ := get_good g3
  obtain ⟨b0, l0, d0⟩ := get_drop g3
  rw [e4] at d1
  rw [e3, e4] at d2
  rw [e2, e3, e4] at d3
  simp only at d1 d2 d3
  have hd : s.data.drop s.pos = b0 :: b1 :: b2 :: b3 :: l3 := by
    have t1 : l0 = s.data.drop (s.pos + 1) := by have := congrArg List.tail d0; simpa using this.symm
    have t2 : l1 = s.data.drop (s.pos + 1 + 1) := by have := congrArg List.tail d1; simpa using this.symm
    have t3 : l2 = s.data.drop (s.pos + 1 + 1 + 1) := by have := congrArg List.tail d2; simpa using this.symm
    rw [d0, t1, d1, t2, d2, t3, d3]
  have := readLE4_at hd
  rw [← hs] at this
  refine ⟨h1, by rw [this], ?_⟩
  rw [this, field32, hd]
  rfl

theorem readLE2_good {s : IStream} (h : (readLE s 2).2.ok = true) :
    s.ok = true ∧ (readLE s 2).2 = ⟨s.data, s.pos + 2, true⟩ ∧ field16 s.data s.pos = some (readLE s 2).1 := by
  have h' : (readLoop 2 0 0#32 s).2.ok = true := h
  obtain ⟨h1, h2⟩ := readLoop_good h'
  have hs : s = ⟨s.data, s.pos, true⟩ := by obtain ⟨d, p, o⟩ := s; simp only at h1; rw [h1]
  simp only [readLoop] at h'
  obtain ⟨g3, e3⟩ := get_good h'
  obtain ⟨b1, l1, d1⟩ := get_drop h'
  obtain ⟨g4, e4⟩ := get_good g3
  obtain ⟨b0, l0, d0⟩ := get_drop g3
  rw [e4] at d1
  simp only at d1
  have hd : s.data.drop s.pos = b0 :: b1 :: l1 := by
    have t1 : l0 = s.data.drop (s.pos + 1) := by have := congrArg List.tail d0; simpa using this.symm
    rw [d0, t1, d1]
  have := readLE2_at hd
  rw [← hs] at this
  refine ⟨h1, by rw [this], ?_⟩
  rw [this, field16, hd]
  rfl

theorem cmp4_good {A : List Byte} (hA : A.length = 4) {s : IStream} (h : cmp4 A (s.read 4).1 = .ok false) :
    s.ok = true ∧ (s.read 4).2 = ⟨s.data, s.pos + 4, true⟩ ∧ (s.data.drop s.pos).take 4 = A := by
  match A, hA with
  | [a0, a1, a2, a3], _ =>
  obtain ⟨d, p, ok⟩ := s
  cases ok
  · simp [IStream.read, cmp4] at h
  by_cases h4 : ∃ b0 b1 b2 b3 l, d.drop p = b0 :: b1 :: b2 :: b3 :: l
  · obtain ⟨b0, b1, b2, b3, l, hd⟩ := h4
    have hr := read4_at hd
    rw [hr] at h ⊢
    simp only [cmp4, ne_eq, ite_not] at h
    split_ifs at h <;> simp_all
  · exfalso
    match hd : d.drop p with
    | [] =>
      have : d[p]? = none := by have := congrArg (fun l => l[0]?) hd; simpa using this
      simp [IStream.read, this, cmp4] at h
    | [b0] =>
      have e0 : d[p]? = some b0 := by have := congrArg (fun l => l[0]?) hd; simpa using this
      have e1 : d[p + 1]? = none := by have := congrArg (fun l => l[1]?) hd; simpa using this
      simp [IStream.read, e0, e1, cmp4] at h
      try (split_ifs at h <;> simp_all)
    | [b0, b1] =>
      have e0 : d[p]? = some b0 := by have := congrArg (fun l => l[0]?) hd; simpa using this
      have e1 : d[p + 1]? = some b1 := by have := congrArg (fun l => l[1]?) hd; simpa using this
      have e2 : d[p + 2]? = none := by have := congrArg (fun l => l[2]?) hd; simpa using this
      simp [IStream.read, e0, e1, e2, cmp4] at h
      try (split_ifs at h <;> simp_all)
    | [b0, b1, b2] =>
      have e0 : d[p]? = some b0 := by have := congrArg (fun l => l[0]?) hd; simpa using this
      have e1 : d[p + 1]? = some b1 := by have := congrArg (fun l => l[1]?) hd; simpa using this
      have e2 : d[p + 2]? = some b2 := by have := congrArg (fun l => l[2]?) hd; simpa using this
      have e3 : d[p + 3]? = none := by have := congrArg (fun l => l[3]?) hd; simpa using this
      simp [IStream.read, e0, e1, e2, e3, cmp4] at h
      try (split_ifs at h <;> simp_all)
    | b0 :: b1 :: b2 :: b3 :: l => exact h4 ⟨b0, b1, b2, b3, l, hd⟩

theorem bind_ok {α β : Type} {x : M α} {f : α → M β} {r : β} (h : (x >>= f) = .ok r) : ∃ a, x = .ok a ∧ f a = .ok r := by
  cases x with
  | error e => simp [bind, Except.bind] at h
  | ok a => exact ⟨a, rfl, h⟩

theorem finish_fields {w r : Reader} {bits : Int} (h : w.finish bits = .ok r) :
    r.is = w.is ∧ r.bits = w.bits ∧ r.bytes = w.bytes ∧ r.rate = w.rate ∧ r.channels = w.channels ∧ r.frames = w.frames := by
  unfold Reader.finish at h
  split_ifs at h <;> simp only [Except.ok.injEq] at h <;> subst h <;> simp

theorem readLE4_eq {s s' : IStream} {v : Int} (e : readLE s 4 = (v, s')) (h : s'.ok = true) :
    s.ok = true ∧ s' = ⟨s.data, s.pos + 4, true⟩ ∧ field32 s.data s.pos = some v := by
  have := readLE4_good (s := s) (by rw [e]; exact h)
  rw [e] at this; exact this

theorem readLE2_eq {s s' : IStream} {v : Int} (e : readLE s 2 = (v, s')) (h : s'.ok = true) :
    s.ok = true ∧ s' = ⟨s.data, s.pos + 2, true⟩ ∧ field16 s.data s.pos = some v := by
  have := readLE2_good (s := s) (by rw [e]; exact h)
  rw [e] at this; exact this

theorem cmp4_eq {A : List Byte} (hA : A.length = 4) {s s' : IStream} {B : List (Option Byte)} (e : s.read 4 = (B, s')) (h : cmp4 A B = .ok false) :
    s.ok = true ∧ s' = ⟨s.data, s.pos + 4, true⟩ ∧ (s.data.drop s.pos).take 4 = A := by
  have := cmp4_good hA (s := s) (by rw [e]; exact h)
  rw [e] at this; exact this

theorem ret_ok {c : Prop} [Decidable c] {w r : Reader} {k : M Reader} (h : (if c then pure w else k) = .ok r) (hw : w.factor = none)
    (hf : r.factor ≠ none) : ¬ c ∧ k = .ok r := by
  split_ifs at h with hc
  · simp only [pure, Except.pure, Except.ok.injEq] at h; subst h; exact absurd hw hf
  · exact ⟨hc, h⟩

theorem cmp_ok {A : List Byte} {B : List (Option Byte)} {w r : Reader} {k : M Reader}
    (h : (cmp4 A B >>= fun d => if d = true then pure w else k) = .ok r) (hw : w.factor = none)
    (hf : r.factor ≠ none) : cmp4 A B = .ok false ∧ k = .ok r := by
  obtain ⟨d, hd, h1⟩ := bind_ok h
  obtain ⟨hn, h2⟩ := ret_ok h1 hw hf
  rw [Bool.not_eq_true] at hn
  rw [hn] at hd
  exact ⟨hd, h2⟩

theorem int32_inv {v w : Int} (h : int32 v = .ok w) : v = w := by
  unfold int32 at h; split_ifs at h; simpa using h

theorem finish_offset {w r : Reader} {bits : Int} (h : w.finish bits = .ok r) (hw : w.factor = none) (hf : r.factor ≠ none) :
    (bits = 8 ∧ r.offset = some 128 ∧ r.factor = some 127) ∨ (bits = 16 ∧ r.offset = some 0 ∧ r.factor = some 32767) ∨
      (bits = 32 ∧ r.offset = some 0 ∧ r.factor = some 1) := by
  unfold Reader.finish at h
  split_ifs at h <;> simp only [Except.ok.injEq] at h <;> subst h <;> simp_all

/-- What is known once the data chunk was accepted. -/
structure DataOk (w r : Reader) (C S1 bits bytes ch : Int) : Prop where
  ok : w.is.ok = true
  tag : (w.is.data.drop w.is.pos).take 4 = DATA
  hbits : r.bits = w.bits
  hbytes : r.bytes = w.bytes
  hrate : r.rate = w.rate
  hchannels : r.channels = w.channels
  scale : (bits = 8 ∧ r.offset = some 128 ∧ r.factor = some 127) ∨ (bits = 16 ∧ r.offset = some 0 ∧ r.factor = some 32767) ∨
      (bits = 32 ∧ r.offset = some 0 ∧ r.factor = some 1)
  size : ∃ D, (r.is.ok = true → field32 w.is.data (w.is.pos + 4) = some D) ∧
    (r.is.ok = true → r.is = ⟨w.is.data, w.is.pos + 8, true⟩) ∧
    ((D ≤ 0 ∨ C ≤ 0) ∧ r.frames = some (-1) ∨
      0 < D ∧ 0 < C ∧ D + (if bits = 32 then 58 else 44) - 8 = C ∧
        (S1 = 16 → bytes * ch ≠ 0 ∧ r.frames = some (D.tdiv (bytes * ch))) ∧ (S1 ≠ 16 → r.frames = w.frames))

theorem dataChunk_good {w r : Reader} {C S1 bits bytes ch : Int} (h : w.dataChunk C S1 bits bytes ch = .ok r) (hw : w.factor = none)
    (hf : r.factor ≠ none) : DataOk w r C S1 bits bytes ch := by
  unfold Reader.dataChunk at h
  rcases e1 : w.is.read 4 with ⟨A1, s1⟩
  rw [e1] at h
  obtain ⟨c1, h⟩ := cmp_ok h hw hf
  obtain ⟨o1, p1, t1⟩ := cmp4_eq (by rfl) e1 c1
  rcases e2 : readLE s1 4 with ⟨D, s2⟩
  rw [e2] at h
  simp only at h
  have hs : s2.ok = true → field32 w.is.data (w.is.pos + 4) = some D ∧ s2 = ⟨w.is.data, w.is.pos + 8, true⟩ := by
    intro ho
    have := readLE4_eq e2 ho
    rw [p1] at this
    exact ⟨this.2.2, this.2.1⟩
  by_cases hc : D ≤ 0 ∨ C ≤ 0
  · rw [if_pos hc] at h
    obtain ⟨a, b, c, d, e, f⟩ := finish_fields h
    refine .mk o1 t1 b c d e (finish_offset h hw hf) ⟨D, ?_, ?_, .inl ⟨hc, f⟩⟩
    · intro ho; rw [a] at ho; exact (hs ho).1
    · intro ho; rw [a] at ho ⊢; exact (hs ho).2
  · rw [if_neg hc] at h
    obtain ⟨sum, hsum, h⟩ := bind_ok h
    have hsum := int32_inv hsum
    obtain ⟨n2, h⟩ := ret_ok h hw hf
    push Not at n2 hc
    by_cases h16 : S1 = 16
    · rw [if_pos h16] at h
      obtain ⟨blk, hblk, h⟩ := bind_ok h
      have hblk := int32_inv hblk
      by_cases h0 : blk = 0
      · rw [if_pos h0] at h; simp at h
      rw [if_neg h0] at h
      obtain ⟨a, b, c, d, e, f⟩ := finish_fields h
      refine .mk o1 t1 b c d e (finish_offset h hw hf) ⟨D, ?_, ?_, .inr ⟨hc.1, hc.2, by rw [hsum]; exact n2, fun _ => ⟨by rw [hblk]; exact h0, by rw [hblk]; exact f⟩, fun h' => absurd h16 h'⟩⟩
      · intro ho; rw [a] at ho; exact (hs ho).1
      · intro ho; rw [a] at ho ⊢; exact (hs ho).2
    · rw [if_neg h16] at h
      obtain ⟨a, b, c, d, e, f⟩ := finish_fields h
      refine .mk o1 t1 b c d e (finish_offset h hw hf) ⟨D, ?_, ?_, .inr ⟨hc.1, hc.2, by rw [hsum]; exact n2, fun h' => absurd h' h16, fun _ => f⟩⟩
      · intro ho; rw [a] at ho; exact (hs ho).1
      · intro ho; rw [a] at ho ⊢; exact (hs ho).2

end Wav

/-- **C24** Every file that `ReadWAV` accepts (i.e. all members got set) has a consistent header, and the members are what
the header says. -/
theorem C24_accepts {data : List Byte} {r : Reader} (h : Reader.open data = .ok r) (hf : r.factor ≠ none) :
    ∃ bits channels rate frames riff : Int,
      r.bits = some bits ∧ r.bytes = some (bits / 8) ∧ r.channels = some channels ∧ r.rate = some rate ∧ r.frames = some frames ∧
      data.take 4 = RIFF ∧ field32 data 4 = some riff ∧ (data.drop 8).take 4 = WAVE ∧ (data.drop 12).take 4 = FMT ∧
      field16 data 22 = some channels ∧ field32 data 24 = some rate ∧ field32 data 28 = some (rate * (bits / 8) * channels) ∧
      field16 data 32 = some (bits / 8 * channels) ∧ field16 data 34 = some bits ∧
      ((bits = 8 ∧ field16 data 20 = some 1 ∧ r.offset = some 128 ∧ r.factor = some 127) ∨
        (bits = 16 ∧ field16 data 20 = some 1 ∧ r.offset = some 0 ∧ r.factor = some 32767) ∨
        (bits = 32 ∧ field16 data 20 = some 3 ∧ r.offset = some 0 ∧ r.factor = some 1)) ∧
      ∃ body, (field32 data 16 = some 16 ∧ body = 36 ∨
          field32 data 16 = some 18 ∧ field16 data 36 = some 0 ∧ (data.drop 38).take 4 = FACT ∧ field32 data 42 = some 4 ∧ body = 50) ∧
        (data.drop body).take 4 = DATA ∧
        (r.good = true → r.is.pos = body + 8 ∧ ∃ size, field32 data (body + 4) = some size ∧
          (0 < size → 0 < riff → size + (if bits = 32 then 58 else 44) - 8 = riff ∧
            (body = 36 → frames = Int.tdiv size (bits / 8 * channels)) ∧ (body = 50 → field32 data 46 = some frames))) := by
  unfold Reader.open at h
  rcases e1 : (IStream.open data).read 4 with ⟨A1, s1⟩
  rw [e1] at h
  obtain ⟨c1, h⟩ := cmp_ok h rfl hf
  obtain ⟨o1, p1, t1⟩ := cmp4_eq (by rfl) e1 c1
  rcases e2 : readLE s1 4 with ⟨riff, s2⟩
  rw [e2] at h
  simp only at h
  rcases e3 : s2.read 4 with ⟨A3, s3⟩
  rw [e3] at h
  obtain ⟨c3, h⟩ := cmp_ok h rfl hf
  obtain ⟨o3, p3, t3⟩ := cmp4_eq (by rfl) e3 c3
  obtain ⟨o2, p2, t2⟩ := readLE4_eq e2 o3
  rcases e4 : s3.read 4 with ⟨A4, s4⟩
  rw [e4] at h
  obtain ⟨c4, h⟩ := cmp_ok h rfl hf
  obtain ⟨o4, p4, t4⟩ := cmp4_eq (by rfl) e4 c4
  rcases e5 : readLE s4 4 with ⟨S1, s5⟩
  rw [e5] at h
  simp only at h
  obtain ⟨n5, h⟩ := ret_ok h rfl hf
  rcases e6 : readLE s5 2 with ⟨AF, s6⟩
  rw [e6] at h
  simp only at h
  obtain ⟨n6, h⟩ := ret_ok h rfl hf
  rcases e7 : readLE s6 2 with ⟨ch, s7⟩
  rw [e7] at h
  simp only at h
  rcases e8 : readLE s7 4 with ⟨rate, s8⟩
  rw [e8] at h
  simp only at h
  rcases e9 : readLE s8 4 with ⟨BR, s9⟩
  rw [e9] at h
  simp only at h
  rcases e10 : readLE s9 2 with ⟨BA, s10⟩
  rw [e10] at h
  simp only at h
  rcases e11 : readLE s10 2 with ⟨bits, s11⟩
  rw [e11] at h
  simp only at h
  obtain ⟨n7, h⟩ := ret_ok h rfl hf
  obtain ⟨n8, h⟩ := ret_ok h rfl hf
  obtain ⟨n9, h⟩ := ret_ok h rfl hf
  obtain ⟨blk, hblk, h⟩ := bind_ok h
  have hblk := int32_inv hblk
  obtain ⟨n10, h⟩ := ret_ok h rfl hf
  obtain ⟨rb, hrb, h⟩ := bind_ok h
  have hrb := int32_inv hrb
  obtain ⟨rbc, hrbc, h⟩ := bind_ok h
  have hrbc := int32_inv hrbc
  obtain ⟨n11, h⟩ := ret_ok h rfl hf
  push Not at n10 n11
  have hb8 : Int.tdiv bits 8 = bits / 8 := by
    have : bits = 8 ∨ bits = 16 ∨ bits = 32 := by omega
    rcases this with h | h | h <;> subst h <;> rfl
  -- the stream is good up to and including the block that precedes the data chunk
  have main : s11.ok = true → s5 = ⟨data, 20, true⟩ ∧ s11 = ⟨data, 36, true⟩ ∧ data.take 4 = RIFF ∧ field32 data 4 = some riff ∧
      (data.drop 8).take 4 = WAVE ∧ (data.drop 12).take 4 = FMT ∧ field32 data 16 = some S1 ∧ field16 data 20 = some AF ∧
      field16 data 22 = some ch ∧ field32 data 24 = some rate ∧ field32 data 28 = some BR ∧ field16 data 32 = some BA ∧
      field16 data 34 = some bits := by
    intro o12
    obtain ⟨o11, p11, t11⟩ := readLE2_eq e11 o12
    obtain ⟨o10, p10, t10⟩ := readLE2_eq e10 o11
    obtain ⟨o9, p9, t9⟩ := readLE4_eq e9 o10
    obtain ⟨o8, p8, t8⟩ := readLE4_eq e8 o9
    obtain ⟨o7, p7, t7⟩ := readLE2_eq e7 o8
    obtain ⟨o6, p6, t6⟩ := readLE2_eq e6 o7
    obtain ⟨o5, p5, t5⟩ := readLE4_eq e5 o6
    subst p1; subst p2; subst p3; subst p4; subst p5; subst p6; subst p7; subst p8; subst p9; subst p10; subst p11
    exact ⟨rfl, rfl, t1, t2, t3, t4, t5, t6, t7, t8, t9, t10, t11⟩
  have fmt : ∀ {r : Reader}, ((bits = 8 ∧ r.offset = some 128 ∧ r.factor = some 127) ∨ (bits = 16 ∧ r.offset = some 0 ∧ r.factor = some 32767) ∨
      (bits = 32 ∧ r.offset = some 0 ∧ r.factor = some 1)) → field16 data 20 = some AF →
      ((bits = 8 ∧ field16 data 20 = some 1 ∧ r.offset = some 128 ∧ r.factor = some 127) ∨
        (bits = 16 ∧ field16 data 20 = some 1 ∧ r.offset = some 0 ∧ r.factor = some 32767) ∨
        (bits = 32 ∧ field16 data 20 = some 3 ∧ r.offset = some 0 ∧ r.factor = some 1)) := by
    intro r hs haf
    have h1 : bits = 8 ∨ bits = 16 → AF = 1 := by omega
    have h3 : bits = 32 → AF = 3 := by omega
    rcases hs with ⟨a, b, c⟩ | ⟨a, b, c⟩ | ⟨a, b, c⟩
    · exact .inl ⟨a, by rw [haf, h1 (by omega)], b, c⟩
    · exact .inr (.inl ⟨a, by rw [haf, h1 (by omega)], b, c⟩)
    · exact .inr (.inr ⟨a, by rw [haf, h3 (by omega)], b, c⟩)
  have hBA : BA = bits / 8 * ch := by rw [← hb8, hblk]; exact n10.symm
  have hBR : BR = rate * (bits / 8) * ch := by rw [← hb8, hrb, hrbc]; exact n11.symm
  by_cases h18 : S1 = 18
  · rw [if_pos h18] at h
    rcases e12 : readLE s11 2 with ⟨ext, s12⟩
    rw [e12] at h
    simp only at h
    obtain ⟨n12, h⟩ := ret_ok h rfl hf
    rcases e13 : s12.read 4 with ⟨A13, s13⟩
    rw [e13] at h
    obtain ⟨c13, h⟩ := cmp_ok h rfl hf
    obtain ⟨o13, p13, t13⟩ := cmp4_eq (by rfl) e13 c13
    rcases e14 : readLE s13 4 with ⟨fs, s14⟩
    rw [e14] at h
    simp only at h
    obtain ⟨n14, h⟩ := ret_ok h rfl hf
    rcases e15 : readLE s14 4 with ⟨fr, s15⟩
    rw [e15] at h
    simp only at h
    rw [hb8] at h
    obtain ⟨ok, tag, g1, g2, g3, g4, scale, D, gd, gp, size⟩ := dataChunk_good h rfl hf
    simp only at ok tag g1 g2 g3 g4 gd gp size
    obtain ⟨o15, p15, t15⟩ := readLE4_eq e15 ok
    obtain ⟨o14, p14, t14⟩ := readLE4_eq e14 o15
    obtain ⟨o12, p12, t12⟩ := readLE2_eq e12 o13
    obtain ⟨q5, q11, m⟩ := main o12
    subst q11; subst p12; subst p13; subst p14; subst p15
    push Not at n12 n14
    obtain ⟨m1, m2, m3, m4, m5, m6, m7, m8, m9, m10, m11⟩ := m
    have hfr : ∃ frames, r.frames = some frames ∧ (0 < D → 0 < riff → D + (if bits = 32 then 58 else 44) - 8 = riff ∧ frames = fr) := by
      rcases size with ⟨a, b⟩ | ⟨a, b, c, d, e⟩
      · exact ⟨-1, b, fun x y => by omega⟩
      · exact ⟨fr, e (by omega), fun _ _ => ⟨c, rfl⟩⟩
    obtain ⟨frames, hfr, hsz⟩ := hfr
    refine ⟨bits, ch, rate, frames, riff, g1, g2, g4, g3, hfr, m1, m2, m3, m4, m7, m8, by rw [m9, hBR], by rw [m10, hBA], m11, fmt scale m6,
      50, .inr ⟨by rw [m5, h18], by rw [t12, n12], t13, by rw [t14, n14], rfl⟩, tag, ?_⟩
    intro hg
    refine ⟨by rw [gp hg], D, gd hg, fun x y => ⟨(hsz x y).1, fun h => by omega, fun _ => by rw [(hsz x y).2]; exact t15⟩⟩
  · have h16 : S1 = 16 := by omega
    rw [if_neg h18] at h
    rw [hb8] at h
    obtain ⟨ok, tag, g1, g2, g3, g4, scale, D, gd, gp, size⟩ := dataChunk_good h rfl hf
    simp only at ok tag g1 g2 g3 g4 gd gp size
    obtain ⟨q5, q11, m⟩ := main ok
    subst q11
    obtain ⟨m1, m2, m3, m4, m5, m6, m7, m8, m9, m10, m11⟩ := m
    have hfr : ∃ frames, r.frames = some frames ∧ (0 < D → 0 < riff → D + (if bits = 32 then 58 else 44) - 8 = riff ∧
        frames = Int.tdiv D (bits / 8 * ch)) := by
      rcases size with ⟨a, b⟩ | ⟨a, b, c, d, e⟩
      · exact ⟨-1, b, fun x y => by omega⟩
      · exact ⟨_, (d h16).2, fun _ _ => ⟨c, rfl⟩⟩
    obtain ⟨frames, hfr, hsz⟩ := hfr
    refine ⟨bits, ch, rate, frames, riff, g1, g2, g4, g3, hfr, m1, m2, m3, m4, m7, m8, by rw [m9, hBR], by rw [m10, hBA], m11, fmt scale m6,
      36, .inl ⟨by rw [m5, h16], rfl⟩, tag, ?_⟩
    intro hg
    refine ⟨by rw [gp hg], D, gd hg, fun x y => ⟨(hsz x y).1, fun _ => (hsz x y).2, fun h => by omega⟩⟩

/-- The example meets the hypotheses: the header of a mono 8 bit file with two frames. -/
def wav8 : List Byte := [0x52, 0x49, 0x46, 0x46, 38, 0, 0, 0, 0x57, 0x41, 0x56, 0x45, 0x66, 0x6d, 0x74, 0x20, 16, 0, 0, 0, 1, 0, 1, 0,
  0x40, 0x1f, 0, 0, 0x40, 0x1f, 0, 0, 1, 0, 8, 0, 0x64, 0x61, 0x74, 0x61, 2, 0, 0, 0, 128, 255]
example : (Reader.open wav8).map (fun r => (r.good, r.is.pos, r.frames, r.factor)) = .ok (true, 44, some 2, some 127) := by decide +kernel

/-- The members are set in the order of the header: a member that is set implies that all earlier ones are. -/
def Spec.Staged (channels rate bits bytes frames offset factor : Option Int) : Prop :=
  (channels = none ↔ bits = none) ∧ (rate = none ↔ bits = none) ∧ (bits = none → bytes = none) ∧ (bytes = none → frames = none) ∧
    (frames = none → factor = none) ∧ (factor = none ↔ offset = none)

/-- **C24** A rejected header leaves the members beyond the failed check unset. -/
theorem C24_rejects {data : List Byte} {r : Reader} (h : Reader.open data = .ok r) :
    Staged r.channels r.rate r.bits r.bytes r.frames r.offset r.factor := by
  obtain ⟨P, hP⟩ : ∃ P : Reader → Prop, ∀ r, P r ↔ Staged r.channels r.rate r.bits r.bytes r.frames r.offset r.factor := ⟨_, fun _ => Iff.rfl⟩
  rw [← hP]
  have fin : ∀ {w : Reader} {bits : Int}, P w → w.frames ≠ none → w.finish bits = .ok r → P r := by
    intro w bits hw hf h
    unfold Reader.finish at h
    simp only [hP, Staged] at hw ⊢
    split_ifs at h <;> simp only [Except.ok.injEq] at h <;> subst h <;> simp_all
  have ret : ∀ {w : Reader}, P w → (pure w : M Reader) = .ok r → P r := by
    intro w hw h
    simp only [pure, Except.pure, Except.ok.injEq] at h
    rw [← h]; exact hw
  have cmp : ∀ {A B} {f : Bool → M Reader}, (∀ d, f d = .ok r → P r) → (cmp4 A B >>= f) = .ok r → P r := by
    intro A B f hk h1
    obtain ⟨d, hd, h2⟩ := bind_ok h1
    exact hk d h2
  have i32 : ∀ {v} {f : Int → M Reader}, (∀ d, f d = .ok r → P r) → (int32 v >>= f) = .ok r → P r := by
    intro A f hk h1
    obtain ⟨d, hd, h2⟩ := bind_ok h1
    exact hk d h2
  have sel : ∀ {c : Prop} [Decidable c] {a b : M Reader}, (c → a = .ok r → P r) → (¬ c → b = .ok r → P r) →
      (if c then a else b) = .ok r → P r := by
    intro c _ a b ha hb h1
    by_cases hc : c
    · rw [if_pos hc] at h1; exact ha hc h1
    · rw [if_neg hc] at h1; exact hb hc h1
  have dat : ∀ {w : Reader} {C S1 bits bytes ch : Int}, w.bits ≠ none → w.bytes ≠ none → (S1 ≠ 16 → w.frames ≠ none) → P w →
      w.dataChunk C S1 bits bytes ch = .ok r → P r := by
    intro w C S1 bits bytes ch h1 h2 h3 hw
    have hq : ∀ s : IStream, P { w with is := s } := by intro s; rw [hP] at hw ⊢; exact hw
    have hp : ∀ (s : IStream) (f : Int), P { w with is := s, frames := some f } := by
      intro s f
      simp only [hP, Staged] at hw ⊢
      simp_all
    unfold Reader.dataChunk
    generalize w.is.read 4 = x1; obtain ⟨A1, s1⟩ := x1; simp only
    refine cmp fun _ => sel (fun _ => ret (hq _)) fun _ => ?_
    generalize readLE s1 4 = x2; obtain ⟨D, s2⟩ := x2; simp only
    refine sel (fun _ => fin (hp _ _) (by simp)) fun _ => i32 fun _ => sel (fun _ => ret (hq _)) fun _ => sel (fun _ => i32 fun _ => sel ?_ ?_) ?_
    · intro _ h1; simp at h1
    · exact fun _ => fin (hp _ _) (by simp)
    · exact fun hs => fin (hq _) (h3 hs)
  revert h
  unfold Reader.open
  have z : ∀ s, P { is := s } := by intro s; simp [hP, Staged]
  have z1 : ∀ s c x b, P { is := s, channels := some c, rate := some x, bits := some b } := by intros; simp [hP, Staged]
  have z2 : ∀ s c x b y, P { is := s, channels := some c, rate := some x, bits := some b, bytes := some y } := by intros; simp [hP, Staged]
  have z3 : ∀ s c x b y f, P { is := s, channels := some c, rate := some x, bits := some b, bytes := some y, frames := some f } := by
    intros; simp [hP, Staged]
  generalize (IStream.open data).read 4 = x; obtain ⟨A1, s⟩ := x; simp only
  refine cmp fun _ => sel (fun _ => ret (z _)) fun _ => ?_
  generalize readLE s 4 = x; obtain ⟨riff, s⟩ := x; simp only
  generalize s.read 4 = x; obtain ⟨A2, s⟩ := x; simp only
  refine cmp fun _ => sel (fun _ => ret (z _)) fun _ => ?_
  generalize s.read 4 = x; obtain ⟨A3, s⟩ := x; simp only
  refine cmp fun _ => sel (fun _ => ret (z _)) fun _ => ?_
  generalize readLE s 4 = x; obtain ⟨S1, s⟩ := x; simp only
  refine sel (fun _ => ret (z _)) fun hs => ?_
  generalize readLE s 2 = x; obtain ⟨af, s⟩ := x; simp only
  refine sel (fun _ => ret (z _)) fun _ => ?_
  generalize readLE s 2 = x; obtain ⟨ch, s⟩ := x; simp only
  generalize readLE s 4 = x; obtain ⟨rate, s⟩ := x; simp only
  generalize readLE s 4 = x; obtain ⟨br, s⟩ := x; simp only
  generalize readLE s 2 = x; obtain ⟨ba, s⟩ := x; simp only
  generalize readLE s 2 = x; obtain ⟨bits, s⟩ := x; simp only
  refine sel (fun _ => ret (z1 _ _ _ _)) fun _ => sel (fun _ => ret (z1 _ _ _ _)) fun _ => sel (fun _ => ret (z1 _ _ _ _)) fun _ =>
    i32 fun _ => sel (fun _ => ret (z2 _ _ _ _ _)) fun _ => i32 fun _ => i32 fun _ => sel (fun _ => ret (z2 _ _ _ _ _)) fun _ => sel (fun _ => ?_) fun hn => ?_
  · generalize readLE s 2 = x; obtain ⟨ext, s⟩ := x; simp only
    refine sel (fun _ => ret (z2 _ _ _ _ _)) fun _ => ?_
    generalize s.read 4 = x; obtain ⟨A4, s⟩ := x; simp only
    refine cmp fun _ => sel (fun _ => ret (z2 _ _ _ _ _)) fun _ => ?_
    generalize readLE s 4 = x; obtain ⟨fs, s⟩ := x; simp only
    refine sel (fun _ => ret (z2 _ _ _ _ _)) fun _ => ?_
    generalize readLE s 4 = x; obtain ⟨fr, s⟩ := x; simp only
    exact dat (by simp) (by simp) (by simp) (z3 _ _ _ _ _ _)
  · exact dat (by simp) (by simp) (fun h16 => absurd ⟨h16, hn⟩ hs) (z2 _ _ _ _ _)

/-- A float file with an extension block is rejected after `bytes` was set. -/
example : (Reader.open ([0x52, 0x49, 0x46, 0x46, 38, 0, 0, 0, 0x57, 0x41, 0x56, 0x45, 0x66, 0x6d, 0x74, 0x20, 18, 0, 0, 0, 3, 0, 1, 0,
    0x40, 0x1f, 0, 0, 0, 0x7d, 0, 0, 4, 0, 32, 0, 22, 0, 0, 0])).map (fun r => (r.channels, r.bytes, r.frames, r.offset)) =
    .ok (some 1, some 4, none, none) := by decide +kernel

/-- Finding: the caller cannot see the rejection. A file whose first letters are not `RIFF` is `good()`; the next `read`
looks at members that were never set. -/
theorem C24_rejection_invisible :
    ∃ data : List Byte, ∃ r, Reader.open data = .ok r ∧ r.good = true ∧
      (∀ {α : Type} (T : Sample α) (buf : List α) (num : Int), r.read T buf num = .error .uninit) ∧ r.skip 1 = .error .uninit :=
  ⟨[0x4f, 0x67, 0x67, 0x53, 0, 0], _, rfl, rfl, fun _ _ _ => rfl, rfl⟩

/-- Finding: a file without any bytes, or one that ends within a chunk name that it matches so far, makes the constructor
compare characters that were never written. -/
theorem C24_truncated_uninit : Reader.open [] = .error .uninit ∧ Reader.open (wav8.take 10) = .error .uninit ∧
    Reader.open (wav8.take 36) = .error .uninit := by decide +kernel

/-- Finding: a consistent header that announces zero channels makes the constructor divide by zero. -/
theorem C24_zero_channels : Reader.open [0x52, 0x49, 0x46, 0x46, 38, 0, 0, 0, 0x57, 0x41, 0x56, 0x45, 0x66, 0x6d, 0x74, 0x20, 16, 0, 0, 0,
    1, 0, 0, 0, 0x40, 0x1f, 0, 0, 0, 0, 0, 0, 0, 0, 8, 0, 0x64, 0x61, 0x74, 0x61, 2, 0, 0, 0, 128, 255] = .error .divZero := by
  decide +kernel

/-- Finding: a header can make the constructor's `rate * bytes * channels` overflow. -/
theorem C24_overflow : Reader.open [0x52, 0x49, 0x46, 0x46, 38, 0, 0, 0, 0x57, 0x41, 0x56, 0x45, 0x66, 0x6d, 0x74, 0x20, 16, 0, 0, 0,
    1, 0, 2, 0, 0xff, 0xff, 0xff, 0x7f, 0, 0, 0, 0, 2, 0, 8, 0, 0x64, 0x61, 0x74, 0x61, 2, 0, 0, 0, 128, 255] = .error .overflow := by
  decide +kernel

/-- Finding: `readLE(2)` sign-extends, so what `WriteWAV` writes for 32768 channels of 8 bits is not accepted. -/
theorem C24_signed_fields :
    ((Writer.open 1 8 32768).bind fun (_, ops) => Reader.open (OFile.replay ops).data).map (fun r => (r.channels, r.factor)) =
      .ok (some (-32768), none) := by decide +kernel

end DSP
