import Verif.Lemmas.WavFile

/-! Properties C19 and C22: what a reader makes of a file written by `WriteWAV`, closed or not. -/

namespace DSP
open Wav Spec

/-- What a user of `ReadWAV` sees right after opening: format, number of frames, and the bytes still to be read. -/
structure Spec.Opened (r : Reader) (rate channels bits frames : Int) (rest : List Byte) : Prop where
  rate : r.rate = some rate
  channels : r.channels = some channels
  bits : r.bits = some bits
  frames : r.frames = some frames
  good : r.good = true
  rest : r.is.data.drop r.is.pos = rest

theorem Wav.opened_readerAt {rate channels bits fr : Int} {h payload : List Byte} (hl : h.length = overheadOf (width bits)) :
    Opened (readerAt (h ++ payload) (overheadOf (width bits)) rate channels (width bits) fr) rate channels (depth bits) fr payload := by
  refine ⟨rfl, rfl, ?_, rfl, rfl, ?_⟩
  · simp only [readerAt, width, depth]; split_ifs <;> rfl
  · simp [readerAt, ← hl]

/-- **C19.** Whatever is written with `write` and `silence`, the closed file opens with the format it was created with, at the
first sample byte, and announces exactly the frames written (`-1` if there are none). -/
theorem C19_header {α : Type} (T : Sample α) {rate bits channels : Int} (hF : HeaderFits rate bits channels)
    {w : Writer} {hdr body : List Op} (hopen : Writer.open rate bits channels = .ok (w, hdr))
    (calls : List (Call α)) (hrun : runCalls T calls w = .ok body)
    (hsize : headerSize bits + (calls.map Call.frames).sum * (channels * width bits) ≤ 2147483647) :
    ∃ ops r payload, Writer.session rate bits channels (runCalls T calls) = .ok ops ∧
      body = payload.map Op.put ∧
      Reader.open (OFile.replay ops).data = .ok r ∧
      Opened r rate channels (depth bits)
        (if (calls.map Call.frames).sum = 0 then -1 else ((calls.map Call.frames).sum : Nat)) payload := by
  obtain ⟨payload, rfl, hn, -, -, -⟩ := calls_payload hF hopen hrun
  obtain ⟨ops, hs, ⟨h, hd, ha⟩, -⟩ := session_states hF hopen hrun hn (by rw [hn]; exact hsize)
  obtain ⟨ho, hl⟩ := open_announces (payload := payload) (width_cases bits) (Spec_fits hF) ha
  exact ⟨ops, _, payload, hs, rfl, by rw [hd, ho], opened_readerAt hl⟩

/-- The constructor succeeds whenever the fields fit. -/
theorem C19_opens {rate bits channels : Int} (hF : HeaderFits rate bits channels) :
    ∃ w hdr, Writer.open rate bits channels = .ok (w, hdr) ∧ hdr.length = headerSize bits := by
  obtain ⟨w, h, hw⟩ := writer_open hF
  refine ⟨w, _, h, ?_⟩
  rw [List.length_map, header_length, headerSize_eq, hw, (init_bytes ..).1]

/-- **C22.** The same session cut short after `k` byte operations, at any point from the end of the header on: in the sample data,
or while the destructor patches the header. The file still opens with the right format and the data written so far; it announces
nothing (`-1`) or the exact number of frames. -/
theorem C22_crash {α : Type} (T : Sample α) {rate bits channels : Int} (hF : HeaderFits rate bits channels)
    {w : Writer} {hdr body : List Op} (hopen : Writer.open rate bits channels = .ok (w, hdr))
    (calls : List (Call α)) (hrun : runCalls T calls w = .ok body)
    (hsize : headerSize bits + (calls.map Call.frames).sum * (channels * width bits) ≤ 2147483647) :
    ∃ ops, ∃ payload : List Byte, Writer.session rate bits channels (runCalls T calls) = .ok ops ∧ body = payload.map Op.put ∧
      ∀ k, headerSize bits ≤ k → ∃ r fr, Reader.open (OFile.replay (ops.take k)).data = .ok r ∧
        Opened r rate channels (depth bits) fr (payload.take (k - headerSize bits)) ∧
        (fr = -1 ∨ fr = ((calls.map Call.frames).sum : Nat)) := by
  obtain ⟨payload, rfl, hn, -, -, -⟩ := calls_payload hF hopen hrun
  obtain ⟨ops, hs, -, hk⟩ := session_states hF hopen hrun hn (by rw [hn]; exact hsize)
  refine ⟨ops, payload, hs, rfl, fun k hkk => ?_⟩
  obtain ⟨h, fr, hd, ha, hfr⟩ := hk k hkk
  obtain ⟨ho, hl⟩ := open_announces (payload := payload.take (k - headerSize bits)) (width_cases bits) (Spec_fits hF) ha
  exact ⟨_, fr, by rw [hd, ho], opened_readerAt hl, hfr⟩

/-- A sample type for the examples: 32 bit patterns, no arithmetic. -/
def Wav.rawSample : Sample (BitVec 32) where
  ofInt := BitVec.ofInt 32
  add := (· + ·)
  mul := (· * ·)
  div := fun a _ => a
  min := fun a _ => a
  max := fun a _ => a
  nearbyint := BitVec.toInt
  bits := id
  ofBits := id

-- two stereo frames of floating point data at 48 kHz
example : HeaderFits 48000 32 2 := by constructor <;> decide
example : ((Writer.open 48000 32 2).bind fun p => runCalls rawSample [.write [1#32, 2#32, 3#32, 4#32] 2 (-1), .silence 3] p.1).isOk = true := by
  decide +kernel
example : ((Writer.session 48000 32 2 (runCalls rawSample [.write [1#32, 2#32, 3#32, 4#32] 2 (-1)])).bind fun ops =>
    (Reader.open (OFile.replay ops).data).map fun r => (r.rate, r.channels, r.bits, r.frames, r.good)) =
    .ok (some 48000, some 2, some 32, some 2, true) := by decide +kernel
example : ((Writer.session 8000 8 1 (runCalls rawSample [.silence 2])).bind fun ops =>
    (Reader.open (OFile.replay (ops.take 50)).data).map fun r => (r.rate, r.channels, r.bits, r.frames, r.good)) =
    .ok (some 8000, some 1, some 8, some (-1), true) := by decide +kernel

end DSP
