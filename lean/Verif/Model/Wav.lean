import Verif.Model.Stream

/-!
# Model of wav.hh

File system and stream errors other than reaching the end of the file are not modelled (see `Model/Stream.lean`).
`TYPE` and its arithmetic are parameters.
-/

namespace DSP
namespace Wav

/-- What `wav.hh` needs of the sample type `TYPE`. `bits`/`ofBits` are `float2int(float(x))`, wav.hh:179-187, and
`TYPE(int2float(v))`, wav.hh:38-46. `nearbyint` is the conversion to `int` of `std::nearbyint`, wav.hh:264. -/
structure Sample (α : Type) where
  ofInt : Int → α
  add : α → α → α
  mul : α → α → α
  div : α → α → α
  min : α → α → α
  max : α → α → α
  nearbyint : α → Int
  bits : α → BitVec 32
  ofBits : BitVec 32 → α

/-- `readLE` before the sign extension: `v |= is.get() << (8 * i)` for `k` more values of `i`. Shifting a negative or a too
large value wraps (C++20). wav.hh:22-24 -/
def readLoop : Nat → Nat → BitVec 32 → IStream → BitVec 32 × IStream
  | 0, _, v, s => (v, s)
  | k + 1, i, v, s => let (c, s') := s.get; readLoop k (i + 1) (v ||| c <<< (8 * i)) s'

/-- wav.hh:20-30 -/
def readLE (s : IStream) (b : Nat) : Int × IStream :=
  let (v, s') := readLoop b 0 0#32 s
  let v := if b == 2 && decide (v.toInt > 32767) then v ||| ~~~32767#32 else v
  let v := if b == 3 && decide (v.toInt > 8388607) then v ||| ~~~8388607#32 else v
  (v.toInt, s')

/-- `cmp4(a, b)`: true if the strings differ. Looking at an uninitialised cell is a fault. wav.hh:31-37 -/
def cmp4 : List Byte → List (Option Byte) → M Bool
  | [], _ => .ok false
  | _ :: _, [] => .error .bounds
  | _ :: _, none :: _ => .error .uninit
  | a :: as, some b :: bs => if a ≠ b then .ok true else cmp4 as bs

/-- The four letters of a chunk name. -/
def RIFF : List Byte := [0x52, 0x49, 0x46, 0x46]
@[inherit_doc RIFF] def WAVE : List Byte := [0x57, 0x41, 0x56, 0x45]
@[inherit_doc RIFF] def FMT : List Byte := [0x66, 0x6d, 0x74, 0x20]
@[inherit_doc RIFF] def FACT : List Byte := [0x66, 0x61, 0x63, 0x74]
@[inherit_doc RIFF] def DATA : List Byte := [0x64, 0x61, 0x74, 0x61]

/-- `ReadWAV`. Members that were never set are `none`. wav.hh:17-19 -/
structure Reader where
  is : IStream
  bits : Option Int := none
  bytes : Option Int := none
  rate : Option Int := none
  channels : Option Int := none
  frames : Option Int := none
  offset : Option Int := none
  factor : Option Int := none
  deriving DecidableEq, Repr

/-- A member that must have been set. -/
def get! (x : Option Int) : M Int :=
  match x with
  | some v => .ok v
  | none => .error .uninit

/-- The constructor's `switch`. wav.hh:112-127 -/
def Reader.finish (w : Reader) (bits : Int) : M Reader :=
  if bits = 8 then .ok { w with offset := some 128, factor := some 127 }
  else if bits = 16 then .ok { w with offset := some 0, factor := some 32767 }
  else if bits = 32 then .ok { w with offset := some 0, factor := some 1 }
  else .ok w

/-- From the data chunk on. Signed arithmetic is checked. wav.hh:95-127 -/
def Reader.dataChunk (w : Reader) (ChunkSize Subchunk1Size bits bytes channels : Int) : M Reader := do
  let (Subchunk2ID, s) := w.is.read 4
  let differ ← cmp4 DATA Subchunk2ID
  if differ then return { w with is := s } else
  let (Subchunk2Size, s) := readLE s 4
  let w := { w with is := s }
  let overhead := if bits = 32 then 58 else 44
  if Subchunk2Size ≤ 0 ∨ ChunkSize ≤ 0 then
    Reader.finish { w with frames := some (-1) } bits
  else do
    let sum ← int32 (Subchunk2Size + overhead)
    if sum - 8 ≠ ChunkSize then return w else
    if Subchunk1Size = 16 then do
      let block ← int32 (bytes * channels)
      if block = 0 then .error .divZero else
      Reader.finish { w with frames := some (Int.tdiv Subchunk2Size block) } bits
    else
      Reader.finish w bits

/-- The constructor. Every early `return` leaves the later members unset. wav.hh:48-128 -/
def Reader.open (data : List Byte) : M Reader := do
  let (ChunkID, s) := (IStream.open data).read 4
  let differ ← cmp4 RIFF ChunkID
  if differ then return { is := s } else
  let (ChunkSize, s) := readLE s 4
  let (Format, s) := s.read 4
  let differ ← cmp4 WAVE Format
  if differ then return { is := s } else
  let (Subchunk1ID, s) := s.read 4
  let differ ← cmp4 FMT Subchunk1ID
  if differ then return { is := s } else
  let (Subchunk1Size, s) := readLE s 4
  if Subchunk1Size ≠ 16 ∧ Subchunk1Size ≠ 18 then return { is := s } else
  let (AudioFormat, s) := readLE s 2
  if AudioFormat ≠ 1 ∧ AudioFormat ≠ 3 then return { is := s } else
  let (channels, s) := readLE s 2
  let (rate, s) := readLE s 4
  let (ByteRate, s) := readLE s 4
  let (BlockAlign, s) := readLE s 2
  let (bits, s) := readLE s 2
  let w : Reader := { is := s, channels := some channels, rate := some rate, bits := some bits }
  if bits ≠ 8 ∧ bits ≠ 16 ∧ bits ≠ 32 then return w else
  if (bits = 8 ∨ bits = 16) ∧ AudioFormat ≠ 1 then return w else
  if bits = 32 ∧ AudioFormat ≠ 3 then return w else
  let bytes := Int.tdiv bits 8
  let w := { w with bytes := some bytes }
  let block ← int32 (bytes * channels)
  if block ≠ BlockAlign then return w else
  let rb ← int32 (rate * bytes)
  let rbc ← int32 (rb * channels)
  if rbc ≠ ByteRate then return w else
  if Subchunk1Size = 18 then do
    let (ExtSize, s) := readLE s 2
    if ExtSize ≠ 0 then return { w with is := s } else
    let (SubchunkID, s) := s.read 4
    let differ ← cmp4 FACT SubchunkID
    if differ then return { w with is := s } else
    let (SubchunkSize, s) := readLE s 4
    if SubchunkSize ≠ 4 then return { w with is := s } else
    let (frames, s) := readLE s 4
    Reader.dataChunk { w with is := s, frames := some frames } ChunkSize Subchunk1Size bits bytes channels
  else
    Reader.dataChunk w ChunkSize Subchunk1Size bits bytes channels

/-- One sample. wav.hh:135-138. `int` to `TYPE` conversions are exact. -/
def Reader.sample {α : Type} (T : Sample α) (w : Reader) : M (α × Reader) := do
  let bytes ← get! w.bytes
  if bytes = 4 then
    let (v, s) := readLE w.is 4
    return (T.ofBits (BitVec.ofInt 32 v), { w with is := s })
  else
    let (v, s) := readLE w.is bytes.toNat
    let offset ← get! w.offset
    let factor ← get! w.factor
    return (T.div (T.ofInt (v - offset)) (T.ofInt factor), { w with is := s })

/-- The inner loop, `k` more channels from `c` on. wav.hh:134-139 -/
def Reader.frame {α : Type} (T : Sample α) (stride n : Int) : Nat → Int → Reader → List α → M (Reader × List α)
  | 0, _, w, buf => .ok (w, buf)
  | k + 1, c, w, buf => do
    let (v, w) ← w.sample T
    let buf ← wr buf (stride * n + c) v
    Reader.frame T stride n k (c + 1) w buf

/-- The outer loop, `k` more frames from `n` on. wav.hh:133-140 -/
def Reader.framesLoop {α : Type} (T : Sample α) (stride channels : Int) : Nat → Int → Reader → List α → M (Reader × List α)
  | 0, _, w, buf => .ok (w, buf)
  | k + 1, n, w, buf => do
    let (w, buf) ← Reader.frame T stride n channels.toNat 0 w buf
    Reader.framesLoop T stride channels k (n + 1) w buf

/-- wav.hh:129-141 -/
def Reader.read {α : Type} (T : Sample α) (w : Reader) (buf : List α) (num : Int) (stride : Int := -1) : M (Reader × List α) := do
  let channels ← get! w.channels
  Reader.framesLoop T (if stride < 0 then channels else stride) channels num.toNat 0 w buf

/-- wav.hh:142-145 -/
def Reader.good (w : Reader) : Bool := w.is.ok

/-- wav.hh:146-149 -/
def Reader.skip (w : Reader) (num : Int) : M Reader := do
  let channels ← get! w.channels
  let a ← int32 (num * channels)
  let bytes ← get! w.bytes
  let off ← int32 (a * bytes)
  return { w with is := w.is.seekCur off }

/-- `WriteWAV` without its stream. wav.hh:172-173 -/
structure Writer where
  bytes : Int
  channels : Int
  rate : Int
  offset : Int
  factor : Int
  min : Int
  max : Int
  deriving DecidableEq, Repr

/-- `writeLE(v, b)`: `os.put(255 & (v >> (8 * i)))`. wav.hh:174-178 -/
def writeLE (v : Int) (b : Nat) : List Op :=
  (List.range b).map fun i => .put (((BitVec.ofInt 32 v).sshiftRight (8 * i) &&& 255#32).setWidth 8)

/-- `os.write(s, 4)`. -/
def writeStr (s : List Byte) : List Op := s.map .put

/-- The constructor's `switch`. wav.hh:193-215 -/
def Writer.init (rate bits channels : Int) : Writer × Int :=
  if bits = 8 then (⟨1, channels, rate, 128, 127, 0, 255⟩, 8)
  else if bits = 16 then (⟨2, channels, rate, 0, 32767, -32768, 32767⟩, 16)
  else (⟨4, channels, rate, 0, 1, -1, 1⟩, 32)

/-- The constructor: the object and what it does to the (truncated) file. wav.hh:189-238 -/
def Writer.open (rate bits channels : Int) : M (Writer × List Op) := do
  let (w, bits) := Writer.init rate bits channels
  let rc ← int32 (w.rate * w.channels)
  let byteRate ← int32 (rc * w.bytes)
  let blockAlign ← int32 (w.channels * w.bytes)
  return (w,
    writeStr RIFF ++ writeLE (if bits = 32 then 50 else 36) 4 ++ writeStr WAVE ++ writeStr FMT ++
    (if bits = 32 then writeLE 18 4 ++ writeLE 3 2 else writeLE 16 4 ++ writeLE 1 2) ++
    writeLE w.channels 2 ++ writeLE w.rate 4 ++ writeLE byteRate 4 ++ writeLE blockAlign 2 ++ writeLE (8 * w.bytes) 2 ++
    (if bits = 32 then writeLE 0 2 ++ writeStr FACT ++ writeLE 4 4 ++ writeLE 0 4 else []) ++
    writeStr DATA ++ writeLE (-1) 4)

/-- The destructor, given `os.tellp()`. wav.hh:239-253. The conversion `int(os.tellp())` must fit. -/
def Writer.close (w : Writer) (tellp : Nat) : M (List Op) := do
  let overhead : Nat := if w.bytes = 4 then 58 else 44
  let position ← int32 tellp
  let size := position - (overhead : Int)
  let patch ← M.ite (w.bytes = 4)
    (do
      let block ← int32 (w.bytes * w.channels)
      let frames ← M.ite (block = 0) (.error .divZero) (.ok (Int.tdiv size block))
      return .seek 46 :: writeLE frames 4)
    (return [])
  return .seek 4 :: writeLE (position - 8) 4 ++ patch ++ .seek (overhead - 4) :: writeLE size 4

/-- What is written for one sample. wav.hh:260-265 -/
def Writer.sample {α : Type} (T : Sample α) (w : Writer) (x : α) : M (List Op) :=
  if w.bytes = 4 then .ok (writeLE (T.bits x).toInt 4)
  else do
    let v := T.add (T.ofInt w.offset) (T.mul (T.ofInt w.factor) x)
    let q ← int32 (T.nearbyint (T.min (T.max v (T.ofInt w.min)) (T.ofInt w.max)))
    return writeLE q w.bytes.toNat

/-- The inner loop, `k` more channels from `c` on. wav.hh:259-266 -/
def Writer.frame {α : Type} (T : Sample α) (w : Writer) (buf : List α) (stride n : Int) : Nat → Int → M (List Op)
  | 0, _ => .ok []
  | k + 1, c => do
    let x ← rd buf (stride * n + c)
    let a ← w.sample T x
    let b ← Writer.frame T w buf stride n k (c + 1)
    return a ++ b

/-- The outer loop, `k` more frames from `n` on. wav.hh:258-267 -/
def Writer.framesLoop {α : Type} (T : Sample α) (w : Writer) (buf : List α) (stride : Int) : Nat → Int → M (List Op)
  | 0, _ => .ok []
  | k + 1, n => do
    let a ← w.frame T buf stride n w.channels.toNat 0
    let b ← Writer.framesLoop T w buf stride k (n + 1)
    return a ++ b

/-- wav.hh:254-268 -/
def Writer.write {α : Type} (T : Sample α) (w : Writer) (buf : List α) (num : Int) (stride : Int := -1) : M (List Op) :=
  w.framesLoop T buf (if stride < 0 then w.channels else stride) num.toNat 0

/-- wav.hh:273-277 -/
def Writer.silence (w : Writer) (num : Int) : M (List Op) := do
  let k ← int32 (num * w.channels)
  return (List.replicate k.toNat (writeLE w.offset w.bytes.toNat)).flatten

/-- The life of a writer as seen by the file: constructor, what `write` and `silence` put, destructor. -/
def Writer.session (rate bits channels : Int) (body : Writer → M (List Op)) : M (List Op) := do
  let (w, hdr) ← Writer.open rate bits channels
  let ops ← body w
  let tail ← w.close (OFile.replay (hdr ++ ops)).pos
  return hdr ++ ops ++ tail

end Wav
end DSP
