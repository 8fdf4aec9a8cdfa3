import Verif.Model.Base

/-!
# Byte streams

The parts of `std::ifstream` and `std::ofstream` that `wav.hh` and `netpbm.hh` use. The standard library is not part of
the repository; this file is the model of what those headers rely on.
-/

namespace DSP

abbrev Byte := BitVec 8

/-- An open input file: contents, position, and whether `good()` holds. Once a read failed the stream stays failed
(`wav.hh` and `netpbm.hh` never call `clear()`). -/
structure IStream where
  data : List Byte
  pos : Nat
  ok : Bool
  deriving DecidableEq, Repr

/-- `is(name)` for an existing file. wav.hh:48, netpbm.hh:43 -/
def IStream.open (data : List Byte) : IStream := ⟨data, 0, true⟩

/-- `is.get()`: the next byte as an `int`, or `EOF` (-1), which sets the fail bits. -/
def IStream.get (s : IStream) : BitVec 32 × IStream :=
  if s.ok then
    match s.data[s.pos]? with
    | some b => (b.setWidth 32, { s with pos := s.pos + 1 })
    | none => (-1, { s with ok := false })
  else (-1, s)

/-- `char a[n]; is.read(a, n)`: cells that were not reached stay uninitialised (`none`). -/
def IStream.read (s : IStream) : Nat → List (Option Byte) × IStream
  | 0 => ([], s)
  | n + 1 =>
    if s.ok then
      match s.data[s.pos]? with
      | some b => let r := IStream.read { s with pos := s.pos + 1 } n; (some b :: r.1, r.2)
      | none => (List.replicate (n + 1) none, { s with ok := false })
    else (List.replicate (n + 1) none, s)

/-- `is.seekg(off, std::ios_base::cur)`: a no-op on a failed stream, fails when the target lies in front of the file, may go
past the end. -/
def IStream.seekCur (s : IStream) (off : Int) : IStream :=
  if s.ok then
    if 0 ≤ (s.pos : Int) + off then { s with pos := ((s.pos : Int) + off).toNat } else { s with ok := false }
  else s

/-- What a program does to an output file: `os.put(b)` or `os.seekp(p)`. -/
inductive Op
  | put (b : Byte)
  | seek (p : Nat)
  deriving DecidableEq, Repr

/-- An output file: contents and put position. The disk is assumed not to fail. -/
structure OFile where
  data : List Byte
  pos : Nat
  deriving DecidableEq, Repr

/-- One operation; a byte put past the end extends the file (`seekp` beyond the end is not used). -/
def OFile.step (f : OFile) : Op → OFile
  | .put b => ⟨if f.pos < f.data.length then f.data.set f.pos b else f.data ++ [b], f.pos + 1⟩
  | .seek p => { f with pos := p }

/-- The file after a sequence of operations on a freshly truncated file. -/
def OFile.replay (ops : List Op) : OFile := ops.foldl OFile.step ⟨[], 0⟩

/-- Checks that a value computed in `int` arithmetic fits. -/
def int32 (v : Int) : M Int := if -2147483648 ≤ v ∧ v ≤ 2147483647 then .ok v else .error .overflow

end DSP
