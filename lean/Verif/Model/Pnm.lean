import Verif.Model.Stream
import Mathlib.Analysis.SpecialFunctions.Pow.Real
import Mathlib.Algebra.Order.Round

/-!
# Model of netpbm.hh

Stream errors other than reaching the end of the file are not modelled (see `Model/Stream.lean`). The transfer functions are
modelled with exact real numbers; everything else is independent of the sample type.
-/

namespace DSP
namespace Pnm

/-- netpbm.hh:26-29 -/
def space (c : Int) : Bool := c == 32 || c == 10 || c == 9

/-- netpbm.hh:30-33 -/
def newline (c : Int) : Bool := c == 10

/-- netpbm.hh:34-37 -/
def digit (c : Int) : Bool := decide (48 ≤ c) && decide (c ≤ 57)

/-- netpbm.hh:38-41 -/
def value (c : Int) : Int := c - 48

/-- `is.get()` as an `int`. -/
def get (s : IStream) : Int × IStream := let (c, s) := s.get; (c.toInt, s)

/-- `while (is.good() && !newline(is.get()));` The first argument bounds the number of iterations. netpbm.hh:67 -/
def skipLine : Nat → IStream → M IStream
  | fuel, s =>
    if s.ok then
      match fuel with
      | 0 => .error .diverge
      | fuel + 1 =>
        let (c, s) := get s
        if newline c then .ok s else skipLine fuel s
    else .ok s

/-- `for (c = is.get(); c == '#'; c = is.get()) …` after the first `c = is.get()`. netpbm.hh:66-67 -/
def comments : Nat → Int → IStream → M (Int × IStream)
  | fuel, c, s =>
    if c = 35 then
      match fuel with
      | 0 => .error .diverge
      | fuel + 1 => do
        let s ← skipLine (s.data.length + 1) s
        let (c, s) := get s
        comments fuel c s
    else .ok (c, s)

/-- `while (space(c)) c = is.get();` netpbm.hh:68-69 -/
def spaces : Nat → Int → IStream → M (Int × IStream)
  | fuel, c, s =>
    if space c then
      match fuel with
      | 0 => .error .diverge
      | fuel + 1 =>
        let (c, s) := get s
        spaces fuel c s
    else .ok (c, s)

/-- `for (num[i] = 0; digit(c); c = is.get()) num[i] = 10 * num[i] + value(c);` netpbm.hh:70-71 -/
def digits : Nat → Int → Int → IStream → M (Int × Int × IStream)
  | fuel, num, c, s =>
    if digit c then
      match fuel with
      | 0 => .error .diverge
      | fuel + 1 => do
        let ten ← int32 (10 * num)
        let num ← int32 (ten + value c)
        let (c, s) := get s
        digits fuel num c s
    else .ok (num, c, s)

/-- One number of the header: the body of the loop netpbm.hh:64-72. Returns it, the character behind it and the stream. -/
def number (c : Int) (s : IStream) : M (Int × Int × IStream) := do
  let (c, s) ← M.ite (newline c = true)
    (let (c, s) := get s; comments (s.data.length + 1) c s)
    (.ok (c, s))
  let (c, s) ← spaces (s.data.length + 1) c s
  digits (s.data.length + 1) 0 c s

/-- `ReadPNM`. Members that were never set are `none`. netpbm.hh:17-19 -/
structure Reader where
  is : IStream
  mono : Option Bool := none
  width : Option Int := none
  height : Option Int := none
  maxval : Option Int := none
  deriving DecidableEq, Repr

/-- The constructor from the blank behind the format number on. netpbm.hh:60-77 -/
def Reader.fields (mono : Bool) (s : IStream) : M Reader := do
  let (c, s) := get s
  if space c = false then return { is := s, mono := some mono } else
  let (n0, c, s) ← number c s
  let (n1, c, s) ← number c s
  let (n2, c, s) ← number c s
  if space c = false then return { is := s, mono := some mono } else
  return { is := s, mono := some mono, width := some n0, height := some n1, maxval := some n2 }

/-- The constructor. netpbm.hh:43-78 -/
def Reader.open (data : List Byte) : M Reader := do
  let (c, s) := get (IStream.open data)
  if c ≠ 80 then return { is := s } else
  let (c, s) := get s
  if digit c = false then return { is := s } else
  if value c = 5 then Reader.fields true s
  else if value c = 6 then Reader.fields false s
  else return { is := s }

/-- A member that must have been set. -/
def get! {β : Type} (x : Option β) : M β :=
  match x with
  | some v => .ok v
  | none => .error .uninit

/-- The loops of `read`, `k` more pixels from `i` on. `lin` is `linear` with the current `maxval_`. netpbm.hh:84-87, 91-98 -/
def Reader.loop {α : Type} (lin : Int → α) (mono : Bool) (stride : Int) : Nat → Int → IStream → List α → M (IStream × List α)
  | 0, _, s, buf => .ok (s, buf)
  | k + 1, i, s, buf =>
    if mono then do
      let (G, s) := get s
      let buf ← wr buf (stride * i) (lin G)
      Reader.loop lin mono stride k (i + 1) s buf
    else do
      let (R, s) := get s
      let (G, s) := get s
      let (B, s) := get s
      let buf ← wr buf (stride * i + 0) (lin R)
      let buf ← wr buf (stride * i + 1) (lin G)
      let buf ← wr buf (stride * i + 2) (lin B)
      Reader.loop lin mono stride k (i + 1) s buf

/-- `read`. `lin maxval val` is `linear(val)`. netpbm.hh:79-100 -/
def Reader.read {α : Type} (lin : Int → Int → α) (r : Reader) (buf : List α) (num : Int) (stride : Int := -1) : M (Reader × List α) := do
  let mono ← get! r.mono
  let stride := if stride < 0 then (if mono then 1 else 3) else stride
  let maxval ← M.ite (num ≤ 0) (.ok 0) (get! r.maxval)
  let (s, buf) ← Reader.loop (lin maxval) mono stride num.toNat 0 r.is buf
  return ({ r with is := s }, buf)

/-- netpbm.hh:101-104 -/
def Reader.good (r : Reader) : Bool := r.is.ok

/-- `os << int` for a non-negative number: its decimal digits. -/
def decimal (n : Nat) : List Byte :=
  if n < 10 then [BitVec.ofNat 8 (48 + n)] else decimal (n / 10) ++ [BitVec.ofNat 8 (48 + n % 10)]

/-- `os << int`. -/
def putInt (n : Int) : List Byte := if n < 0 then 45 :: decimal n.natAbs else decimal n.natAbs

/-- `WritePNM` without its stream. netpbm.hh:123-124 -/
structure Writer where
  width : Int
  height : Int
  maxval : Int
  mono : Bool
  deriving DecidableEq, Repr

/-- The constructor: the object and the bytes it writes. netpbm.hh:134-140 -/
def Writer.open (width height : Int) (mono : Bool := false) (maxval : Int := 255) : Writer × List Byte :=
  (⟨width, height, maxval, mono⟩,
    [80] ++ putInt (if mono then 5 else 6) ++ [32] ++ putInt width ++ [32] ++ putInt height ++ [32] ++ putInt maxval ++ [10])

/-- `os.put(v)` for an `int`: the low byte. -/
def put (v : Int) : Byte := BitVec.ofInt 8 v

/-- The loops of `write`. `enc` is `srgb` with the current `maxval_`. netpbm.hh:146-149, 153-160 -/
def Writer.loop {α : Type} (enc : α → Int) (mono : Bool) (buf : List α) (stride : Int) : Nat → Int → M (List Byte)
  | 0, _ => .ok []
  | k + 1, i =>
    if mono then do
      let g ← rd buf (stride * i)
      let rest ← Writer.loop enc mono buf stride k (i + 1)
      return put (enc g) :: rest
    else do
      let r ← rd buf (stride * i + 0)
      let g ← rd buf (stride * i + 1)
      let b ← rd buf (stride * i + 2)
      let rest ← Writer.loop enc mono buf stride k (i + 1)
      return put (enc r) :: put (enc g) :: put (enc b) :: rest

/-- `write`: the bytes it puts. `enc maxval val` is `srgb(val)`. netpbm.hh:141-162 -/
def Writer.write {α : Type} (enc : Int → α → Int) (w : Writer) (buf : List α) (num : Int) (stride : Int := -1) : M (List Byte) :=
  let stride := if stride < 0 then (if w.mono then 1 else 3) else stride
  Writer.loop (enc w.maxval) w.mono buf stride num.toNat 0

/-- `std::nearbyint` in the default rounding mode: to nearest, ties to even. -/
noncomputable def nearbyint (x : ℝ) : ℤ :=
  if Int.fract x = 1 / 2 then (if Even ⌊x⌋ then ⌊x⌋ else ⌊x⌋ + 1) else ⌊x + 1 / 2⌋

/-- `linear` on exact reals. netpbm.hh:20-25 -/
noncomputable def linear (maxval val : Int) : ℝ :=
  let K0 : Int := nearbyint (0.04045 * maxval)
  let phi : ℝ := 12.92 * maxval
  let a : ℝ := 0.055 * maxval
  let gamma : ℝ := 2.4
  if val ≤ K0 then val / phi else ((val + a) / (maxval + a)) ^ gamma

/-- `srgb` on exact reals. netpbm.hh:126-132 -/
noncomputable def srgb (maxval : Int) (val : ℝ) : Int :=
  let K0 : ℝ := 0.04045
  let a : ℝ := 0.055
  let phi : ℝ := 12.92
  let gamma : ℝ := 2.4
  let val := min (max val 0) 1
  let val := if val ≤ K0 / phi then val * phi else (1 + a) * val ^ (1 / gamma) - a
  nearbyint (maxval * val)

end Pnm
end DSP
