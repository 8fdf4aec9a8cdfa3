import Verif.Model.Hilbert
import Verif.Model.Spline
import Verif.Model.Pnm
import Mathlib.Algebra.Module.Defs

/-!
# Models of resampler.hh

`TYPE` is `ℝ`, and so are the variables of type `double`; `IO` is any vector space `A` over it, `•` is its scaling. Arithmetic is exact, that of `int` is checked for overflow,
and so are conversions to `int`, divisions and array accesses. `TAPS` and `OVER` are at least one.
-/

namespace DSP

namespace Resampling

/-- The prototype filter, in both constructors. `tmp` and `junk` are what the arrays hold before they are set. resampler.hh:25-32,65-72 -/
noncomputable def lpf (TAPS OVER : ℕ) (rate cutoff alpha : ℝ) (tmp junk : List ℝ) : M NaturalSpline := do
  let tmp ← (List.range (TAPS * OVER)).foldlM (fun tmp (n : ℕ) => do
    let x1 ← fdiv n OVER
    let x2 ← fdiv ((TAPS : ℝ) - 1) 2
    let c ← fdiv (2 * cutoff) rate
    let y := c * sinc (c * (x1 - x2))
    let w ← Win.kaiser alpha n (TAPS * OVER : ℕ)
    wr tmp n (y * w)) tmp
  let dx ← fdiv 1 OVER
  NaturalSpline.make (TAPS * OVER) junk tmp 0 dx 1

end Resampling

/-- resampler.hh:20-21 -/
structure Resampler where
  lpf : NaturalSpline
  rate : ℝ

namespace Resampler

/-- resampler.hh:23-33 -/
noncomputable def make (TAPS OVER : ℕ) (rate cutoff alpha : ℝ) (tmp junk : List ℝ) : M Resampler := do
  let lpf ← Resampling.lpf TAPS OVER rate cutoff alpha tmp junk
  return ⟨lpf, rate⟩

variable {A : Type} [AddCommGroup A] [Module ℝ A]

/-- The inner loop, `s = s0 + j`. resampler.hh:45-48 -/
noncomputable def sum (r : Resampler) (TAPS OVER : ℕ) (input : List A) (stride s0 : ℤ) (x : ℝ) : M A :=
  (List.range TAPS).foldlM (fun sum (j : ℕ) => do
    let k := ((s0 + j : ℤ) : ℝ) - x
    let v ← r.lpf.call (TAPS * OVER) k
    let p ← int32 ((s0 + j) * stride)
    let u ← rd input p
    return sum + v • u) 0

/-- The body of the outer loop; `continue` leaves the output as it is. resampler.hh:39-49 -/
noncomputable def body (r : Resampler) (TAPS OVER : ℕ) (input : List A) (samples stride : ℤ) (ratio : ℝ) (output : List A) (i : ℕ) : M (List A) := do
  let x := i * ratio
  let s0 ← int32 (Pnm.nearbyint x)
  let s1 ← int32 (s0 + TAPS)
  if s0 < 0 ∨ s1 > samples then return output
  else do
    let sum ← r.sum TAPS OVER input stride s0 x
    let p ← int32 ((i + ((TAPS - 1) / 2 : ℕ)) * stride)
    wr output p sum

/-- Returns the output array. Input and output do not overlap. resampler.hh:35-51 -/
noncomputable def call (r : Resampler) (TAPS OVER : ℕ) (output input : List A) (diff : ℝ) (samples stride : ℤ) : M (List A) := do
  let ratio ← fdiv r.rate (r.rate + diff)
  let n ← int32 (samples - TAPS)
  (List.range n.toNat).foldlM (r.body TAPS OVER input samples stride ratio) output

end Resampler

/-- resampler.hh:58-61 -/
structure Resampler2 (A : Type) where
  lpf : NaturalSpline
  rate : ℝ
  dpos : ℝ
  buf : List A

namespace Resampler2

variable {A : Type} [AddCommGroup A] [Module ℝ A]

/-- `buf` is the array before the constructor. resampler.hh:63-75 -/
noncomputable def make (TAPS OVER : ℕ) (rate cutoff alpha : ℝ) (tmp junk : List ℝ) (buf : List A) : M (Resampler2 A) := do
  let lpf ← Resampling.lpf TAPS OVER rate cutoff alpha tmp junk
  let buf ← clear buf TAPS
  return ⟨lpf, rate, 0, buf⟩

/-- resampler.hh:88-92 -/
noncomputable def sum (r : Resampler2 A) (TAPS OVER : ℕ) : M A :=
  (List.range TAPS).foldlM (fun sum (s : ℕ) => do
    let k := s + r.dpos
    let v ← r.lpf.call (TAPS * OVER) k
    let u ← rd r.buf s
    return sum + v • u) 0

/-- From the label `again` on. Returns the object, the output array and the count. The first argument limits the number of rounds. resampler.hh:87-99 -/
noncomputable def again (TAPS OVER : ℕ) (delta : ℝ) : ℕ → Resampler2 A → List A → ℕ → M (Resampler2 A × List A × ℕ)
  | 0, _, _, _ => .error .diverge
  | fuel + 1, r, output, samples => do
    let sum ← r.sum TAPS OVER
    let output ← wr output samples sum
    let r := { r with dpos := r.dpos + delta }
    if r.dpos > 1 / 2 then again TAPS OVER delta fuel { r with dpos := r.dpos - 1 } output (samples + 1)
    else return (r, output, samples + 1)

/-- resampler.hh:76-100 -/
noncomputable def call (r : Resampler2 A) (TAPS OVER fuel : ℕ) (output : List A) (input : A) (diff : ℝ) : M (Resampler2 A × List A × ℕ) := do
  let buf ← shiftIn r.buf TAPS input
  let r := { r with buf }
  if r.dpos < -1 / 2 then return ({ r with dpos := r.dpos + 1 }, output, 0)
  else do
    let delta ← fdiv diff r.rate
    again TAPS OVER delta fuel r output 0

/-- A call, as a machine that takes the array for the output, the input and the difference, and gives the array and the count. -/
noncomputable def step (TAPS OVER fuel : ℕ) (r : Resampler2 A) (i : List A × A × ℝ) : M (Resampler2 A × List A × ℕ) := r.call TAPS OVER fuel i.1 i.2.1 i.2.2

end Resampler2
end DSP
