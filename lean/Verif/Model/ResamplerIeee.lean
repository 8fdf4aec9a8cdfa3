import Verif.Model.SplineIeee
import Verif.Model.Hilbert
import Verif.Model.SamplesIeee

/-!
# The resamplers with all special values

`TYPE` and `IO` are the same IEEE format. Dividing by zero gives an infinity or NaN. The filter is a parameter, the constructor is in `Verif.Model.ResamplerRounded`.
-/

namespace DSP

/-- resampler.hh:58-61 -/
structure Resampler2.Machine (F : Format) where
  lpf : NaturalSpline.Rounded (Ieee F)
  rate : Ieee F
  dpos : Ieee F
  buf : List (Ieee F)

namespace Resampler2.Machine

variable {F : Format}

/-- The constant `TYPE(0.5)`. resampler.hh:81,95 -/
def half : Ieee F := .num false (1 / 2)

/-- resampler.hh:88-92 -/
def sum (r : Machine F) (TAPS OVER : ℕ) : M (Ieee F) :=
  (List.range TAPS).foldlM (fun sum (s : ℕ) => do
    let k := ((s : ℤ) : Ieee F) + r.dpos
    let v ← r.lpf.call Ieee.trunc (TAPS * OVER) k
    let u ← rd r.buf s
    return sum + v * u) 0

/-- From the label `again` on. Returns the object, the output array and the count. The argument after `delta` limits the number of rounds. resampler.hh:87-99 -/
def again (TAPS OVER : ℕ) (delta : Ieee F) : ℕ → Machine F → List (Ieee F) → ℕ → M (Machine F × List (Ieee F) × ℕ)
  | 0, _, _, _ => .error .diverge
  | fuel + 1, r, output, samples => do
    let sum ← r.sum TAPS OVER
    let output ← wr output samples sum
    let r := { r with dpos := r.dpos + delta }
    if half < r.dpos then again TAPS OVER delta fuel { r with dpos := r.dpos - 1 } output (samples + 1)
    else return (r, output, samples + 1)

/-- resampler.hh:76-100 -/
def call (TAPS OVER fuel : ℕ) (r : Machine F) (output : List (Ieee F)) (input diff : Ieee F) : M (Machine F × List (Ieee F) × ℕ) := do
  let buf ← shiftIn r.buf TAPS input
  let r := { r with buf }
  if r.dpos < -half then return ({ r with dpos := r.dpos + 1 }, output, 0)
  else again TAPS OVER (diff / r.rate) fuel r output 0

/-- One call in a row of calls: output array, sample and difference of the rates. resampler.hh:76-100 -/
def step (TAPS OVER fuel : ℕ) (r : Machine F) (a : List (Ieee F) × Ieee F × Ieee F) : M (Machine F × List (Ieee F) × ℕ) := call TAPS OVER fuel r a.1 a.2.1 a.2.2

end Resampler2.Machine

/-- Conversion to another format. resampler.hh:37,46 -/
def Ieee.convert {F : Format} (G : Format) : Ieee F → Ieee G
  | .nan => .nan
  | .inf s => .inf s
  | .num s m => .pack s m

/-- resampler.hh:20-21 -/
structure Resampler.Machine (F : Format) where
  lpf : NaturalSpline.Rounded (Ieee F)
  rate : Ieee F

namespace Resampler.Machine

variable {F G : Format}

/-- `double` is the format `G`. resampler.hh:37 -/
def ratio (G : Format) (r : Machine F) (diff : Ieee F) : Ieee G := Ieee.convert G (r.rate / (r.rate + diff))

/-- The inner loop, `s = s0 + j`. resampler.hh:45-48 -/
def sum (r : Machine F) (TAPS OVER : ℕ) (input : List (Ieee F)) (stride s0 : ℤ) (x : Ieee G) : M (Ieee F) :=
  (List.range TAPS).foldlM (fun sum (j : ℕ) => do
    let k := Ieee.convert F (((s0 + j : ℤ) : Ieee G) - x)
    let v ← r.lpf.call Ieee.trunc (TAPS * OVER) k
    let i ← int32 ((s0 + j) * stride)
    let u ← rd input i
    return sum + v * u) 0

/-- The body of the outer loop; `continue` leaves the output as it is. resampler.hh:39-49 -/
def body (r : Machine F) (TAPS OVER : ℕ) (input : List (Ieee F)) (samples stride : ℤ) (ratio : Ieee G) (output : List (Ieee F)) (i : ℕ) : M (List (Ieee F)) := do
  let x := ((i : ℤ) : Ieee G) * ratio
  let s0 ← int32 (Ieee.code x)
  let s1 ← int32 (s0 + TAPS)
  if s0 < 0 ∨ s1 > samples then return output
  else do
    let sum ← r.sum TAPS OVER input stride s0 x
    let i ← int32 ((i + ((TAPS - 1) / 2 : ℕ)) * stride)
    wr output i sum

/-- Returns the output array. Input and output do not overlap. resampler.hh:35-51 -/
def call (G : Format) (r : Machine F) (TAPS OVER : ℕ) (output input : List (Ieee F)) (diff : Ieee F) (samples stride : ℤ) : M (List (Ieee F)) := do
  let n ← int32 (samples - TAPS)
  (List.range n.toNat).foldlM (r.body TAPS OVER input samples stride (r.ratio G diff)) output

end Resampler.Machine
end DSP
