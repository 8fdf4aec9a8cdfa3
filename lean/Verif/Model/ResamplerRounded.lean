import Verif.Model.ResamplerClock
import Verif.Model.SplineRounded
import Verif.Model.WindowRounded

/-!
# Models of resampler.hh in floating point

`TYPE` and `IO` have `p` bits, `double` has `q`, the literals `l`. The exponent is unbounded. The arithmetic of `int` is checked for overflow, and so are conversions to `int`, divisions and array accesses.
The function `sin` of the C library is a parameter. `TAPS` and `OVER` are at least one.
-/

namespace DSP

namespace Resampling.Rounded

variable (l p q : ℕ) [NeZero p] [NeZero q]

/-- One coefficient. The twice computed quotient `TYPE(2) * cutoff / rate` is computed once. resampler.hh:28-30,68-70 -/
noncomputable def coefficient (sin : Binary p → Binary p) (TAPS OVER : ℕ) (rate cutoff alpha : Binary p) (n : ℕ) : M (Binary p) := do
  let x1 ← Fir.Rounded.fdiv ((n : ℤ) : Binary p) ((OVER : ℤ) : Binary p)
  let x2 ← Fir.Rounded.fdiv (((TAPS : ℤ) - 1 : ℤ) : Binary p) ((2 : ℤ) : Binary p)
  let c ← Fir.Rounded.fdiv (((2 : ℤ) : Binary p) * cutoff) rate
  let s ← Fir.Rounded.sinc sin (Win.Rounded.pi l p) (c * (x1 - x2))
  let y := c * s
  let w ← Win.Rounded.kaiserBinary l p alpha n (TAPS * OVER : ℕ)
  return y * w

/-- The prototype filter, in both constructors. `tmp` and `junk` are what the arrays hold before they are set. The step `1.0 / OVER` is computed in `double`. resampler.hh:25-32,65-72 -/
noncomputable def lpf (sin : Binary p → Binary p) (TAPS OVER : ℕ) (rate cutoff alpha : Binary p) (tmp junk : List (Binary p)) : M (NaturalSpline.Rounded (Binary p)) := do
  let tmp ← (List.range (TAPS * OVER)).foldlM (fun tmp (n : ℕ) => do
    let v ← coefficient l p sin TAPS OVER rate cutoff alpha n
    wr tmp n v) tmp
  let dx ← Fir.Rounded.fdiv ((1 : ℤ) : Binary q) ((OVER : ℤ) : Binary q)
  NaturalSpline.Rounded.make (TAPS * OVER) junk tmp ((0 : ℤ) : Binary p) (Binary.convert p dx) 1

end Resampling.Rounded

/-- resampler.hh:58-61 -/
structure Resampler2.Rounded (p : ℕ) where
  lpf : NaturalSpline.Rounded (Binary p)
  rate : Binary p
  dpos : Binary p
  buf : List (Binary p)

namespace Resampler2.Rounded

variable {p : ℕ} [NeZero p]

/-- `buf` is the array before the constructor. resampler.hh:63-75 -/
noncomputable def make (l q : ℕ) [NeZero q] (sin : Binary p → Binary p) (TAPS OVER : ℕ) (rate cutoff alpha : Binary p) (tmp junk buf : List (Binary p)) : M (Resampler2.Rounded p) := do
  let lpf ← Resampling.Rounded.lpf l p q sin TAPS OVER rate cutoff alpha tmp junk
  let buf ← clear buf TAPS
  return ⟨lpf, rate, 0, buf⟩

/-- resampler.hh:88-92 -/
def sum (r : Resampler2.Rounded p) (TAPS OVER : ℕ) : M (Binary p) :=
  (List.range TAPS).foldlM (fun sum (s : ℕ) => do
    let k := ((s : ℤ) : Binary p) + r.dpos
    let v ← r.lpf.call Binary.trunc (TAPS * OVER) k
    let u ← rd r.buf s
    return sum + v * u) 0

/-- From the label `again` on, `half` is the constant. Returns the object, the output array and the count. The argument after `delta` limits the number of rounds. resampler.hh:87-99 -/
def again (half : Binary p) (TAPS OVER : ℕ) (delta : Binary p) : ℕ → Resampler2.Rounded p → List (Binary p) → ℕ → M (Resampler2.Rounded p × List (Binary p) × ℕ)
  | 0, _, _, _ => .error .diverge
  | fuel + 1, r, output, samples => do
    let sum ← r.sum TAPS OVER
    let output ← wr output samples sum
    let r := { r with dpos := r.dpos + delta }
    if r.dpos > half then again half TAPS OVER delta fuel { r with dpos := r.dpos - 1 } output (samples + 1)
    else return (r, output, samples + 1)

/-- resampler.hh:76-100 -/
def call (r : Resampler2.Rounded p) (TAPS OVER fuel : ℕ) (output : List (Binary p)) (input diff : Binary p) : M (Resampler2.Rounded p × List (Binary p) × ℕ) := do
  let half := Binary.literal 53 p (1 / 2)
  let buf ← shiftIn r.buf TAPS input
  let r := { r with buf }
  if r.dpos < -half then return ({ r with dpos := r.dpos + 1 }, output, 0)
  else do
    let delta ← if r.rate = 0 then .error .divZero else .ok (diff / r.rate)
    again half TAPS OVER delta fuel r output 0

/-- A call, as a machine that takes the array for the output, the input and the difference, and gives the array and the count. -/
def step (TAPS OVER fuel : ℕ) (r : Resampler2.Rounded p) (i : List (Binary p) × Binary p × Binary p) : M (Resampler2.Rounded p × List (Binary p) × ℕ) := r.call TAPS OVER fuel i.1 i.2.1 i.2.2

end Resampler2.Rounded

/-- resampler.hh:20-21 -/
structure Resampler.Rounded (p : ℕ) where
  lpf : NaturalSpline.Rounded (Binary p)
  rate : Binary p

namespace Resampler.Rounded

variable {p : ℕ} [NeZero p]

/-- resampler.hh:23-33 -/
noncomputable def make (l q : ℕ) [NeZero q] (sin : Binary p → Binary p) (TAPS OVER : ℕ) (rate cutoff alpha : Binary p) (tmp junk : List (Binary p)) : M (Resampler.Rounded p) := do
  let lpf ← Resampling.Rounded.lpf l p q sin TAPS OVER rate cutoff alpha tmp junk
  return ⟨lpf, rate⟩

variable {q : ℕ} [NeZero q]

/-- The inner loop, `s = s0 + j`. resampler.hh:45-48 -/
def sum (r : Resampler.Rounded p) (TAPS OVER : ℕ) (input : List (Binary p)) (stride s0 : ℤ) (x : Binary q) : M (Binary p) :=
  (List.range TAPS).foldlM (fun sum (j : ℕ) => do
    let k := offset p q x (s0 + j)
    let v ← r.lpf.call Binary.trunc (TAPS * OVER) k
    let i ← int32 ((s0 + j) * stride)
    let u ← rd input i
    return sum + v * u) 0

/-- The body of the outer loop; `continue` leaves the output as it is. resampler.hh:39-49 -/
def body (r : Resampler.Rounded p) (TAPS OVER : ℕ) (input : List (Binary p)) (samples stride : ℤ) (ratio : Binary q) (output : List (Binary p)) (i : ℕ) : M (List (Binary p)) := do
  let x := position q ratio i
  let s0 ← int32 (Binary.nearest x.val)
  let s1 ← int32 (s0 + TAPS)
  if s0 < 0 ∨ s1 > samples then return output
  else do
    let sum ← r.sum TAPS OVER input stride s0 x
    let i ← int32 ((i + ((TAPS - 1) / 2 : ℕ)) * stride)
    wr output i sum

/-- Returns the output array. Input and output do not overlap. resampler.hh:35-51 -/
def call (q : ℕ) [NeZero q] (r : Resampler.Rounded p) (TAPS OVER : ℕ) (output input : List (Binary p)) (diff : Binary p) (samples stride : ℤ) : M (List (Binary p)) := do
  let ratio ← ratio p q r.rate diff
  let n ← int32 (samples - TAPS)
  (List.range n.toNat).foldlM (r.body TAPS OVER input samples stride ratio) output

end Resampler.Rounded
end DSP
