import Verif.Model.Resampler
import Verif.Model.BinaryOrder

/-!
# The positions of resampler.hh in any arithmetic

Only what decides where and how often the filter is applied is modelled here: the position, the loop and the tests. Samples, buffers and the filter are left out; they have no influence on it.
That this is the same as in `Resampler.lean` if the arithmetic is exact is shown in `Props/ResamplerClock.lean`.
-/

namespace DSP

/-- The conversion from one floating point type to another. -/
def Binary.convert {p : ℕ} (q : ℕ) [NeZero q] (x : Binary p) : Binary q := ⟨Binary.round q x.val, Binary.round_representable q (Nat.pos_of_ne_zero (NeZero.ne q)) _⟩

namespace Resampler2.Clock

variable {V : Type} [Zero V] [Add V] [Sub V] [Neg V] [Div V] [LinearOrder V]

/-- From the label `again` on, `one` and `half` are the constants. Returns the position and the list of the positions at which the filter was applied. The argument after
`delta` limits the number of rounds. resampler.hh:87-99 -/
def again (one half delta : V) : ℕ → V → List V → M (V × List V)
  | 0, _, _ => .error .diverge
  | fuel + 1, dpos, output => do
    let output := output ++ [dpos]
    let dpos := dpos + delta
    if dpos > half then again one half delta fuel (dpos - one) output
    else return (dpos, output)

/-- resampler.hh:76-100 -/
def call (one half rate : V) (fuel : ℕ) (dpos diff : V) : M (V × List V) := do
  if dpos < -half then return (dpos + one, [])
  else do
    if rate = 0 then .error .divZero
    else again one half (diff / rate) fuel dpos []

/-- A call with `TYPE` as a floating point type. -/
def binary (p : ℕ) [NeZero p] (rate : Binary p) (fuel : ℕ) (dpos diff : Binary p) : M (Binary p × List (Binary p)) :=
  call 1 (Binary.literal 53 p (1 / 2)) rate fuel dpos diff

end Resampler2.Clock

namespace Resampler

/-- `ratio`, with `TYPE` of `p` bits. resampler.hh:38 -/
def ratio (p q : ℕ) [NeZero p] [NeZero q] (rate diff : Binary p) : M (Binary q) :=
  if rate + diff = 0 then .error .divZero else .ok (Binary.convert q (rate / (rate + diff)))

/-- `x`, with `double` of `q` bits. The conversion of `i` is exact: an `int` has less bits. resampler.hh:41 -/
def position (q : ℕ) [NeZero q] (ratio : Binary q) (i : ℕ) : Binary q := ((i : ℤ) : Binary q) * ratio

/-- `k`. resampler.hh:47 -/
def offset (p q : ℕ) [NeZero p] [NeZero q] (x : Binary q) (s : ℤ) : Binary p := Binary.convert p (((s : ℤ) : Binary q) - x)

end Resampler
end DSP
