import Verif.Model.Ieee
import Verif.Model.BinarySqrt
import Verif.Model.DemodRounded

/-!
# Models of amd.hh, normalize.hh and fmd.hh with all special values

No division fails here: dividing by zero gives an infinity or NaN. The structures are those of `Verif.Model.DemodRounded`.
-/

namespace DSP
namespace Ieee

variable {F : Format}

/-- To the nearest number of the format, like `roundTo`. -/
noncomputable def roundReal (F : Format) (x : ℝ) : ℚ :=
  let e := max F.emin (Int.log 2 |x| + 1 - F.p)
  Binary.nearestReal (x / 2 ^ e) * 2 ^ e

/-- The square root as IEEE 754 prescribes it. -/
noncomputable def sqrt : Ieee F → Ieee F
  | nan => nan
  | inf s => if s then nan else inf false
  | num s m => if m = 0 then num s 0 else if s then nan else num false |roundReal F (Real.sqrt m)|

/-- `std::max`: `(a < b) ? b : a` -/
def stdMax (a b : Ieee F) : Ieee F := if a < b then b else a

/-- `std::min`: `(b < a) ? b : a` -/
def stdMin (a b : Ieee F) : Ieee F := if b < a then b else a

end Ieee

namespace AMDRounded

variable {F : Format}

/-- `operator()` with `std::min` and `std::max`. amd.hh:32-39 -/
noncomputable def callIeee (f : AMDRounded (Ieee F)) (input : Cplx (Ieee F)) : AMDRounded (Ieee F) × Ieee F :=
  let amp := input.abs Ieee.sqrt
  let avg := lerp f.avg amp (if amp < f.avg then f.dec else f.att)
  let avg := Ieee.stdMin (Ieee.stdMax avg f.lo) f.hi
  let amp := amp / avg
  ({ f with avg }, (amp * (1 + f.idx) - 1) / f.idx)

end AMDRounded

namespace NormalizeRounded

variable {F : Format}

/-- normalize.hh:28-33 -/
noncomputable def callIeee (f : NormalizeRounded (Ieee F)) (input : Ieee F) : NormalizeRounded (Ieee F) × Ieee F :=
  let (hpf, tmp) := f.hpf.call input
  let (lpf, y) := f.lpf.call (tmp * tmp)
  let amp := Ieee.sqrt (2 * y)
  (⟨hpf, lpf⟩, tmp / amp)

end NormalizeRounded

namespace NormalizeIQRounded

variable {F : Format}

/-- normalize.hh:46-49 -/
noncomputable def callIeee (f : NormalizeIQRounded (Ieee F)) (iq : Cplx (Ieee F)) : NormalizeIQRounded (Ieee F) × Cplx (Ieee F) :=
  let (ni, re) := f.ni.callIeee iq.re
  let (nq, im) := f.nq.callIeee iq.im
  (⟨ni, nq⟩, ⟨re, im⟩)

end NormalizeIQRounded

/-! ### fmd.hh -/

namespace FMDRounded

variable {F : Format}

/-- `Const::Pi()`. const.hh:31-35 -/
def piIeee (l : ℕ) (F : Format) [NeZero F.p] : Ieee F := Ieee.literal (constPi l F.p).val

/-- `Const::TwoPi()`. const.hh:36-40 -/
def twoPiIeee (l : ℕ) (F : Format) [NeZero F.p] : Ieee F := Ieee.literal (constTwoPi l F.p).val

/-- `bandwidth`: the scale, with `pi` as in `scale`. fmd.hh:30-33,55-58,78-81,101-104,127-130 -/
def scaleIeee (pi bw : Ieee F) : Ieee F := 1 / (bw * pi)

/-- `FMD1::operator()` is `call1`. fmd.hh:34-41 -/
def call1Ieee (atan2 : Ieee F → Ieee F → Ieee F) (pi twoPi scale prev : Ieee F) (input : Cplx (Ieee F)) : Ieee F × Ieee F :=
  call1 atan2 pi twoPi scale prev input

/-- `FMD2::operator()`. fmd.hh:59-64 -/
def call2Ieee (atan2 : Ieee F → Ieee F → Ieee F) (scale : Ieee F) (prev input : Cplx (Ieee F)) : Cplx (Ieee F) × Ieee F :=
  let phase := (input.div prev).arg atan2
  (input, scale * phase)

/-- `FMD3::operator()`. fmd.hh:82-87 -/
def call3Ieee (atan2 : Ieee F → Ieee F → Ieee F) (scale : Ieee F) (prev input : Cplx (Ieee F)) : Cplx (Ieee F) × Ieee F :=
  let phase := (input * prev.conj).arg atan2
  (input, scale * phase)

/-- `FMD4::operator()`. fmd.hh:105-113 -/
def call4Ieee (scale : Ieee F) (prev input : Cplx (Ieee F)) : Cplx (Ieee F) × Ieee F :=
  let phase := prev.re * input.im - prev.im * input.re
  let phase := phase / input.norm
  (input, scale * phase)

/-- `FMD5::operator()`: the state is `prev1` and `prev2`. fmd.hh:131-140 -/
def call5Ieee (scale : Ieee F) (prev : Cplx (Ieee F) × Cplx (Ieee F)) (input : Cplx (Ieee F)) : (Cplx (Ieee F) × Cplx (Ieee F)) × Ieee F :=
  let diff := input - prev.2
  let phase := prev.1.re * diff.im - prev.1.im * diff.re
  let phase := phase / prev.1.norm
  ((input, prev.1), scale * phase)

end FMDRounded
end DSP
