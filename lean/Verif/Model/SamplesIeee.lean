import Verif.Model.Wav
import Verif.Model.Pnm
import Verif.Model.DemodIeee

/-!
# Samples and pixels with all special values

To convert an infinity or a NaN to `int` is undefined: they are given a number that no `int` holds, so that `int32` reports it.
-/

namespace DSP

/-- `int(std::nearbyint(x))`, without the check of the range: ties go to even. wav.hh:264, netpbm.hh:131 -/
def Ieee.code {F : Format} : Ieee F → ℤ
  | .num s m => Binary.nearest (Ieee.signed s m)
  | .inf _ => 2147483648
  | .nan => 2147483648

/-- `TYPE` as an IEEE format. wav.hh:137,263-264 -/
def Wav.ieeeSample (F : Format) (bits : Ieee F → BitVec 32) (ofBits : BitVec 32 → Ieee F) : Wav.Sample (Ieee F) where
  ofInt := fun n => (n : Ieee F)
  add := (· + ·)
  mul := (· * ·)
  div := (· / ·)
  min := Ieee.stdMin
  max := Ieee.stdMax
  nearbyint := Ieee.code
  bits := bits
  ofBits := ofBits

namespace Pnm

/-- `srgb`, given its constants. The function `std::pow` is a parameter. netpbm.hh:129-131 -/
def srgbWith {F : Format} (pow : Ieee F → Ieee F → Ieee F) (K0 a phi gamma : Ieee F) (maxval : Int) (val : Ieee F) : M Int :=
  let val := Ieee.stdMin (Ieee.stdMax val 0) 1
  let val := if decide (val < K0 / phi) || val == K0 / phi then val * phi else (1 + a) * pow val (1 / gamma) - a
  int32 (Ieee.code ((maxval : Ieee F) * val))

/-- A constant of type `double`, converted to `TYPE`. netpbm.hh:128 -/
def constant (F : Format) [NeZero F.p] (q : ℚ) : Ieee F := Ieee.literal (Binary.literal 53 F.p q).val

/-- `srgb`. netpbm.hh:126-132 -/
def srgbIeee {F : Format} [NeZero F.p] (pow : Ieee F → Ieee F → Ieee F) (maxval : Int) (val : Ieee F) : M Int :=
  srgbWith pow (constant F 0.04045) (constant F 0.055) (constant F 12.92) (constant F 2.4) maxval val

/-- `linear`, given its constants. The function `std::pow` is a parameter. netpbm.hh:24 -/
def linearWith {F : Format} (pow : Ieee F → Ieee F → Ieee F) (K0 : ℤ) (phi a gamma : Ieee F) (maxval val : ℤ) : Ieee F :=
  if val ≤ K0 then (val : Ieee F) / phi else pow (((val : Ieee F) + a) / ((maxval : Ieee F) + a)) gamma

/-- `linear`. The products with `maxval_` are made in `double`. netpbm.hh:20-25 -/
def linearIeee {F : Format} [NeZero F.p] (pow : Ieee F → Ieee F → Ieee F) (maxval val : ℤ) : Ieee F :=
  linearWith pow (Binary.nearest (Binary.round 53 (Binary.round 53 0.04045 * maxval))) (constant F (Binary.round 53 12.92 * maxval)) (constant F (Binary.round 53 0.055 * maxval)) (constant F 2.4) maxval val

end Pnm
end DSP
