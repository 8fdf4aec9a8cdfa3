import Verif.Model.WindowRounded
import Verif.Model.UnitCircleIeee
import Verif.Model.DemodIeee

/-!
# window.hh with the limits of the exponent

The generic models of `Model/WindowRounded.lean` with the numbers of a format.
-/

namespace DSP.Win

/-- `TYPE(x)` for a constant `x` of type `double` or `int`. window.hh:27,36,48 -/
def constant (F : Format) [NeZero F.p] (x : ℚ) : Ieee F := Ieee.literal (Binary.literal 53 F.p x).val

/-- `Const<TYPE>::Pi()`, from a `long double` of `l` bits. const.hh:31-35 -/
def piIeee (l : ℕ) (F : Format) [NeZero F.p] : Ieee F := Ieee.literal (Rounded.pi l F.p).val

/-- window.hh:22-29 -/
def hannIeee (l : ℕ) (F : Format) [NeZero F.p] (n N : ℤ) : M (Ieee F) := Rounded.hann (Kernels.of (UnitCircle.Coeffs.ieee l F)) (constant F 1) (constant F 0.5) n N

/-- window.hh:31-38 -/
def hammingIeee (l : ℕ) (F : Format) [NeZero F.p] (n N : ℤ) : M (Ieee F) := Rounded.hamming (Kernels.of (UnitCircle.Coeffs.ieee l F)) (constant F 0.54) (constant F 0.46) n N

/-- window.hh:40-52 -/
def lanczosIeee (l : ℕ) (F : Format) [NeZero F.p] (n N : ℤ) : M (Ieee F) := Rounded.lanczos (Kernels.of (UnitCircle.Coeffs.ieee l F)) (piIeee l F) (constant F 1) n N

/-- `Blackman(a0, a1, a2)`. window.hh:54-59,63-67 -/
def blackmanIeee (l : ℕ) (F : Format) [NeZero F.p] (a0 a1 a2 : Ieee F) (n N : ℤ) : M (Ieee F) := Rounded.blackman (Kernels.of (UnitCircle.Coeffs.ieee l F)) a0 a1 a2 n N

/-- `Blackman()`. window.hh:61-67 -/
def blackmanExactIeee (l : ℕ) (F : Format) [NeZero F.p] (n N : ℤ) : M (Ieee F) :=
  blackmanIeee l F (((7938 : ℤ) : Ieee F) / ((18608 : ℤ) : Ieee F)) (((9240 : ℤ) : Ieee F) / ((18608 : ℤ) : Ieee F)) (((1430 : ℤ) : Ieee F) / ((18608 : ℤ) : Ieee F)) n N

/-- `Kaiser(a)`. The square root is rounded correctly. window.hh:81-117 -/
noncomputable def kaiserIeee (l : ℕ) (F : Format) [NeZero F.p] (a : Ieee F) (n N : ℤ) : M (Ieee F) := Rounded.kaiser Ieee.sqrt (piIeee l F) (constant F 1) a n N

end DSP.Win
