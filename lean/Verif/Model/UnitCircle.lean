import Verif.Model.Utils
import Verif.Model.Stream
import Verif.Model.Binary
import Verif.Spec.Circle

/-!
# Model of unit_circle.hh

`int` arithmetic is checked for overflow. Values of `TYPE` are of any type `V`, whose arithmetic may be exact or rounded; a division by the integer zero is a fault. The two polynomials and
the constant are a parameter, so that the reduction of the argument can be looked at alone: `Kernels.of` is what the code has, `Kernels.code` the same in exact real arithmetic and
`Kernels.exact` the functions they stand for.
-/

namespace DSP

/-- The polynomials of `UnitCircle` and the constant `Const<TYPE>::TwoPi()`. -/
structure Kernels (V : Type := ℝ) where
  cosine : V → V
  sine : V → V
  twoPi : V

/-- The functions themselves instead of approximations. -/
noncomputable def Kernels.exact : Kernels := ⟨Real.cos, Real.sin, 2 * Real.pi⟩

namespace UnitCircle

/-- The constants as values of `TYPE`. unit_circle.hh:19-33, const.hh:36-40 -/
structure Coeffs (V : Type) where
  (a1 a2 a3 a4 a5 a6 a7 a8 a9 a10 a11 a12 a13 a14 twoPi : V)

/-- The constants as they are written. unit_circle.hh:20-33, const.hh:36-40 -/
def Coeffs.decimal : Coeffs ℚ where
  a1 := 1
  a2 := -0.5
  a3 := -1.66666666666666307295E-1
  a4 := 4.16666666666665929218E-2
  a5 := 8.33333333332211858878E-3
  a6 := -1.38888888888730564116E-3
  a7 := -1.98412698295895385996E-4
  a8 := 2.48015872888517045348E-5
  a9 := 2.75573136213857245213E-6
  a10 := -2.75573141792967388112E-7
  a11 := -2.50507477628578072866E-8
  a12 := 2.08757008419747316778E-9
  a13 := 1.58962301576546568060E-10
  a14 := -1.13585365213876817300E-11
  twoPi := 6.283185307179586476925286766559005768394338798750211641949889184615

def Coeffs.map {V W : Type} (f : V → W) (c : Coeffs V) : Coeffs W where
  a1 := f c.a1
  a2 := f c.a2
  a3 := f c.a3
  a4 := f c.a4
  a5 := f c.a5
  a6 := f c.a6
  a7 := f c.a7
  a8 := f c.a8
  a9 := f c.a9
  a10 := f c.a10
  a11 := f c.a11
  a12 := f c.a12
  a13 := f c.a13
  a14 := f c.a14
  twoPi := f c.twoPi

/-- The constants as real numbers. unit_circle.hh:19-33, const.hh:36-40 -/
noncomputable def Coeffs.real : Coeffs ℝ := Coeffs.decimal.map fun x : ℚ => (x : ℝ)

/-- The constants in binary floating point: those of the polynomials are of type `double`, the other one is a `long double`, of `l` bits. All are converted to `TYPE`, of `p` bits.
unit_circle.hh:19-33, const.hh:36-40 -/
def Coeffs.binary (l p : ℕ) [NeZero p] : Coeffs (Binary p) := { Coeffs.decimal.map (Binary.literal 53 p) with twoPi := Binary.literal l p Coeffs.decimal.twoPi }

variable {V : Type} [Add V] [Mul V] [Neg V] [Div V] [IntCast V]

/-- unit_circle.hh:35-38,43-46 -/
def cosineApprox (c : Coeffs V) (x : V) : V :=
  let xx := x * x
  c.a1 + xx * (xx * (xx * (xx * (xx * (xx * (xx * c.a14 + c.a12) + c.a10) + c.a8) + c.a6) + c.a4) + c.a2)

/-- unit_circle.hh:39-42,47-50 -/
def sineApprox (c : Coeffs V) (x : V) : V :=
  let xx := x * x
  x * (xx * (xx * (xx * (xx * (xx * (xx * c.a13 + c.a11) + c.a9) + c.a7) + c.a5) + c.a3) + c.a1)

end UnitCircle

/-- The code, given the constants. unit_circle.hh:35-55 -/
def Kernels.of {V : Type} [Add V] [Mul V] (c : UnitCircle.Coeffs V) : Kernels V := ⟨UnitCircle.cosineApprox c, UnitCircle.sineApprox c, c.twoPi⟩

/-- The code in exact arithmetic. unit_circle.hh:19-55 -/
noncomputable def Kernels.code : Kernels := Kernels.of UnitCircle.Coeffs.real

namespace UnitCircle

variable {V : Type} [Neg V] [Mul V] [Div V] [IntCast V]

/-- `rad(n, N)`. unit_circle.hh:52-55 -/
def rad (K : Kernels V) (n N : ℤ) : M V := if N = 0 then .error .divZero else .ok (K.twoPi * (n : V) / (N : V))

/-- `f(rad(a*n+b*N, d*N))`; multiplications by one and additions of zero stand for the absence of the operation. -/
def ev (K : Kernels V) (f : V → V) (n N a b d : ℤ) : M V := do
  let an ← int32 (a * n)
  let bN ← int32 (b * N)
  let s ← int32 (an + bN)
  let dN ← int32 (d * N)
  let r ← rad K s dN
  return f r

/-- `8*n < c0*N ? e0 : 8*n < c1*N ? e1 : ... : last` -/
def chain (n N : ℤ) : List (ℤ × M V) → M V → M V
  | [], last => last
  | (c, e) :: l, last => do
    let n8 ← int32 (8 * n)
    let cN ← int32 (c * N)
    if n8 < cN then e else chain n N l last

/-- unit_circle.hh:56-68 -/
def cos (K : Kernels V) (n N : ℤ) : M V :=
  chain n N
    [(-7, ev K K.cosine n N 1 1 1),
     (-5, ev K (fun r => -K.sine r) n N 4 3 4),
     (-3, ev K (fun r => -K.cosine r) n N 2 1 2),
     (-1, ev K K.sine n N 4 1 4),
     (1, ev K K.cosine n N 1 0 1),
     (3, ev K (fun r => -K.sine r) n N 4 (-1) 4),
     (5, ev K (fun r => -K.cosine r) n N 2 (-1) 2),
     (7, ev K K.sine n N 4 (-3) 4)]
    (ev K K.cosine n N 1 (-1) 1)

/-- unit_circle.hh:69-81 -/
def sin (K : Kernels V) (n N : ℤ) : M V :=
  chain n N
    [(-7, ev K K.sine n N 1 1 1),
     (-5, ev K K.cosine n N 4 3 4),
     (-3, ev K (fun r => -K.sine r) n N 2 1 2),
     (-1, ev K (fun r => -K.cosine r) n N 4 1 4),
     (1, ev K K.sine n N 1 0 1),
     (3, ev K K.cosine n N 4 (-1) 4),
     (5, ev K (fun r => -K.sine r) n N 2 (-1) 2),
     (7, ev K (fun r => -K.cosine r) n N 4 (-3) 4)]
    (ev K K.sine n N 1 (-1) 1)

end UnitCircle
end DSP
