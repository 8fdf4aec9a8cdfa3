import Verif.Model.Elementary
import Verif.Model.Binary
import Verif.Model.BinarySqrt

/-!
# decibel.hh and exp.hh in any arithmetic

The same as in `Elementary.lean` with the constants and operations of `TYPE`. What a division by zero gives is left to the type.
-/

namespace DSP
namespace Elementary

/-- decibel.hh:18-27 -/
structure DecibelConsts (V : Type) where
  (scale inv1 inv3 inv5 inv7 inv9 inv11 inv13 : V)

/-- The scale as it is written. decibel.hh:20 -/
def scaleDecimal : ℚ := 8894.350989378597430295120259412072085389250678859091274024013479236

/-- Real numbers. decibel.hh:18-27 -/
noncomputable def DecibelConsts.real : DecibelConsts ℝ := ⟨(scaleDecimal : ℝ), 1 / 1, 1 / 3, 1 / 5, 1 / 7, 1 / 9, 1 / 11, 1 / 13⟩

/-- Binary floating point: the scale is a `long double` of `l` bits, converted to `TYPE`; the others are quotients of `TYPE`. decibel.hh:18-27 -/
def DecibelConsts.binary (l p : ℕ) [NeZero p] : DecibelConsts (Binary p) :=
  ⟨Binary.literal l p scaleDecimal, ((1 : ℤ) : Binary p) / ((1 : ℤ) : Binary p), ((1 : ℤ) : Binary p) / ((3 : ℤ) : Binary p), ((1 : ℤ) : Binary p) / ((5 : ℤ) : Binary p),
    ((1 : ℤ) : Binary p) / ((7 : ℤ) : Binary p), ((1 : ℤ) : Binary p) / ((9 : ℤ) : Binary p), ((1 : ℤ) : Binary p) / ((11 : ℤ) : Binary p), ((1 : ℤ) : Binary p) / ((13 : ℤ) : Binary p)⟩

variable {V : Type} [Add V] [Sub V] [Mul V] [Div V] [IntCast V]

/-- decibel.hh:28-30 -/
def roots (sqrt : V → V) (v : V) : V := (List.range 10).foldl (fun x _ => sqrt x) v

/-- decibel.hh:31 -/
def quotient (x : V) : V := (x - ((1 : ℤ) : V)) / (x + ((1 : ℤ) : V))

/-- The sum in the parentheses. decibel.hh:32-34 -/
def series (c : DecibelConsts V) (xx : V) : V := xx * (xx * (xx * (xx * (xx * (xx * c.inv13 + c.inv11) + c.inv9) + c.inv7) + c.inv5) + c.inv3) + c.inv1

/-- decibel.hh:13-37 -/
def decibel (sqrt : V → V) (c : DecibelConsts V) (v : V) : V :=
  let x := quotient (roots sqrt v)
  c.scale * x * series c (x * x)

/-- With real numbers this is the model of `Elementary.lean`. -/
theorem decibel_real (v : ℝ) : DSP.decibel v = .ok (decibel Real.sqrt DecibelConsts.real v) := by
  have h : ∀ (l : List ℕ) (x : ℝ), 0 ≤ x → 0 ≤ l.foldl (fun x _ => Real.sqrt x) x := by
    intro l
    induction l with
    | nil => exact fun x h => h
    | cons a l ih => exact fun x _ => ih _ (Real.sqrt_nonneg x)
  have hr : 0 ≤ roots Real.sqrt v := by
    have := h (List.range' 1 9) (Real.sqrt v) (Real.sqrt_nonneg v)
    exact this
  unfold DSP.decibel
  simp only [bind, Except.bind]
  rw [show (List.range 10).foldl (fun x _ => Real.sqrt x) v = roots Real.sqrt v from rfl]
  unfold fdiv
  rw [if_neg (by linarith)]
  simp only [pure, Except.pure, decibel, quotient, series, DecibelConsts.real, scaleDecimal, Int.cast_one]
  push_cast
  rfl

/-- exp.hh:31-41 -/
structure ExpConsts (V : Type) where
  (LOG210 LG102A LG102B P0 P1 P2 P3 Q0 Q1 Q2 : V)

/-- exp.hh:31-41 -/
def ExpConsts.map {V W : Type} (f : V → W) (c : ExpConsts V) : ExpConsts W := ⟨f c.LOG210, f c.LG102A, f c.LG102B, f c.P0, f c.P1, f c.P2, f c.P3, f c.Q0, f c.Q1, f c.Q2⟩

/-- The constants as they are written. exp.hh:31-41 -/
def ExpConsts.decimal : ExpConsts ℚ where
  LOG210 := 3.32192809488736234787e0
  LG102A := 3.01025390625000000000E-1
  LG102B := 4.60503898119521373889E-6
  P0 := 4.09962519798587023075E-2
  P1 := 1.17452732554344059015E1
  P2 := 4.06717289936872725516E2
  P3 := 2.39423741207388267439E3
  Q0 := 8.50936160849306532625E1
  Q1 := 1.27209271178345121210E3
  Q2 := 2.07960819286001865907E3

/-- Real numbers. exp.hh:31-41 -/
noncomputable def ExpConsts.real : ExpConsts ℝ := decimal.map fun q : ℚ => (q : ℝ)

/-- Binary floating point: the literals are of type `double`. exp.hh:31-41 -/
def ExpConsts.binary (p : ℕ) [NeZero p] : ExpConsts (Binary p) := decimal.map fun q => Binary.literal 53 p q

/-- exp.hh:14-26 -/
def ldexp (x : V) (n : ℤ) : M V := do
  let a ← (if n < 0 then int32 (-n) else pure n : M ℤ)
  let a8 := a.tdiv 8
  let ar := a - a8 * 8
  let s ← Exp.shl a8
  let t := (s : V)
  let t := t * t
  let t := t * t
  let t := t * t
  let r ← Exp.shl ar
  let t := t * (r : V)
  if n < 0 then return x / t else return x * t

/-- `nearbyint` gives the nearest integer, ties to even, which is a number of `TYPE` again: either it is small or the argument was an integer already. exp.hh:28-50 -/
def exp10 (nearbyint : V → ℤ) (c : ExpConsts V) (x : V) : M V := do
  let i := nearbyint (x * c.LOG210)
  let x := x - (i : V) * c.LG102A
  let x := x - (i : V) * c.LG102B
  let xx := x * x
  let py := x * (xx * (xx * (xx * c.P0 + c.P1) + c.P2) + c.P3)
  let qy := xx * (xx * (xx + c.Q0) + c.Q1) + c.Q2
  let pq := ((1 : ℤ) : V) + ((2 : ℤ) : V) * py / (qy - py)
  let n ← int32 i
  ldexp pq n

/-- decibel.hh:39-43 -/
def idecibel (nearbyint : V → ℤ) (c : ExpConsts V) (dB : V) : M V := exp10 nearbyint c (dB / ((10 : ℤ) : V))

end Elementary
end DSP
