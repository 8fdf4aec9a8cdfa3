import Verif.Model.FFT

/-!
# RealToHalfComplexTransform and fdzp.hh in any arithmetic

The same as in `FFT.lean`, but with `DSP::Complex` over any type of values. `one` and `half` are the constants `TYPE(1).real()` and `value_type(0.5)`.
-/

namespace DSP

variable {V : Type} [Zero V] [Add V] [Sub V] [Mul V] [Neg V] [Div V] [IntCast V]

namespace FFT.Rounded

/-- The constructor of `RealToHalfComplexTransform`: the factors. fft.hh:1139-1140 -/
def factors (T : Trig V) (N : Nat) : List (Cplx V) := (List.range N).map fun n => ⟨T.cos n N, -T.sin n N⟩

/-- `sincos`. fft.hh:1142-1145 -/
def sincos (T : Trig V) (BINS n : Nat) : Cplx V := ⟨T.sin n BINS, T.cos n BINS⟩

/-- `A[n]`. fft.hh:1146 -/
def halfA (T : Trig V) (one half : V) (BINS n : Nat) : Cplx V := half • (Cplx.ofReal one - sincos T BINS n)

/-- `B[n]`. fft.hh:1147 -/
def halfB (T : Trig V) (one half : V) (BINS n : Nat) : Cplx V := half • (Cplx.ofReal one + sincos T BINS n)

/-- The loop body. fft.hh:1156-1158 -/
def combine (N : Nat) (A B : List (Cplx V)) (out : List (Cplx V)) (i' : Nat) : M (List (Cplx V)) := do
  let i : Nat := i' + 1
  let outi ← rd out (i : Int)
  let Ai ← rd A (i : Int)
  let outr ← rd out ((N - i : Nat) : Int)
  let Bi ← rd B (i : Int)
  let tmp := outi * Ai + outr.conj * Bi
  let Ar ← rd A ((N - i : Nat) : Int)
  let Br ← rd B ((N - i : Nat) : Int)
  let out ← wr out ((N - i : Nat) : Int) (outr * Ar + outi.conj * Br)
  wr out (i : Int) tmp

/-- `RealToHalfComplexTransform::operator ()`. fft.hh:1150-1160 -/
def halfComplex (T : Trig V) (one half : V) (BINS : Nat) (out : List (Cplx V)) (inp : List V) : M (List (Cplx V)) := do
  let N := BINS / 2
  let A := (List.range N).map (halfA T one half BINS)
  let B := (List.range N).map (halfB T one half BINS)
  let pairs := (List.range (inp.length / 2)).map fun n => (⟨inp.getD (2 * n) 0, inp.getD (2 * n + 1) 0⟩ : Cplx V)
  let out ← dit T (-1) N N 1 out 0 pairs 0 (factors T N)
  let out0 ← rd out 0
  let out ← wr out (N : Int) ⟨half * (out0.re - out0.im), 0⟩
  let out0 ← rd out 0
  let out ← wr out 0 ⟨half * (out0.re + out0.im), 0⟩
  (List.range (N / 2)).foldlM (combine N A B) out

end FFT.Rounded

namespace FDZP.Rounded

/-- `SCALE`. fdzp.hh:20 -/
def scale (one : V) (INPUT : Nat) : V := one / ((INPUT : ℤ) : V)

/-- `FDZP::operator ()`. fdzp.hh:23-37 -/
def call (T : FFT.Trig V) (one half : V) (OUTPUT INPUT : Nat) (tmp output input : List (Cplx V)) : M (List (Cplx V) × List (Cplx V)) := do
  let tmp ← FFT.call T (-1) INPUT tmp input
  let tmp ← M.ite (INPUT % 2 == 0) (do
      let t ← rd tmp ((INPUT / 2 : Nat) : Int)
      let tmp ← wr tmp ((INPUT / 2 : Nat) : Int) (t.smulAssign half)
      let t ← rd tmp ((INPUT / 2 : Nat) : Int)
      wr tmp ((OUTPUT - INPUT / 2 : Nat) : Int) t)
    (return tmp)
  let first := (INPUT + 1) / 2 + 1
  let tmp ← (List.range (INPUT - first)).foldlM (fun tmp (a : Nat) => do
    let t ← rd tmp ((first + a : Nat) : Int)
    wr tmp ((OUTPUT - INPUT + (first + a) : Nat) : Int) t) tmp
  let tmp ← (List.range (INPUT - first)).foldlM (fun tmp (a : Nat) => wr tmp ((first + a : Nat) : Int) 0) tmp
  let output ← FFT.call T 1 OUTPUT output tmp
  let output ← (List.range OUTPUT).foldlM (fun output (i : Nat) => do
    let v ← rd output (i : Int)
    wr output (i : Int) (v.smulAssign (scale one INPUT))) output
  return (tmp, output)

/-- The default constructor of `CMPLX` sets all of `tmp` to zero. fdzp.hh:19 -/
def init (OUTPUT : Nat) : List (Cplx V) := List.replicate OUTPUT 0

end FDZP.Rounded
end DSP
