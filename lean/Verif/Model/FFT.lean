import Verif.Model.Base
import Verif.Model.Complex
import Mathlib.LinearAlgebra.Complex.Module

/-!
# Model of fft.hh

`TYPE` is any type `A` of complex numbers made of values `V`; its arithmetic is whatever the operations of the two types are, exact or rounded. The exact complex numbers are `ℂ` (that
`DSP::Complex` over the reals behaves like them is property C30), `DSP.Cplx` over the floating point numbers of `Verif.Model.Binary` is the type the code is used with. The functions
of `UnitCircle` and `Const` that the transform uses are parameters. Template recursion is recursion on numbers; an instantiation that does not exist is the
fault `diverge`. `out` and `in` are different arrays.

The index tables were copied from fft.hh by `tools/fft_tables.py`, which also checks on the text of fft.hh that all odd radix
butterflies have the shape `oddDft`, that `SIGN = -1` reverses the outputs and that all thirteen combination steps are the ones of `dit`.
-/

namespace DSP
namespace FFT

/-- `TYPE` has a real and an imaginary part of type `TYPE::value_type` and is made of them. complex.hh:19-21 -/
class Parts (V : outParam Type) (A : Type) where
  re : A → V
  im : A → V
  make : V → V → A

instance : Parts ℝ ℂ := ⟨Complex.re, Complex.im, Complex.mk⟩

instance {V : Type} : Parts V (Cplx V) := ⟨Cplx.re, Cplx.im, Cplx.mk⟩

/-- What fft.hh takes from `UnitCircle` and `Const`. -/
structure Trig (V : Type) where
  cos : Nat → Nat → V
  sin : Nat → Nat → V
  invSqrtTwo : V

variable {V A : Type} [Parts V A] [Zero V] [Add V] [Sub V] [Mul V] [IntCast V] [Zero A] [Add A] [Sub A] [Mul A] [SMul V A]

/-- `Const<TYPE>::InvSqrtTwo()` is a complex number. fft.hh:15-19 -/
def rsqrt2 (T : Trig V) (a : A) : A := (Parts.make T.invSqrtTwo 0 : A) * a

/-- fft.hh:21-25 -/
def cx (T : Trig V) (n N : Nat) (a : A) : A := T.cos n N • a

/-- fft.hh:27-31 -/
def sx (T : Trig V) (n N : Nat) (a : A) : A := T.sin n N • a

/-- fft.hh:33-38 -/
def fiddle (a b : A) : A :=
  let c := a + b
  let d := a - b
  Parts.make (Parts.re d + Parts.im c) (Parts.im d - Parts.re c)

/-- fft.hh:40-44 -/
def twiddle (a b : A) : A := Parts.make (Parts.im a - Parts.im b) (Parts.re b - Parts.re a)

/-- fft.hh:46-49 -/
def pow2 (N : Nat) : Bool := N &&& (N - 1) == 0

/-- fft.hh:51-54 -/
def pow4 (N : Nat) : Bool := pow2 N && N &&& 0x55555555 != 0

/-- fft.hh:56-59 -/
def pow8 (N : Nat) : Bool := pow2 N && N &&& 0x49249249 != 0

/-- fft.hh:61-79 -/
def split (N : Nat) : Nat :=
  if N % 31 = 0 then 31
  else if N % 29 = 0 then 29
  else if N % 23 = 0 then 23
  else if N % 19 = 0 then 19
  else if N % 17 = 0 then 17
  else if N % 13 = 0 then 13
  else if N % 11 = 0 then 11
  else if N % 7 = 0 then 7
  else if N % 5 = 0 then 5
  else if N % 3 = 0 then 3
  else if N % 8 = 0 ∧ pow8 N then 8
  else if N % 8 = 0 ∧ pow8 (N / 2) then 2
  else if N % 4 = 0 ∧ pow4 N then 4
  else if N % 2 = 0 then 2
  else 1

/-- Indices of `cx` in the radix 3 butterfly, fft.hh:144-145. -/
def c3 : List (List Nat) := [[1]]
/-- Signs and indices of `sx` in the radix 3 butterfly, fft.hh:144-145. -/
def s3 : List (List Int) := [[1]]

/-- Indices of `cx` in the radix 5 butterfly, fft.hh:255-258. -/
def c5 : List (List Nat) := [[1, 2], [2, 1]]
/-- Signs and indices of `sx` in the radix 5 butterfly, fft.hh:255-258. -/
def s5 : List (List Int) := [[1, 2], [2, -1]]

/-- Indices of `cx` in the radix 7 butterfly, fft.hh:316-321. -/
def c7 : List (List Nat) := [[1, 2, 3], [2, 3, 1], [3, 1, 2]]
/-- Signs and indices of `sx` in the radix 7 butterfly, fft.hh:316-321. -/
def s7 : List (List Int) := [[1, 2, 3], [2, -3, -1], [3, -1, 2]]

/-- Indices of `cx` in the radix 11 butterfly, fft.hh:446-455. -/
def c11 : List (List Nat) := [[1, 2, 3, 4, 5], [2, 4, 5, 3, 1], [3, 5, 2, 1, 4], [4, 3, 1, 5, 2], [5, 1, 4, 2, 3]]
/-- Signs and indices of `sx` in the radix 11 butterfly, fft.hh:446-455. -/
def s11 : List (List Int) := [[1, 2, 3, 4, 5], [2, 4, -5, -3, -1], [3, -5, -2, 1, 4], [4, -3, 1, 5, -2], [5, -1, 4, -2, 3]]

/-- Indices of `cx` in the radix 13 butterfly, fft.hh:522-533. -/
def c13 : List (List Nat) := [[1, 2, 3, 4, 5, 6], [2, 4, 6, 5, 3, 1], [3, 6, 4, 1, 2, 5], [4, 5, 1, 3, 6, 2], [5, 3, 2, 6, 1, 4], [6, 1, 5, 2, 4, 3]]
/-- Signs and indices of `sx` in the radix 13 butterfly, fft.hh:522-533. -/
def s13 : List (List Int) := [[1, 2, 3, 4, 5, 6], [2, 4, 6, -5, -3, -1], [3, 6, -4, -1, 2, 5], [4, -5, -1, 3, -6, -2], [5, -3, 2, -6, -1, 4], [6, -1, 5, -2, 4, -3]]

/-- Indices of `cx` in the radix 17 butterfly, fft.hh:604-619. -/
def c17 : List (List Nat) := [[1, 2, 3, 4, 5, 6, 7, 8], [2, 4, 6, 8, 7, 5, 3, 1], [3, 6, 8, 5, 2, 1, 4, 7], [4, 8, 5, 1, 3, 7, 6, 2], [5, 7, 2, 3, 8, 4, 1, 6], [6, 5, 1, 7, 4, 2, 8, 3], [7, 3, 4, 6, 1, 8, 2, 5], [8, 1, 7, 2, 6, 3, 5, 4]]
/-- Signs and indices of `sx` in the radix 17 butterfly, fft.hh:604-619. -/
def s17 : List (List Int) := [[1, 2, 3, 4, 5, 6, 7, 8], [2, 4, 6, 8, -7, -5, -3, -1], [3, 6, -8, -5, -2, 1, 4, 7], [4, 8, -5, -1, 3, 7, -6, -2], [5, -7, -2, 3, 8, -4, 1, 6], [6, -5, 1, 7, -4, 2, 8, -3], [7, -3, 4, -6, 1, 8, -2, 5], [8, -1, 7, -2, 6, -3, 5, -4]]

/-- Indices of `cx` in the radix 19 butterfly, fft.hh:695-712. -/
def c19 : List (List Nat) := [[1, 2, 3, 4, 5, 6, 7, 8, 9], [2, 4, 6, 8, 9, 7, 5, 3, 1], [3, 6, 9, 7, 4, 1, 2, 5, 8], [4, 8, 7, 3, 1, 5, 9, 6, 2], [5, 9, 4, 1, 6, 8, 3, 2, 7], [6, 7, 1, 5, 8, 2, 4, 9, 3], [7, 5, 2, 9, 3, 4, 8, 1, 6], [8, 3, 5, 6, 2, 9, 1, 7, 4], [9, 1, 8, 2, 7, 3, 6, 4, 5]]
/-- Signs and indices of `sx` in the radix 19 butterfly, fft.hh:695-712. -/
def s19 : List (List Int) := [[1, 2, 3, 4, 5, 6, 7, 8, 9], [2, 4, 6, 8, -9, -7, -5, -3, -1], [3, 6, 9, -7, -4, -1, 2, 5, 8], [4, 8, -7, -3, 1, 5, 9, -6, -2], [5, -9, -4, 1, 6, -8, -3, 2, 7], [6, -7, -1, 5, -8, -2, 4, -9, -3], [7, -5, 2, 9, -3, 4, -8, -1, 6], [8, -3, 5, -6, 2, -9, -1, 7, -4], [9, -1, 8, -2, 7, -3, 6, -4, 5]]

/-- Indices of `cx` in the radix 23 butterfly, fft.hh:792-813. -/
def c23 : List (List Nat) := [[1, 2, 3, 4, 5, 6, 7, 8, 9, 10, 11], [2, 4, 6, 8, 10, 11, 9, 7, 5, 3, 1], [3, 6, 9, 11, 8, 5, 2, 1, 4, 7, 10], [4, 8, 11, 7, 3, 1, 5, 9, 10, 6, 2], [5, 10, 8, 3, 2, 7, 11, 6, 1, 4, 9], [6, 11, 5, 1, 7, 10, 4, 2, 8, 9, 3], [7, 9, 2, 5, 11, 4, 3, 10, 6, 1, 8], [8, 7, 1, 9, 6, 2, 10, 5, 3, 11, 4], [9, 5, 4, 10, 1, 8, 6, 3, 11, 2, 7], [10, 3, 7, 6, 4, 9, 1, 11, 2, 8, 5], [11, 1, 10, 2, 9, 3, 8, 4, 7, 5, 6]]
/-- Signs and indices of `sx` in the radix 23 butterfly, fft.hh:792-813. -/
def s23 : List (List Int) := [[1, 2, 3, 4, 5, 6, 7, 8, 9, 10, 11], [2, 4, 6, 8, 10, -11, -9, -7, -5, -3, -1], [3, 6, 9, -11, -8, -5, -2, 1, 4, 7, 10], [4, 8, -11, -7, -3, 1, 5, 9, -10, -6, -2], [5, 10, -8, -3, 2, 7, -11, -6, -1, 4, 9], [6, -11, -5, 1, 7, -10, -4, 2, 8, -9, -3], [7, -9, -2, 5, -11, -4, 3, 10, -6, 1, 8], [8, -7, 1, 9, -6, 2, 10, -5, 3, 11, -4], [9, -5, 4, -10, -1, 8, -6, 3, -11, -2, 7], [10, -3, 7, -6, 4, -9, 1, 11, -2, 8, -5], [11, -1, 10, -2, 9, -3, 8, -4, 7, -5, 6]]

/-- Indices of `cx` in the radix 29 butterfly, fft.hh:900-927. -/
def c29 : List (List Nat) := [[1, 2, 3, 4, 5, 6, 7, 8, 9, 10, 11, 12, 13, 14], [2, 4, 6, 8, 10, 12, 14, 13, 11, 9, 7, 5, 3, 1], [3, 6, 9, 12, 14, 11, 8, 5, 2, 1, 4, 7, 10, 13], [4, 8, 12, 13, 9, 5, 1, 3, 7, 11, 14, 10, 6, 2], [5, 10, 14, 9, 4, 1, 6, 11, 13, 8, 3, 2, 7, 12], [6, 12, 11, 5, 1, 7, 13, 10, 4, 2, 8, 14, 9, 3], [7, 14, 8, 1, 6, 13, 9, 2, 5, 12, 10, 3, 4, 11], [8, 13, 5, 3, 11, 10, 2, 6, 14, 7, 1, 9, 12, 4], [9, 11, 2, 7, 13, 4, 5, 14, 6, 3, 12, 8, 1, 10], [10, 9, 1, 11, 8, 2, 12, 7, 3, 13, 6, 4, 14, 5], [11, 7, 4, 14, 3, 8, 10, 1, 12, 6, 5, 13, 2, 9], [12, 5, 7, 10, 2, 14, 3, 9, 8, 4, 13, 1, 11, 6], [13, 3, 10, 6, 7, 9, 4, 12, 1, 14, 2, 11, 5, 8], [14, 1, 13, 2, 12, 3, 11, 4, 10, 5, 9, 6, 8, 7]]
/-- Signs and indices of `sx` in the radix 29 butterfly, fft.hh:900-927. -/
def s29 : List (List Int) := [[1, 2, 3, 4, 5, 6, 7, 8, 9, 10, 11, 12, 13, 14], [2, 4, 6, 8, 10, 12, 14, -13, -11, -9, -7, -5, -3, -1], [3, 6, 9, 12, -14, -11, -8, -5, -2, 1, 4, 7, 10, 13], [4, 8, 12, -13, -9, -5, -1, 3, 7, 11, -14, -10, -6, -2], [5, 10, -14, -9, -4, 1, 6, 11, -13, -8, -3, 2, 7, 12], [6, 12, -11, -5, 1, 7, 13, -10, -4, 2, 8, 14, -9, -3], [7, 14, -8, -1, 6, 13, -9, -2, 5, 12, -10, -3, 4, 11], [8, -13, -5, 3, 11, -10, -2, 6, 14, -7, 1, 9, -12, -4], [9, -11, -2, 7, -13, -4, 5, 14, -6, 3, 12, -8, 1, 10], [10, -9, 1, 11, -8, 2, 12, -7, 3, 13, -6, 4, 14, -5], [11, -7, 4, -14, -3, 8, -10, 1, 12, -6, 5, -13, -2, 9], [12, -5, 7, -10, 2, 14, -3, 9, -8, 4, -13, -1, 11, -6], [13, -3, 10, -6, 7, -9, 4, -12, 1, 14, -2, 11, -5, 8], [14, -1, 13, -2, 12, -3, 11, -4, 10, -5, 9, -6, 8, -7]]

/-- Indices of `cx` in the radix 31 butterfly, fft.hh:1021-1050. -/
def c31 : List (List Nat) := [[1, 2, 3, 4, 5, 6, 7, 8, 9, 10, 11, 12, 13, 14, 15], [2, 4, 6, 8, 10, 12, 14, 15, 13, 11, 9, 7, 5, 3, 1], [3, 6, 9, 12, 15, 13, 10, 7, 4, 1, 2, 5, 8, 11, 14], [4, 8, 12, 15, 11, 7, 3, 1, 5, 9, 13, 14, 10, 6, 2], [5, 10, 15, 11, 6, 1, 4, 9, 14, 12, 7, 2, 3, 8, 13], [6, 12, 13, 7, 1, 5, 11, 14, 8, 2, 4, 10, 15, 9, 3], [7, 14, 10, 3, 4, 11, 13, 6, 1, 8, 15, 9, 2, 5, 12], [8, 15, 7, 1, 9, 14, 6, 2, 10, 13, 5, 3, 11, 12, 4], [9, 13, 4, 5, 14, 8, 1, 10, 12, 3, 6, 15, 7, 2, 11], [10, 11, 1, 9, 12, 2, 8, 13, 3, 7, 14, 4, 6, 15, 5], [11, 9, 2, 13, 7, 4, 15, 5, 6, 14, 3, 8, 12, 1, 10], [12, 7, 5, 14, 2, 10, 9, 3, 15, 4, 8, 11, 1, 13, 6], [13, 5, 8, 10, 3, 15, 2, 11, 7, 6, 12, 1, 14, 4, 9], [14, 3, 11, 6, 8, 9, 5, 12, 2, 15, 1, 13, 4, 10, 7], [15, 1, 14, 2, 13, 3, 12, 4, 11, 5, 10, 6, 9, 7, 8]]
/-- Signs and indices of `sx` in the radix 31 butterfly, fft.hh:1021-1050. -/
def s31 : List (List Int) := [[1, 2, 3, 4, 5, 6, 7, 8, 9, 10, 11, 12, 13, 14, 15], [2, 4, 6, 8, 10, 12, 14, -15, -13, -11, -9, -7, -5, -3, -1], [3, 6, 9, 12, 15, -13, -10, -7, -4, -1, 2, 5, 8, 11, 14], [4, 8, 12, -15, -11, -7, -3, 1, 5, 9, 13, -14, -10, -6, -2], [5, 10, 15, -11, -6, -1, 4, 9, 14, -12, -7, -2, 3, 8, 13], [6, 12, -13, -7, -1, 5, 11, -14, -8, -2, 4, 10, -15, -9, -3], [7, 14, -10, -3, 4, 11, -13, -6, 1, 8, 15, -9, -2, 5, 12], [8, -15, -7, 1, 9, -14, -6, 2, 10, -13, -5, 3, 11, -12, -4], [9, -13, -4, 5, 14, -8, 1, 10, -12, -3, 6, 15, -7, 2, 11], [10, -11, -1, 9, -12, -2, 8, -13, -3, 7, -14, -4, 6, -15, -5], [11, -9, 2, 13, -7, 4, 15, -5, 6, -14, -3, 8, -12, -1, 10], [12, -7, 5, -14, -2, 10, -9, 3, 15, -4, 8, -11, 1, 13, -6], [13, -5, 8, -10, 3, -15, -2, 11, -7, 6, -12, 1, 14, -4, 9], [14, -3, 11, -6, 8, -9, 5, -12, 2, -15, -1, 13, -4, 10, -7], [15, -1, 14, -2, 13, -3, 12, -4, 11, -5, 10, -6, 9, -7, 8]]

/-- `Dit<R, R, STRIDE, TYPE, 1>::dft` for odd `R`: `a_j` and `t_j` come from inputs `j` and `R - j`, `c_k` and `s_k` are the sums
over the rows of the tables, and the outputs are `in0 + c_k ∓ s_k`. All sums are taken from left to right. E.g. fft.hh:250-264 for `R = 5`. -/
def oddDft (T : Trig V) (R : Nat) (ctab : List (List Nat)) (stab : List (List Int)) (x : Nat → A) : List A :=
  let a (j : Nat) : A := x j + x (R - j)
  let t (j : Nat) : A := twiddle (x j) (x (R - j))
  let ci (k j : Nat) : Nat := (ctab.getD (k - 1) []).getD (j - 1) 0
  let si (k j : Nat) : Int := (stab.getD (k - 1) []).getD (j - 1) 0
  let c (k : Nat) : A := (List.range ((R - 1) / 2 - 1)).foldl (fun sum j => sum + cx T (ci k (j + 2)) R (a (j + 2))) (cx T (ci k 1) R (a 1))
  let s (k : Nat) : A := (List.range ((R - 1) / 2 - 1)).foldl
    (fun sum j => if si k (j + 2) < 0 then sum - sx T (si k (j + 2)).natAbs R (t (j + 2)) else sum + sx T (si k (j + 2)).natAbs R (t (j + 2)))
    (sx T (si k 1).natAbs R (t 1))
  (List.range R).map fun k =>
    if k = 0 then (List.range ((R - 1) / 2)).foldl (fun sum j => sum + a (j + 1)) (x 0)
    else if k ≤ (R - 1) / 2 then x 0 + c k - s k
    else x 0 + c (R - k) + s (R - k)

/-- fft.hh:96-100 -/
def dft2 (x : Nat → A) : List A := [x 0 + x 1, x 0 - x 1]

/-- fft.hh:195-204 -/
def dft4 (x : Nat → A) : List A :=
  let a := x 0 + x 2
  let b := x 0 - x 2
  let c := x 1 + x 3
  let d := twiddle (x 1) (x 3)
  [a + c, b - d, a - c, b + d]

/-- fft.hh:375-392 -/
def dft8 (T : Trig V) (x : Nat → A) : List A :=
  let a := x 0 + x 4
  let b := x 0 - x 4
  let c := x 1 + x 5
  let d := x 1 - x 5
  let e := x 2 + x 6
  let f := twiddle (x 2) (x 6)
  let g := x 3 + x 7
  let h := x 3 - x 7
  let cpg := c + g
  let tcg := twiddle c g
  let fdh := rsqrt2 T (fiddle d h)
  let fhd := rsqrt2 T (fiddle h d)
  [a + e + cpg, b - f - fhd, a - e - tcg, b + f - fdh, a + e - cpg, b - f + fhd, a - e + tcg, b + f + fdh]

/-- `Dit<R, R, STRIDE, TYPE, 1>::dft`, by radix: the outputs, given the inputs. -/
def dftPos (T : Trig V) (R : Nat) (x : Nat → A) : List A :=
  if R = 2 then dft2 x
  else if R = 3 then oddDft T 3 c3 s3 x
  else if R = 4 then dft4 x
  else if R = 5 then oddDft T 5 c5 s5 x
  else if R = 7 then oddDft T 7 c7 s7 x
  else if R = 8 then dft8 T x
  else if R = 11 then oddDft T 11 c11 s11 x
  else if R = 13 then oddDft T 13 c13 s13 x
  else if R = 17 then oddDft T 17 c17 s17 x
  else if R = 19 then oddDft T 19 c19 s19 x
  else if R = 23 then oddDft T 23 c23 s23 x
  else if R = 29 then oddDft T 29 c29 s29 x
  else if R = 31 then oddDft T 31 c31 s31 x
  else []

/-- `Dit<R, R, STRIDE, TYPE, SIGN>::dft`: for `SIGN = -1` the outputs other than the first are reversed, e.g. fft.hh:124-129; radix 2 has one version
for both signs, fft.hh:93-105. -/
def dft (T : Trig V) (SIGN : Int) (R : Nat) (x : Nat → A) : List A :=
  let y := dftPos T R x
  if SIGN = -1 ∧ R ≠ 2 then y.take 1 ++ (y.drop 1).reverse else y

/-- `out[o + a * QUOTIENT] = y[a]` for all `a`: the pointers passed to `dft`. -/
def store (out : List A) (o step : Nat) (y : List A) : M (List A) :=
  (List.range y.length).foldlM (fun out a => wr out ((o + a * step : Nat) : Int) (y.getD a 0)) out

/-- `Dit<split(BINS), BINS, STRIDE, TYPE, SIGN>::dit(out + o, in + i, z)`. The first argument bounds the recursion depth.
fft.hh:81-1106: 84-91 (one bin), 101-104, 130-134, … (leaves), 107-119, 157-174, … (combination steps) -/
def dit (T : Trig V) (SIGN : Int) : Nat → Nat → Nat → List A → Nat → List A → Nat → List A → M (List A)
  | 0, _, _, _, _, _, _, _ => .error .diverge
  | fuel + 1, BINS, STRIDE, out, o, inp, i, z =>
    let RADIX := split BINS
    if RADIX = 1 then
      if BINS = 1 then do
        let v ← rd inp (i : Int)
        wr out (o : Int) v
      else .error .diverge
    else if RADIX = BINS then do
      let xs ← (List.range RADIX).mapM fun a => rd inp ((i + a * STRIDE : Nat) : Int)
      store out o 1 (dft T SIGN RADIX fun a => xs.getD a 0)
    else do
      let QUOTIENT := BINS / RADIX
      let out ← (List.range RADIX).foldlM
        (fun out a => dit T SIGN fuel QUOTIENT (RADIX * STRIDE) out (o + a * QUOTIENT) inp (i + a * STRIDE) z) out
      (List.range QUOTIENT).foldlM (fun out k0 => do
        let xs ← (List.range RADIX).mapM fun a => do
          let v ← rd out ((o + k0 + a * QUOTIENT : Nat) : Int)
          if a = 0 then return v else
          let w ← rd z ((k0 * (a * STRIDE) : Nat) : Int)
          return w * v
        store out (o + k0) QUOTIENT (dft T SIGN RADIX fun a => xs.getD a 0)) out

/-- The constructor of `FastFourierTransform`: the factors. fft.hh:1117-1121 -/
def factors (T : Trig V) (SIGN : Int) (BINS : Nat) : List A :=
  (List.range BINS).map fun n => Parts.make (T.cos n BINS) ((SIGN : V) * T.sin n BINS)

/-- `FastFourierTransform::operator ()`. fft.hh:1122-1125 -/
def call (T : Trig V) (SIGN : Int) (BINS : Nat) (out inp : List A) : M (List A) :=
  dit T SIGN BINS BINS 1 out 0 inp 0 (factors T SIGN BINS)

/-! The rest is about exact arithmetic only. -/

/-- The constructor of `RealToHalfComplexTransform`: `A[n]`. fft.hh:1141-1148 -/
noncomputable def halfA (T : Trig ℝ) (BINS n : Nat) : ℂ := ((1 / 2 : ℝ) : ℂ) * (1 - ⟨T.sin n BINS, T.cos n BINS⟩)

/-- The constructor of `RealToHalfComplexTransform`: `B[n]`. fft.hh:1141-1148 -/
noncomputable def halfB (T : Trig ℝ) (BINS n : Nat) : ℂ := ((1 / 2 : ℝ) : ℂ) * (1 + ⟨T.sin n BINS, T.cos n BINS⟩)

/-- `RealToHalfComplexTransform::operator ()`. The `reinterpret_cast` makes complex numbers of pairs of values; `N - i` does not
get negative. fft.hh:1150-1160 -/
noncomputable def halfComplex (T : Trig ℝ) (BINS : Nat) (out : List ℂ) (inp : List ℝ) : M (List ℂ) := do
  let N := BINS / 2
  let A := (List.range N).map (halfA T BINS)
  let B := (List.range N).map (halfB T BINS)
  let pairs := (List.range (inp.length / 2)).map fun n => (⟨inp.getD (2 * n) 0, inp.getD (2 * n + 1) 0⟩ : ℂ)
  let out ← dit T (-1) N N 1 out 0 pairs 0 (factors T (-1) N)
  let out0 ← rd out 0
  let out ← wr out (N : Int) (((1 / 2 : ℝ) * (out0.re - out0.im) : ℝ) : ℂ)
  let out0 ← rd out 0
  let out ← wr out 0 (((1 / 2 : ℝ) * (out0.re + out0.im) : ℝ) : ℂ)
  (List.range (N / 2)).foldlM (fun out (i' : Nat) => do
    let i : Nat := i' + 1
    let outi ← rd out (i : Int)
    let Ai ← rd A (i : Int)
    let outr ← rd out ((N - i : Nat) : Int)
    let Bi ← rd B (i : Int)
    let tmp := outi * Ai + (starRingEnd ℂ) outr * Bi
    let Ar ← rd A ((N - i : Nat) : Int)
    let Br ← rd B ((N - i : Nat) : Int)
    let out ← wr out ((N - i : Nat) : Int) (outr * Ar + (starRingEnd ℂ) outi * Br)
    wr out (i : Int) tmp) out

end FFT

/-! ### fdzp.hh -/

namespace FDZP

open FFT

/-- `FDZP::operator ()`: `tmp` is the state of the object. fdzp.hh:23-37 -/
noncomputable def call (T : Trig ℝ) (OUTPUT INPUT : Nat) (tmp output input : List ℂ) : M (List ℂ × List ℂ) := do
  let tmp ← FFT.call T (-1) INPUT tmp input
  let tmp ← M.ite (INPUT % 2 == 0) (do
      let t ← rd tmp ((INPUT / 2 : Nat) : Int)
      let tmp ← wr tmp ((INPUT / 2 : Nat) : Int) (((1 / 2 : ℝ) : ℂ) * t)
      let t ← rd tmp ((INPUT / 2 : Nat) : Int)
      wr tmp ((OUTPUT - INPUT / 2 : Nat) : Int) t)
    (return tmp)
  let first := (INPUT + 1) / 2 + 1
  let tmp ← (List.range (INPUT - first)).foldlM (fun tmp (a : Nat) => do
    let t ← rd tmp ((first + a : Nat) : Int)
    wr tmp ((OUTPUT - INPUT + (first + a) : Nat) : Int) t) tmp
  let tmp ← (List.range (INPUT - first)).foldlM (fun tmp (a : Nat) => wr tmp ((first + a : Nat) : Int) 0) tmp
  let output ← FFT.call T 1 OUTPUT output tmp
  let output ← (List.range OUTPUT).foldlM (fun output (i : Nat) => do
    let v ← rd output (i : Int)
    wr output (i : Int) (((1 / (INPUT : ℝ) : ℝ) : ℂ) * v)) output
  return (tmp, output)

/-- The default constructor of `CMPLX` sets all of `tmp` to zero. fdzp.hh:19 -/
noncomputable def init (OUTPUT : Nat) : List ℂ := List.replicate OUTPUT 0

end FDZP
end DSP
