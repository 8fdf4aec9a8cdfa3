import Verif.Model.FirRounded

/-!
# Models of spline.hh in rounded arithmetic

`OTYPE` and `ITYPE` are the same type with the arithmetic operations. Divisions, array accesses and the conversion to `int` are checked. A pointer into an array is
the array and an offset.
-/

namespace DSP

/-- `UniformNaturalCubicSpline`. spline.hh:14-15 -/
structure NaturalSpline.Rounded (V : Type) where
  A : List V
  B : List V
  C : List V
  D : List V
  x0 : V
  dx : V

namespace NaturalSpline.Rounded

section
variable {V : Type} [Zero V] [Add V] [Sub V] [Mul V] [Neg V] [Div V] [IntCast V] [BEq V]

/-- The loop body. spline.hh:25-27 -/
def forward (Y : List V) (STRIDE : ℤ) (s : List V × List V) (i : ℤ) : M (List V × List V) := do
  let (U, Z) := s
  let u ← rd U (i - 1)
  let l := ((4 : ℤ) : V) - u
  let q ← Fir.Rounded.fdiv ((1 : ℤ) : V) l
  let U ← wr U i q
  let y2 ← rd Y ((i + 1) * STRIDE)
  let y1 ← rd Y (i * STRIDE)
  let y0 ← rd Y ((i - 1) * STRIDE)
  let z ← rd Z (i - 1)
  let q ← Fir.Rounded.fdiv (((3 : ℤ) : V) * (y2 - ((2 : ℤ) : V) * y1 + y0) - z) l
  let Z ← wr Z i q
  return (U, Z)

/-- The four tables and the variable `c`. -/
structure Tables (V : Type) where
  A : List V
  B : List V
  C : List V
  D : List V
  c : V

/-- The loop body. spline.hh:31-35 -/
def backward (Y : List V) (STRIDE : ℤ) (U Z : List V) (s : Tables V) (i : ℤ) : M (Tables V) := do
  let y0 ← rd Y (i * STRIDE)
  let A ← wr s.A i y0
  let z ← rd Z i
  let u ← rd U i
  let C ← wr s.C i (z - u * s.c)
  let y2 ← rd Y ((i + 1) * STRIDE)
  let y1 ← rd Y (i * STRIDE)
  let ci ← rd C i
  let q ← Fir.Rounded.fdiv (s.c + ((2 : ℤ) : V) * ci) ((3 : ℤ) : V)
  let B ← wr s.B i (y2 - y1 - q)
  let ci ← rd C i
  let q ← Fir.Rounded.fdiv (s.c - ci) ((3 : ℤ) : V)
  let D ← wr s.D i q
  let c ← rd C i
  return { A, B, C, D, c }

/-- The constructor. `junk` is what the arrays hold before they are set. spline.hh:18-37 -/
def make (KNOTS : ℕ) (junk Y : List V) (x0 dx : V) (STRIDE : ℤ) : M (NaturalSpline.Rounded V) := do
  let U ← wr junk 0 ((0 : ℤ) : V)
  let Z ← wr junk 0 ((0 : ℤ) : V)
  let (U, Z) ← (List.range (KNOTS - 2)).foldlM (fun s (j : ℕ) => forward Y STRIDE s (j + 1)) (U, Z)
  let s ← (List.range (KNOTS - 1)).foldlM (fun s (j : ℕ) => backward Y STRIDE U Z s (KNOTS - 2 - j)) ⟨junk, junk, junk, junk, ((0 : ℤ) : V)⟩
  return ⟨s.A, s.B, s.C, s.D, x0, dx⟩

/-- The piece and the offset into it. spline.hh:42-50 -/
def locate (KNOTS : ℕ) (tx : V) (k : ℤ) : V × ℤ :=
  let p := if k < 0 then (tx, 0) else (tx - (k : V), k)
  if p.2 ≥ (KNOTS : ℤ) - 1 then (tx - (((KNOTS : ℤ) - 2 : ℤ) : V), (KNOTS : ℤ) - 2) else p

/-- `operator()`; `trunc` drops the fraction. spline.hh:38-52 -/
def call (trunc : V → ℤ) (s : NaturalSpline.Rounded V) (KNOTS : ℕ) (x : V) : M V := do
  let tx ← Fir.Rounded.fdiv (x - s.x0) s.dx
  let k ← int32 (trunc tx)
  let (t, k) := locate KNOTS tx k
  let a ← rd s.A k
  let b ← rd s.B k
  let c ← rd s.C k
  let d ← rd s.D k
  return a + t * (b + t * (c + t * d))

end
end NaturalSpline.Rounded

/-- Dropping the fraction. spline.hh:41,129 -/
def Binary.trunc {p : ℕ} (a : Binary p) : ℤ := if 0 ≤ a.val then ⌊a.val⌋ else ⌈a.val⌉

/-! ### `CubicHermiteSpline` -/

namespace HermiteSpline.Rounded

section
variable {V : Type} [Zero V] [Add V] [Sub V] [Mul V] [Neg V] [Div V] [IntCast V] [BEq V]

/-- spline.hh:58-61 -/
def h00 (t : V) : V := (((1 : ℤ) : V) + ((2 : ℤ) : V) * t) * (((1 : ℤ) : V) - t) * (((1 : ℤ) : V) - t)

/-- spline.hh:62-65 -/
def h10 (t : V) : V := t * (((1 : ℤ) : V) - t) * (((1 : ℤ) : V) - t)

/-- spline.hh:66-69 -/
def h01 (t : V) : V := t * t * (((3 : ℤ) : V) - ((2 : ℤ) : V) * t)

/-- spline.hh:70-73 -/
def h11 (t : V) : V := t * t * (t - ((1 : ℤ) : V))

/-- `left(X+p, Y+p)`. spline.hh:74-77 -/
def left (X Y : List V) (p : ℤ) : M V := do
  let y0 ← rd Y p
  let y1 ← rd Y (p - 1)
  let x0 ← rd X p
  let x1 ← rd X (p - 1)
  Fir.Rounded.fdiv (y0 - y1) (x0 - x1)

/-- `right(X+p, Y+p)`. spline.hh:78-81 -/
def right (X Y : List V) (p : ℤ) : M V := do
  let y1 ← rd Y (p + 1)
  let y0 ← rd Y p
  let x1 ← rd X (p + 1)
  let x0 ← rd X p
  Fir.Rounded.fdiv (y1 - y0) (x1 - x0)

/-- `central(X+p, Y+p)`; `half` is the constant. spline.hh:82-85 -/
def central (half : V) (X Y : List V) (p : ℤ) : M V := do
  let l ← left X Y p
  let r ← right X Y p
  return half * (l + r)

/-- The sum in all three branches. spline.hh:89,91,93 -/
def blend (t y0 y1 w m0 m1 : V) : V := h00 t * y0 + h10 t * w * m0 + h01 t * y1 + h11 t * w * m1

/-- `eval(X, Y, t, k, n)`. spline.hh:86-94 -/
def segment (half : V) (X Y : List V) (t : V) (k n : ℤ) : M V :=
  if k < 1 then do
    let y0 ← rd Y 0
    let x1 ← rd X 1
    let x0 ← rd X 0
    let m0 ← right X Y 0
    let y1 ← rd Y 1
    let m1 ← central half X Y 1
    return blend t y0 y1 (x1 - x0) m0 m1
  else if k < n - 2 then do
    let y0 ← rd Y k
    let x1 ← rd X (k + 1)
    let x0 ← rd X k
    let m0 ← central half X Y k
    let y1 ← rd Y (k + 1)
    let m1 ← central half X Y (k + 1)
    return blend t y0 y1 (x1 - x0) m0 m1
  else do
    let y0 ← rd Y (n - 2)
    let x1 ← rd X (n - 1)
    let x0 ← rd X (n - 2)
    let m0 ← central half X Y (n - 2)
    let y1 ← rd Y (n - 1)
    let m1 ← left X Y (n - 1)
    return blend t y0 y1 (x1 - x0) m0 m1

/-- `(x - X[a]) / (X[b] - X[a])`. spline.hh:99,101,103 -/
def position (X : List V) (x : V) (a b : ℤ) : M V := do
  let xa ← rd X a
  let xb ← rd X b
  Fir.Rounded.fdiv (x - xa) (xb - xa)

/-- `eval(X, Y, x, n)` with `n` the length of the arrays. `std::lower_bound` on the sorted array `X` is the number of leading elements
less than `x`; `less` is the comparison. spline.hh:95-104 -/
def eval (half : V) (less : V → V → Bool) (X Y : List V) (x : V) : M V := do
  let n : ℤ := X.length
  let k : ℤ := (X.takeWhile (fun v => less v x)).length
  if k < 1 then
    let t ← position X x 0 1
    segment half X Y t 0 n
  else if k < n then
    let t ← position X x (k - 1) k
    segment half X Y t (k - 1) n
  else
    let t ← position X x (n - 2) (n - 1)
    segment half X Y t (n - 1) n

/-- `left(Y+p)`. spline.hh:105-108 -/
def leftU (Y : List V) (p : ℤ) : M V := do
  let y0 ← rd Y p
  let y1 ← rd Y (p - 1)
  return y0 - y1

/-- `right(Y+p)`. spline.hh:109-112 -/
def rightU (Y : List V) (p : ℤ) : M V := do
  let y1 ← rd Y (p + 1)
  let y0 ← rd Y p
  return y1 - y0

/-- `central(Y+p)`. spline.hh:113-116 -/
def centralU (half : V) (Y : List V) (p : ℤ) : M V := do
  let y1 ← rd Y (p + 1)
  let y0 ← rd Y (p - 1)
  return half * (y1 - y0)

/-- The sum in all three branches. spline.hh:120,122,124 -/
def blendU (t y0 y1 m0 m1 : V) : V := h00 t * y0 + h10 t * m0 + h01 t * y1 + h11 t * m1

/-- `eval(Y, t, k, n)`. spline.hh:117-125 -/
def segmentU (half : V) (Y : List V) (t : V) (k n : ℤ) : M V :=
  if k < 1 then do
    let y0 ← rd Y 0
    let m0 ← rightU Y 0
    let y1 ← rd Y 1
    let m1 ← centralU half Y 1
    return blendU t y0 y1 m0 m1
  else if k < n - 2 then do
    let y0 ← rd Y k
    let m0 ← centralU half Y k
    let y1 ← rd Y (k + 1)
    let m1 ← centralU half Y (k + 1)
    return blendU t y0 y1 m0 m1
  else do
    let y0 ← rd Y (n - 2)
    let m0 ← centralU half Y (n - 2)
    let y1 ← rd Y (n - 1)
    let m1 ← leftU Y (n - 1)
    return blendU t y0 y1 m0 m1

/-- `eval(Y, x, n, x0, dx)` with `n` the length of the array; `trunc` drops the fraction. spline.hh:126-137 -/
def evalU (half : V) (trunc : V → ℤ) (Y : List V) (x x0 dx : V) : M V := do
  let n : ℤ := Y.length
  let tx ← Fir.Rounded.fdiv (x - x0) dx
  let k ← int32 (trunc tx)
  let t := tx - (k : V)
  if k < 0 then segmentU half Y tx 0 n
  else if k < n - 1 then segmentU half Y t k n
  else segmentU half Y (tx - ((n - 2 : ℤ) : V)) (n - 2) n

end

end HermiteSpline.Rounded
end DSP
