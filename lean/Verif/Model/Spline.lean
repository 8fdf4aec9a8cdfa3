import Verif.Model.Utils
import Verif.Model.Stream
import Mathlib.Algebra.Order.Floor.Ring

/-!
# Models of spline.hh

`OTYPE` and `ITYPE` are exact reals. Divisions, array accesses and the conversion to `int` are checked. A pointer into an array is
the array and an offset.
-/

namespace DSP

/-- The conversion of a number to `int` drops the fraction; numbers that do not fit are a fault. -/
noncomputable def toInt (x : ℝ) : M ℤ := int32 (if 0 ≤ x then ⌊x⌋ else ⌈x⌉)

/-- `UniformNaturalCubicSpline`. spline.hh:14-15 -/
structure NaturalSpline where
  A : List ℝ
  B : List ℝ
  C : List ℝ
  D : List ℝ
  x0 : ℝ
  dx : ℝ

namespace NaturalSpline

/-- The loop body. spline.hh:25-27 -/
noncomputable def forward (Y : List ℝ) (STRIDE : ℤ) (s : List ℝ × List ℝ) (i : ℤ) : M (List ℝ × List ℝ) := do
  let (U, Z) := s
  let u ← rd U (i - 1)
  let l := 4 - u
  let q ← fdiv 1 l
  let U ← wr U i q
  let y2 ← rd Y ((i + 1) * STRIDE)
  let y1 ← rd Y (i * STRIDE)
  let y0 ← rd Y ((i - 1) * STRIDE)
  let z ← rd Z (i - 1)
  let q ← fdiv (3 * (y2 - 2 * y1 + y0) - z) l
  let Z ← wr Z i q
  return (U, Z)

/-- The four tables and the variable `c`. -/
structure Tables where
  A : List ℝ
  B : List ℝ
  C : List ℝ
  D : List ℝ
  c : ℝ

/-- The loop body. spline.hh:31-35 -/
noncomputable def backward (Y : List ℝ) (STRIDE : ℤ) (U Z : List ℝ) (s : Tables) (i : ℤ) : M Tables := do
  let y0 ← rd Y (i * STRIDE)
  let A ← wr s.A i y0
  let z ← rd Z i
  let u ← rd U i
  let C ← wr s.C i (z - u * s.c)
  let y2 ← rd Y ((i + 1) * STRIDE)
  let y1 ← rd Y (i * STRIDE)
  let ci ← rd C i
  let q ← fdiv (s.c + 2 * ci) 3
  let B ← wr s.B i (y2 - y1 - q)
  let ci ← rd C i
  let q ← fdiv (s.c - ci) 3
  let D ← wr s.D i q
  let c ← rd C i
  return { A, B, C, D, c }

/-- The constructor. `junk` is what the arrays hold before they are set. spline.hh:18-37 -/
noncomputable def make (KNOTS : ℕ) (junk Y : List ℝ) (x0 dx : ℝ) (STRIDE : ℤ) : M NaturalSpline := do
  let U ← wr junk 0 0
  let Z ← wr junk 0 0
  let (U, Z) ← (List.range (KNOTS - 2)).foldlM (fun s (j : ℕ) => forward Y STRIDE s (j + 1)) (U, Z)
  let s ← (List.range (KNOTS - 1)).foldlM (fun s (j : ℕ) => backward Y STRIDE U Z s (KNOTS - 2 - j)) ⟨junk, junk, junk, junk, 0⟩
  return ⟨s.A, s.B, s.C, s.D, x0, dx⟩

/-- The piece and the offset into it. spline.hh:42-50 -/
noncomputable def locate (KNOTS : ℕ) (tx : ℝ) (k : ℤ) : ℝ × ℤ :=
  let p := if k < 0 then (tx, 0) else (tx - k, k)
  if p.2 ≥ (KNOTS : ℤ) - 1 then (tx - ((KNOTS : ℝ) - 2), (KNOTS : ℤ) - 2) else p

/-- `operator()`. spline.hh:38-52 -/
noncomputable def call (s : NaturalSpline) (KNOTS : ℕ) (x : ℝ) : M ℝ := do
  let tx ← fdiv (x - s.x0) s.dx
  let k ← toInt tx
  let (t, k) := locate KNOTS tx k
  let a ← rd s.A k
  let b ← rd s.B k
  let c ← rd s.C k
  let d ← rd s.D k
  return a + t * (b + t * (c + t * d))

end NaturalSpline

/-! ### `CubicHermiteSpline` -/

namespace HermiteSpline

/-- spline.hh:58-61 -/
def h00 (t : ℝ) : ℝ := (1 + 2 * t) * (1 - t) * (1 - t)

/-- spline.hh:62-65 -/
def h10 (t : ℝ) : ℝ := t * (1 - t) * (1 - t)

/-- spline.hh:66-69 -/
def h01 (t : ℝ) : ℝ := t * t * (3 - 2 * t)

/-- spline.hh:70-73 -/
def h11 (t : ℝ) : ℝ := t * t * (t - 1)

/-- `left(X+p, Y+p)`. spline.hh:74-77 -/
noncomputable def left (X Y : List ℝ) (p : ℤ) : M ℝ := do
  let y0 ← rd Y p
  let y1 ← rd Y (p - 1)
  let x0 ← rd X p
  let x1 ← rd X (p - 1)
  fdiv (y0 - y1) (x0 - x1)

/-- `right(X+p, Y+p)`. spline.hh:78-81 -/
noncomputable def right (X Y : List ℝ) (p : ℤ) : M ℝ := do
  let y1 ← rd Y (p + 1)
  let y0 ← rd Y p
  let x1 ← rd X (p + 1)
  let x0 ← rd X p
  fdiv (y1 - y0) (x1 - x0)

/-- `central(X+p, Y+p)`. spline.hh:82-85 -/
noncomputable def central (X Y : List ℝ) (p : ℤ) : M ℝ := do
  let l ← left X Y p
  let r ← right X Y p
  return 1 / 2 * (l + r)

/-- The sum in all three branches. spline.hh:89,91,93 -/
noncomputable def blend (t y0 y1 w m0 m1 : ℝ) : ℝ := h00 t * y0 + h10 t * w * m0 + h01 t * y1 + h11 t * w * m1

/-- `eval(X, Y, t, k, n)`. spline.hh:86-94 -/
noncomputable def segment (X Y : List ℝ) (t : ℝ) (k n : ℤ) : M ℝ :=
  if k < 1 then do
    let y0 ← rd Y 0
    let x1 ← rd X 1
    let x0 ← rd X 0
    let m0 ← right X Y 0
    let y1 ← rd Y 1
    let m1 ← central X Y 1
    return blend t y0 y1 (x1 - x0) m0 m1
  else if k < n - 2 then do
    let y0 ← rd Y k
    let x1 ← rd X (k + 1)
    let x0 ← rd X k
    let m0 ← central X Y k
    let y1 ← rd Y (k + 1)
    let m1 ← central X Y (k + 1)
    return blend t y0 y1 (x1 - x0) m0 m1
  else do
    let y0 ← rd Y (n - 2)
    let x1 ← rd X (n - 1)
    let x0 ← rd X (n - 2)
    let m0 ← central X Y (n - 2)
    let y1 ← rd Y (n - 1)
    let m1 ← left X Y (n - 1)
    return blend t y0 y1 (x1 - x0) m0 m1

/-- `(x - X[a]) / (X[b] - X[a])` -/
noncomputable def position (X : List ℝ) (x : ℝ) (a b : ℤ) : M ℝ := do
  let xa ← rd X a
  let xb ← rd X b
  fdiv (x - xa) (xb - xa)

/-- `eval(X, Y, x, n)` with `n` the length of the arrays. `std::lower_bound` on the sorted array `X` is the number of leading elements
less than `x`. spline.hh:95-104 -/
noncomputable def eval (X Y : List ℝ) (x : ℝ) : M ℝ := do
  let n : ℤ := X.length
  let k : ℤ := (X.takeWhile (fun v => decide (v < x))).length
  if k < 1 then
    let t ← position X x 0 1
    segment X Y t 0 n
  else if k < n then
    let t ← position X x (k - 1) k
    segment X Y t (k - 1) n
  else
    let t ← position X x (n - 2) (n - 1)
    segment X Y t (n - 1) n

/-- `left(Y+p)`. spline.hh:105-108 -/
noncomputable def leftU (Y : List ℝ) (p : ℤ) : M ℝ := do
  let y0 ← rd Y p
  let y1 ← rd Y (p - 1)
  return y0 - y1

/-- `right(Y+p)`. spline.hh:109-112 -/
noncomputable def rightU (Y : List ℝ) (p : ℤ) : M ℝ := do
  let y1 ← rd Y (p + 1)
  let y0 ← rd Y p
  return y1 - y0

/-- `central(Y+p)`. spline.hh:113-116 -/
noncomputable def centralU (Y : List ℝ) (p : ℤ) : M ℝ := do
  let y1 ← rd Y (p + 1)
  let y0 ← rd Y (p - 1)
  return 1 / 2 * (y1 - y0)

/-- The sum in all three branches. spline.hh:120,122,124 -/
noncomputable def blendU (t y0 y1 m0 m1 : ℝ) : ℝ := h00 t * y0 + h10 t * m0 + h01 t * y1 + h11 t * m1

/-- `eval(Y, t, k, n)`. spline.hh:117-125 -/
noncomputable def segmentU (Y : List ℝ) (t : ℝ) (k n : ℤ) : M ℝ :=
  if k < 1 then do
    let y0 ← rd Y 0
    let m0 ← rightU Y 0
    let y1 ← rd Y 1
    let m1 ← centralU Y 1
    return blendU t y0 y1 m0 m1
  else if k < n - 2 then do
    let y0 ← rd Y k
    let m0 ← centralU Y k
    let y1 ← rd Y (k + 1)
    let m1 ← centralU Y (k + 1)
    return blendU t y0 y1 m0 m1
  else do
    let y0 ← rd Y (n - 2)
    let m0 ← centralU Y (n - 2)
    let y1 ← rd Y (n - 1)
    let m1 ← leftU Y (n - 1)
    return blendU t y0 y1 m0 m1

/-- `eval(Y, x, n, x0, dx)` with `n` the length of the array. spline.hh:126-137 -/
noncomputable def evalU (Y : List ℝ) (x x0 dx : ℝ) : M ℝ := do
  let n : ℤ := Y.length
  let tx ← fdiv (x - x0) dx
  let k ← toInt tx
  let t := tx - k
  if k < 0 then segmentU Y tx 0 n
  else if k < n - 1 then segmentU Y t k n
  else segmentU Y (tx - (n - 2 : ℤ)) (n - 2) n

end HermiteSpline
end DSP
