import Verif.Model.Quick

/-!
Models of `/repo/theil_sen.hh` and `/repo/repeated_median.hh`.
`x[j] != x[i]` is `ne`, `<` is `lt`; the arithmetic is that of the type. The arrays `x` and `y` are lists with checked access,
`temp`, `inner`, `outer` are the uninitialised work arrays. Only the fields set by `compute` are returned.
-/

namespace DSP
variable {α : Type}

/-- The results `xint_`, `yint_`, `slope_`, theil_sen.hh:18 and repeated_median.hh:17,64. -/
structure Line (α : Type) where
  xint : α
  yint : α
  slope : α

/-- `operator () (TYPE x)`, theil_sen.hh:47-50, repeated_median.hh:54-57, repeated_median.hh:96-99, regression.hh:64-67. -/
def Line.eval [Add α] [Mul α] (l : Line α) (x : α) : α := l.yint + l.slope * x

namespace TheilSen
variable [Sub α] [Mul α] [Div α] [Neg α]

/-- `size_`, theil_sen.hh:16. -/
def size (LEN_MAX : Nat) : Nat := (LEN_MAX - 1) * LEN_MAX / 2

/-- The inner loop theil_sen.hh:25-27. -/
def pairLoop (ne : α → α → Bool) (x y : List α) (size : Int) (i LEN : Int) :
    Nat → List α → Int → Int → M (List α × Int)
  | fuel, temp, count, j =>
    if count < size ∧ j < LEN then
      match fuel with
      | 0 => .error .diverge
      | fuel + 1 => do
        let xj ← rd x j
        let xi ← rd x i
        if ne xj xi then
          let yj ← rd y j
          let yi ← rd y i
          let temp ← wr temp count ((yj - yi) / (xj - xi))
          pairLoop ne x y size i LEN fuel temp (count + 1) (j + 1)
        else
          pairLoop ne x y size i LEN fuel temp count (j + 1)
    else .ok (temp, count)

/-- The outer loop theil_sen.hh:24-27. -/
def slopeLoop (ne : α → α → Bool) (x y : List α) (size : Int) (LEN : Int) :
    Nat → List α → Int → Int → M (List α × Int)
  | fuel, temp, count, i =>
    if count < size ∧ i < LEN then
      match fuel with
      | 0 => .error .diverge
      | fuel + 1 => do
        let (temp, count) ← pairLoop ne x y size i LEN LEN.toNat temp count (i + 1)
        slopeLoop ne x y size LEN fuel temp count (i + 1)
    else .ok (temp, count)

/-- The loop theil_sen.hh:30-31. -/
def resLoop (x y : List α) (slope : α) (size : Int) (LEN : Int) :
    Nat → List α → Int → Int → M (List α × Int)
  | fuel, temp, count, i =>
    if count < size ∧ i < LEN then
      match fuel with
      | 0 => .error .diverge
      | fuel + 1 => do
        let yi ← rd y i
        let xi ← rd x i
        let temp ← wr temp count (yi - slope * xi)
        resLoop x y slope size LEN fuel temp (count + 1) (i + 1)
    else .ok (temp, count)

/-- `compute`, theil_sen.hh:21-34. `temp` has `size LEN_MAX` cells. -/
def compute (lt ne : α → α → Bool) (LEN_MAX : Nat) (temp x y : List α) (LEN : Int) : M (Line α) := do
  let (temp, count) ← slopeLoop ne x y (size LEN_MAX) LEN LEN.toNat temp 0 0
  let (temp, slope) ← Quick.quickSelect lt temp (count / 2) count
  let (temp, count) ← resLoop x y slope (size LEN_MAX) LEN LEN.toNat temp 0 0
  let (_, yint) ← Quick.quickSelect lt temp (count / 2) count
  return { xint := (- yint) / slope, yint := yint, slope := slope }

end TheilSen

namespace RepeatedMedian
variable [Sub α] [Mul α] [Div α] [Neg α]

/-- The inner loops repeated_median.hh:26-28, 34-36, 73-75; `f yj yi xj xi` is the value stored. -/
def innerLoop (ne : α → α → Bool) (f : α → α → α → α → α) (x y : List α) (i LEN : Int) :
    Nat → List α → Int → Int → M (List α × Int)
  | fuel, inner, count, j =>
    if j < LEN then
      match fuel with
      | 0 => .error .diverge
      | fuel + 1 => do
        let xj ← rd x j
        let xi ← rd x i
        if ne xj xi then
          let yj ← rd y j
          let yi ← rd y i
          let inner ← wr inner count (f yj yi xj xi)
          innerLoop ne f x y i LEN fuel inner (count + 1) (j + 1)
        else
          innerLoop ne f x y i LEN fuel inner count (j + 1)
    else .ok (inner, count)

/-- The outer loops repeated_median.hh:24-30, 32-38, 71-77. -/
def outerLoop (lt ne : α → α → Bool) (f : α → α → α → α → α) (x y : List α) (LEN : Int) :
    Nat → List α → List α → Int → M (List α × List α)
  | fuel, inner, outer, i =>
    if i < LEN then
      match fuel with
      | 0 => .error .diverge
      | fuel + 1 => do
        let (inner, count) ← innerLoop ne f x y i LEN LEN.toNat inner 0 0
        let (inner, m) ← Quick.quickSelect lt inner (count / 2) count
        let outer ← wr outer i m
        outerLoop lt ne f x y LEN fuel inner outer (i + 1)
    else .ok (inner, outer)

/-- `(y[j] - y[i]) / (x[j] - x[i])`, repeated_median.hh:28,75. -/
def slopeOf (yj yi xj xi : α) : α := (yj - yi) / (xj - xi)

/-- `(x[j]*y[i] - x[i]*y[j]) / (x[j] - x[i])`, repeated_median.hh:36. -/
def interceptOf (yj yi xj xi : α) : α := (xj * yi - xi * yj) / (xj - xi)

/-- `RepeatedMedianEstimator::compute`, repeated_median.hh:20-41. `inner` has `SIZE-1` cells, `outer` has `SIZE`. -/
def compute (lt ne : α → α → Bool) (SIZE : Nat) (inner outer x y : List α) (LEN : Int) : M (Line α) := do
  let LEN := if LEN > (SIZE : Int) then (SIZE : Int) else LEN
  let (inner, outer) ← outerLoop lt ne slopeOf x y LEN LEN.toNat inner outer 0
  let (outer, slope) ← Quick.quickSelect lt outer (LEN / 2) LEN
  let (_, outer) ← outerLoop lt ne interceptOf x y LEN LEN.toNat inner outer 0
  let (_, yint) ← Quick.quickSelect lt outer (LEN / 2) LEN
  return { xint := (- yint) / slope, yint := yint, slope := slope }

/-- The loop repeated_median.hh:79-80. -/
def resLoop (x y : List α) (slope : α) (LEN : Int) : Nat → List α → Int → M (List α)
  | fuel, outer, i =>
    if i < LEN then
      match fuel with
      | 0 => .error .diverge
      | fuel + 1 => do
        let yi ← rd y i
        let xi ← rd x i
        let outer ← wr outer i (yi - slope * xi)
        resLoop x y slope LEN fuel outer (i + 1)
    else .ok outer

/-- `RepeatedMedianEstimator2::compute`, repeated_median.hh:67-83. -/
def compute2 (lt ne : α → α → Bool) (SIZE : Nat) (inner outer x y : List α) (LEN : Int) : M (Line α) := do
  let LEN := if LEN > (SIZE : Int) then (SIZE : Int) else LEN
  let (_, outer) ← outerLoop lt ne slopeOf x y LEN LEN.toNat inner outer 0
  let (outer, slope) ← Quick.quickSelect lt outer (LEN / 2) LEN
  let outer ← resLoop x y slope LEN LEN.toNat outer 0
  let (_, yint) ← Quick.quickSelect lt outer (LEN / 2) LEN
  return { xint := (- yint) / slope, yint := yint, slope := slope }

end RepeatedMedian
end DSP
