import Verif.Model.Base

/-!
Model of `/repo/quick.hh`. The array is a list with checked access, indices are absolute.
`lt x y` is `x < y` of `TYPE`; `x > y` is `lt y x`.
Sizes are assumed to fit `int`, so index arithmetic is exact; `(h - l) / 2` is applied to non-negative numbers only.
-/

namespace DSP.Quick
variable {α : Type}

/-- `swap`, quick.hh:13-19. -/
def swap (a : List α) (i j : Int) : M (List α) := do
  let t ← rd a i
  let u ← rd a j
  let a ← wr a i u
  wr a j t

/-- `A[x] < A[y]` as it occurs in `median`, quick.hh:24-38. -/
def less (lt : α → α → Bool) (a : List α) (x y : Int) : M Bool := do
  let u ← rd a x
  let v ← rd a y
  return lt u v

/-- `median`, quick.hh:21-41. -/
def median (lt : α → α → Bool) (A : List α) (a b c d e : Int) : M (List α) := do
  let A ← M.ite (← less lt A c a) (swap A a c) (pure A)
  let A ← M.ite (← less lt A d b) (swap A b d) (pure A)
  let A ← M.ite (← less lt A d c) (do let A ← swap A c d; swap A a b) (pure A)
  let A ← M.ite (← less lt A e b) (swap A b e) (pure A)
  M.ite (← less lt A e c)
    (do
      let A ← swap A c e
      M.ite (← less lt A c a) (swap A a c) (pure A))
    (do M.ite (← less lt A c b) (swap A b c) (pure A))

/-- The loop quick.hh:51-57. The first argument bounds the number of iterations. -/
def partLoop (lt : α → α → Bool) (pivot : α) : Nat → List α → Int → Int → Int → M (List α × Int × Int)
  | fuel, a, i, l, h =>
    if i ≤ h then
      match fuel with
      | 0 => .error .diverge
      | fuel + 1 => do
        let x ← rd a i
        if lt x pivot then
          let a ← swap a i l
          partLoop lt pivot fuel a (i + 1) (l + 1) h
        else if lt pivot x then
          let a ← swap a i h
          partLoop lt pivot fuel a i l (h - 1)
        else
          partLoop lt pivot fuel a (i + 1) l h
    else .ok (a, l, h)

/-- `partition`, quick.hh:43-58. Returns the array and the new `l` and `h`. -/
def partition (lt : α → α → Bool) (a : List α) (l h : Int) : M (List α × Int × Int) := do
  let half := (h - l) / 2
  let quarter := (h - l) / 4
  let middle := l + half
  let a ← median lt a l (l + quarter) middle (middle + quarter) h
  let pivot ← rd a middle
  partLoop lt pivot (h - l + 1).toNat a l l h

/-- The inner loop quick.hh:65-66; returns the array and `j`. -/
def insInner (lt : α → α → Bool) (t : α) (l : Int) : Nat → List α → Int → M (List α × Int)
  | fuel, a, j =>
    if j > l then do
      let x ← rd a (j - 1)
      if lt t x then
        match fuel with
        | 0 => .error .diverge
        | fuel + 1 =>
          let a ← wr a j x
          insInner lt t l fuel a (j - 1)
      else .ok (a, j)
    else .ok (a, j)

/-- The outer loop quick.hh:63-68. -/
def insOuter (lt : α → α → Bool) (l h : Int) : Nat → List α → Int → M (List α)
  | fuel, a, i =>
    if i ≤ h then
      match fuel with
      | 0 => .error .diverge
      | fuel + 1 => do
        let t ← rd a i
        let (a, j) ← insInner lt t l (i - l).toNat a i
        let a ← wr a j t
        insOuter lt l h fuel a (i + 1)
    else .ok a

/-- `insertion`, quick.hh:60-69. -/
def insertion (lt : α → α → Bool) (a : List α) (l h : Int) : M (List α) :=
  insOuter lt l h (h - l).toNat a (l + 1)

/-- `sort`, quick.hh:71-84. The first argument bounds the recursion depth. -/
def sort (lt : α → α → Bool) : Nat → List α → Int → Int → M (List α)
  | fuel, a, l, h =>
    if l < h then
      if h - l < 32 then insertion lt a l h
      else
        match fuel with
        | 0 => .error .diverge
        | fuel + 1 => do
          let (a, l', h') ← partition lt a l h
          let a ← sort lt fuel a l (l' - 1)
          sort lt fuel a (h' + 1) h
    else .ok a

/-- `select`, quick.hh:86-104. The first argument bounds the number of iterations. -/
def select (lt : α → α → Bool) (k : Int) : Nat → List α → Int → Int → M (List α)
  | fuel, a, l, h =>
    if l < h then
      if h - l < 32 then insertion lt a l h
      else
        match fuel with
        | 0 => .error .diverge
        | fuel + 1 => do
          let (a, l', h') ← partition lt a l h
          if k < l' then select lt k fuel a l (l' - 1)
          else if k > h' then select lt k fuel a (h' + 1) h
          else .ok a
    else .ok a

/-- `quick_sort`, quick.hh:108-112. `n` bounds the recursion depth. -/
def quickSort (lt : α → α → Bool) (a : List α) (n : Int) : M (List α) := sort lt n.toNat a 0 (n - 1)

/-- `quick_select`, quick.hh:114-120. Returns the array too. -/
def quickSelect (lt : α → α → Bool) (a : List α) (k n : Int) : M (List α × α) := do
  assert (n ≠ 0 ∧ k < n)
  let a ← select lt k n.toNat a 0 (n - 1)
  let y ← rd a k
  return (a, y)

end DSP.Quick
