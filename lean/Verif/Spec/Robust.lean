import Mathlib.Algebra.Order.Field.Basic

/-! Medians and pairwise slopes, as a specification. -/

namespace DSP.Spec

/-- `v` is element `⌊n/2⌋` (counting from zero) of the sorted list of `n` elements. -/
def IsUpperMedian {K : Type} [LE K] (v : K) (L : List K) : Prop :=
  ∃ zs : List K, zs.Perm L ∧ zs.Pairwise (· ≤ ·) ∧ zs[L.length / 2]? = some v

variable {K : Type} [Field K] [DecidableEq K]

/-- The slope through two points. -/
def slope (p q : K × K) : K := (q.2 - p.2) / (q.1 - p.1)

/-- The slopes from `p` to all points of a list that are not above or below it. -/
def slopesFrom (p : K × K) (qs : List (K × K)) : List K := (qs.filter (fun q => q.1 ≠ p.1)).map (slope p)

/-- The slopes of all pairs of points with distinct abscissae. -/
def slopes : List (K × K) → List K
  | [] => []
  | p :: ps => slopesFrom p ps ++ slopes ps

/-- Where the line through two points meets the vertical axis. -/
def intercept (p q : K × K) : K := p.2 - slope p q * p.1

/-- The intercepts of the lines from `p` to all points of a list that are not above or below it. -/
def interceptsFrom (p : K × K) (qs : List (K × K)) : List K := (qs.filter (fun q => q.1 ≠ p.1)).map (intercept p)

/-- The vertical distances to the line of slope `m` through the origin. -/
def residuals (m : K) (ps : List (K × K)) : List K := ps.map (fun p => p.2 - m * p.1)

end DSP.Spec
