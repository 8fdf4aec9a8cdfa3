import Mathlib.Analysis.Real.Sqrt

/-!
# Rounded arithmetic
-/

namespace DSP.Spec

/-- The standard model of rounded arithmetic: sums and differences have a relative error of at most `u`. `val` is the number a machine number stands for. -/
structure Rounded (α : Type) [Zero α] [Add α] [Sub α] (val : α → ℝ) (u : ℝ) : Prop where
  zero : val 0 = 0
  add : ∀ a b, |val (a + b) - (val a + val b)| ≤ u * |val a + val b|
  sub : ∀ a b, |val (a - b) - (val a - val b)| ≤ u * |val a - val b|

/-- The same with products, and with the numbers one and minus one. -/
structure RoundedMul (α : Type) [Zero α] [Add α] [Sub α] [Mul α] [IntCast α] (val : α → ℝ) (u : ℝ) : Prop extends Rounded α val u where
  mul : ∀ a b, |val (a * b) - val a * val b| ≤ u * |val a * val b|
  one : val ((1 : ℤ) : α) = 1
  neg_one : val ((-1 : ℤ) : α) = -1

/-- The same with quotients and all integers. Changing the sign is exact. -/
structure RoundedField (α : Type) [Zero α] [Add α] [Sub α] [Mul α] [IntCast α] [Neg α] [Div α] (val : α → ℝ) (u : ℝ) : Prop extends RoundedMul α val u where
  neg : ∀ a, val (-a) = -val a
  cast : ∀ n : ℤ, |val (n : α) - n| ≤ u * |(n : ℝ)|
  div : ∀ a b, val b ≠ 0 → |val (a / b) - val a / val b| ≤ u * |val a / val b|

/-- A square root with a relative error of at most `u`. -/
def RoundedSqrt {α : Type} (val : α → ℝ) (u : ℝ) (sqrt : α → α) : Prop := ∀ a, 0 ≤ val a → |val (sqrt a) - √(val a)| ≤ u * √(val a)

end DSP.Spec
