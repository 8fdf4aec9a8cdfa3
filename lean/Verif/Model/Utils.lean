import Verif.Model.Base
import Mathlib.Analysis.SpecialFunctions.Trigonometric.Basic
import Mathlib.Analysis.SpecialFunctions.Pow.Real

/-!
# Models of utils.hh and coeffs.hh

Exact real arithmetic; `sin`, `exp`, `pow` and the constants are the exact functions. `lerp` is in `Verif.Model.Filters`.
-/

namespace DSP

/-- `a / b` for numbers. -/
noncomputable def fdiv (a b : ℝ) : M ℝ := open Classical in if b = 0 then .error .divZero else .ok (a / b)

/-- utils.hh:13-17 -/
def signum {T : Type} [LinearOrder T] [Zero T] (v : T) : ℤ := (if v > 0 then 1 else 0) - (if v < 0 then 1 else 0)

/-- utils.hh:25-29 -/
def clamp {T : Type} [LinearOrder T] (x a b : T) : T := if x < a then a else if x > b then b else x

/-- utils.hh:31-35 -/
noncomputable def normalPdf (x m s : ℝ) : M ℝ := do
  let q ← fdiv (x - m) s
  fdiv (Real.exp (-(q ^ (2 : ℝ)) / 2)) (Real.sqrt (2 * Real.pi) * s)

/-- utils.hh:37-41 -/
noncomputable def sinc (x : ℝ) : ℝ := if 0 = x then 1 else Real.sin (Real.pi * x) / (Real.pi * x)

/-- utils.hh:43-47 -/
noncomputable def delta (x : ℝ) : ℝ := if 0 = x then 1 else 0

/-! ### coeffs.hh -/

/-- The member `w`; `TAPS` is its length. coeffs.hh:14 -/
structure Coeffs where
  w : List ℝ

namespace Coeffs

/-- coeffs.hh:32-39 -/
noncomputable def normalize (c : Coeffs) (divisor : ℝ) : M Coeffs := do
  let sum ← (List.range c.w.length).foldlM (fun sum (n : ℕ) => do
    let v ← rd c.w n
    return sum + v) (0 : ℝ)
  let w ← (List.range c.w.length).foldlM (fun w (n : ℕ) => do
    let v ← rd w n
    let v ← fdiv v (divisor * |sum|)
    wr w n v) c.w
  return ⟨w⟩

/-- The array before the constructor ran holds anything; the loop sets all cells. coeffs.hh:16-23 -/
noncomputable def make (TAPS : ℕ) (NORMALIZE : Bool) (func : ℤ → ℤ → ℝ) (w : List ℝ) : M Coeffs := do
  let w ← (List.range TAPS).foldlM (fun w (n : ℕ) => wr w n (func n TAPS)) w
  if NORMALIZE then normalize ⟨w⟩ 1 else return ⟨w⟩

/-- coeffs.hh:24-31 -/
noncomputable def make2 (TAPS : ℕ) (NORMALIZE : Bool) (func0 func1 : ℤ → ℤ → ℝ) (w : List ℝ) : M Coeffs := do
  let w ← (List.range TAPS).foldlM (fun w (n : ℕ) => wr w n (func0 n TAPS * func1 n TAPS)) w
  if NORMALIZE then normalize ⟨w⟩ 1 else return ⟨w⟩

/-- `operator()`. coeffs.hh:40 -/
noncomputable def get (c : Coeffs) (n : ℤ) : M ℝ := if n ≥ 0 ∧ n < c.w.length then rd c.w n else .ok 0

end Coeffs
end DSP
