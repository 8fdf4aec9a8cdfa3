import Verif.Lemmas.PolyBound
import Mathlib.Analysis.Calculus.Deriv.Add
import Mathlib.Analysis.Calculus.Deriv.Mul

/-!
# Derivatives of polynomials given by coefficients
-/

namespace DSP.PolyBound

theorem eval_derivAux_succ (q : List ℚ) (n : ℕ) (u : ℝ) : eval (derivAux (n + 1) q) u = eval q u + eval (derivAux n q) u := by
  induction q generalizing n with
  | nil => simp [derivAux]
  | cons a q ih => simp only [derivAux, eval_cons, ih (n + 1)]; push_cast; ring

theorem eval_derivAux_zero (q : List ℚ) (u : ℝ) : eval (derivAux 0 q) u = u * eval (deriv q) u := by
  cases q with
  | nil => simp [derivAux, deriv]
  | cons a q => simp [derivAux, deriv]

theorem hasDerivAt_eval (p : List ℚ) (u : ℝ) : HasDerivAt (eval p) (eval (deriv p) u) u := by
  induction p with
  | nil => exact hasDerivAt_const u 0
  | cons a p ih =>
    have h : HasDerivAt (fun u => (a : ℝ) + u * eval p u) (1 * eval p u + u * eval (deriv p) u) u := ((hasDerivAt_id u).mul ih).const_add _
    have e : eval (deriv (a :: p)) u = 1 * eval p u + u * eval (deriv p) u := by
      rw [show deriv (a :: p) = derivAux 1 p from rfl, eval_derivAux_succ p 0, eval_derivAux_zero, one_mul]
    rw [e]
    exact h

end DSP.PolyBound
