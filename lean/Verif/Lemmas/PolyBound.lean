import Mathlib.Data.Real.Basic
import Mathlib.Tactic.Linarith
import Mathlib.Tactic.Ring
import Mathlib.Tactic.Positivity
import Mathlib.Tactic.FieldSimp

/-!
# Checking that a polynomial with rational coefficients is not negative on an interval

The interval is cut into pieces; on each the polynomial is rewritten in the deviation from the centre, where the constant term has to outweigh all others. The check is a
computation with rational numbers which the kernel runs; the theorem is for all real numbers in the interval.
-/

namespace DSP.PolyBound

/-- Coefficients, lowest power first. -/
def eval (p : List ℚ) (u : ℝ) : ℝ := p.foldr (fun a r => (a : ℝ) + u * r) 0

def add : List ℚ → List ℚ → List ℚ
  | [], q => q
  | p, [] => p
  | a :: p, b :: q => (a + b) :: add p q

def smul (c : ℚ) (p : List ℚ) : List ℚ := p.map (c * ·)

def neg (p : List ℚ) : List ℚ := smul (-1) p

def mul : List ℚ → List ℚ → List ℚ
  | [], _ => []
  | a :: p, q => add (smul a q) (0 :: mul p q)

def derivAux : ℕ → List ℚ → List ℚ
  | _, [] => []
  | n, a :: p => (n : ℚ) * a :: derivAux (n + 1) p

/-- The derivative. -/
def deriv (p : List ℚ) : List ℚ := derivAux 1 p.tail

/-- `p(c + h * s)` as a polynomial in `s`. -/
def comp (c h : ℚ) : List ℚ → List ℚ
  | [] => []
  | a :: p => let q := comp c h p; add [a] (add (smul c q) (0 :: smul h q))

def absSum (p : List ℚ) : ℚ := p.foldr (fun a r => |a| + r) 0

def positive : List ℚ → Bool
  | [] => true
  | a :: p => decide (absSum p ≤ a)

/-- The check: `n` pieces from `lo` to `hi`. -/
def check (p : List ℚ) (lo hi : ℚ) (n : ℕ) : Bool :=
  let h := (hi - lo) / (2 * n)
  (List.range n).all fun i => positive (comp (lo + (2 * i + 1) * h) h p)

@[simp] theorem eval_nil (u : ℝ) : eval [] u = 0 := rfl
@[simp] theorem eval_cons (a : ℚ) (p : List ℚ) (u : ℝ) : eval (a :: p) u = a + u * eval p u := rfl

theorem eval_add (p q : List ℚ) (u : ℝ) : eval (add p q) u = eval p u + eval q u := by
  induction p generalizing q with
  | nil => simp [add]
  | cons a p ih =>
    cases q with
    | nil => simp [add]
    | cons b q => simp only [add, eval_cons, ih]; push_cast; ring

theorem eval_smul (c : ℚ) (p : List ℚ) (u : ℝ) : eval (smul c p) u = c * eval p u := by
  induction p with
  | nil => simp [smul]
  | cons a p ih =>
    simp only [smul, List.map_cons, eval_cons] at *
    rw [ih]; push_cast; ring

theorem eval_neg (p : List ℚ) (u : ℝ) : eval (neg p) u = -eval p u := by rw [neg, eval_smul]; push_cast; ring

theorem eval_mul (p q : List ℚ) (u : ℝ) : eval (mul p q) u = eval p u * eval q u := by
  induction p with
  | nil => simp [mul]
  | cons a p ih => simp only [mul, eval_add, eval_smul, eval_cons, ih]; push_cast; ring

theorem eval_comp (c h : ℚ) (p : List ℚ) (s : ℝ) : eval (comp c h p) s = eval p (c + h * s) := by
  induction p with
  | nil => simp [comp]
  | cons a p ih => simp only [comp, eval_add, eval_smul, eval_cons, eval_nil, ih]; push_cast; ring

theorem abs_eval_le (p : List ℚ) (s : ℝ) (hs : |s| ≤ 1) : |eval p s| ≤ absSum p := by
  induction p with
  | nil => simp [absSum]
  | cons a p ih =>
    have e : absSum (a :: p) = |a| + absSum p := rfl
    rw [e, eval_cons]
    push_cast
    calc |(a : ℝ) + s * eval p s| ≤ |(a : ℝ)| + |s * eval p s| := abs_add_le _ _
      _ ≤ |(a : ℝ)| + 1 * |eval p s| := by rw [abs_mul]; gcongr
      _ ≤ _ := by rw [one_mul]; gcongr

theorem positive_sound (p : List ℚ) (h : positive p = true) (s : ℝ) (hs : |s| ≤ 1) : 0 ≤ eval p s := by
  cases p with
  | nil => simp
  | cons a p =>
    have h : absSum p ≤ a := by simpa [positive] using h
    have h' : (absSum p : ℝ) ≤ a := by exact_mod_cast h
    have h2 := abs_eval_le p s hs
    have h3 : |s * eval p s| ≤ a := by
      rw [abs_mul]
      calc |s| * |eval p s| ≤ 1 * |eval p s| := by gcongr
        _ ≤ a := by linarith
    rw [eval_cons]
    linarith [(abs_le.mp h3).1]

theorem check_sound (p : List ℚ) (lo hi : ℚ) (n : ℕ) (h : check p lo hi n = true) (u : ℝ) (h0 : (lo : ℝ) ≤ u) (h1 : u ≤ hi) (hlt : lo < hi) (hn : 0 < n) :
    0 ≤ eval p u := by
  have hlt' : (lo : ℝ) < hi := by exact_mod_cast hlt
  have hn' : (0 : ℝ) < n := by exact_mod_cast hn
  set w : ℝ := (hi - lo) / n with hw
  have hw0 : 0 < w := by rw [hw]; exact div_pos (by linarith) hn'
  obtain ⟨i, hi1, hi2, hi3⟩ : ∃ i : ℕ, i < n ∧ lo + i * w ≤ u ∧ u ≤ lo + (i + 1) * w := by
    by_contra hc
    push Not at hc
    have : ∀ i : ℕ, i ≤ n → lo + i * w ≤ u ∧ (0 < i → lo + i * w < u) := by
      intro i
      induction i with
      | zero => intro _; simp [h0]
      | succ i ih =>
        intro hi
        have := hc i (by omega) (ih (by omega)).1
        push_cast
        exact ⟨this.le, fun _ => this⟩
    have := (this n le_rfl).2 hn
    rw [hw, mul_div_cancel₀ _ hn'.ne'] at this
    linarith
  simp only [check, List.all_eq_true, List.mem_range] at h
  have hp := h i hi1
  have := positive_sound _ hp ((u - (lo + (i + 1 / 2) * w)) / (w / 2)) (by
    rw [abs_le, le_div_iff₀ (by linarith), div_le_iff₀ (by linarith)]
    constructor <;> linarith)
  rw [eval_comp] at this
  have e : (((lo + (2 * i + 1) * ((hi - lo) / (2 * n)) : ℚ) : ℝ)) + (((hi - lo) / (2 * n) : ℚ) : ℝ) * ((u - (lo + (i + 1 / 2) * w)) / (w / 2)) = u := by
    have hw2 : (((hi - lo) / (2 * n) : ℚ) : ℝ) = w / 2 := by rw [hw]; push_cast; field_simp
    rw [hw2, mul_div_cancel₀ _ (by linarith : w / 2 ≠ 0)]
    have : (((lo + (2 * i + 1) * ((hi - lo) / (2 * n)) : ℚ) : ℝ)) = lo + (2 * i + 1) * (w / 2) := by
      rw [← hw2]; push_cast; ring
    rw [this]; ring
  rw [e] at this
  exact this

/-- Both sides. -/
theorem abs_le_of_check (p : List ℚ) (ε lo hi : ℚ) (n : ℕ) (h : check (add [ε] p) lo hi n = true) (h' : check (add [ε] (neg p)) lo hi n = true) (u : ℝ)
    (h0 : (lo : ℝ) ≤ u) (h1 : u ≤ hi) (hlt : lo < hi) (hn : 0 < n) : |eval p u| ≤ ε := by
  have a := check_sound _ lo hi n h u h0 h1 hlt hn
  have b := check_sound _ lo hi n h' u h0 h1 hlt hn
  rw [eval_add, eval_cons, eval_nil] at a b
  rw [eval_neg] at b
  rw [abs_le]
  constructor <;> linarith

end DSP.PolyBound
