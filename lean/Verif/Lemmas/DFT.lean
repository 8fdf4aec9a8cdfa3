import Verif.Spec.DFT
import Mathlib.Analysis.SpecialFunctions.Trigonometric.Basic
import Mathlib.Algebra.BigOperators.Intervals

/-!
# Facts about roots of unity and sums used for the Fourier transform
-/

namespace DSP
namespace Spec

open Complex

theorem unit_add (s : ℤ) (N a b : ℕ) : unit s N (a + b) = unit s N a * unit s N b := by
  unfold unit
  rw [← Complex.exp_add]
  congr 1
  push_cast
  ring

theorem unit_zero (s : ℤ) (N : ℕ) : unit s N 0 = 1 := by
  unfold unit; simp

theorem unit_self (s : ℤ) (N k : ℕ) : unit s N (N * k) = 1 := by
  rcases Nat.eq_zero_or_pos N with h | h
  · subst h; rw [Nat.zero_mul]; exact unit_zero s 0
  · unfold unit
    have : (s : ℂ) * (2 * Real.pi * I * ((N * k : ℕ) : ℂ) / N) = ((s * k : ℤ) : ℂ) * (2 * Real.pi * I) := by
      have : (N : ℂ) ≠ 0 := by exact_mod_cast h.ne'
      push_cast
      field_simp
    rw [this, Complex.exp_int_mul_two_pi_mul_I]

theorem unit_scale (s : ℤ) (N c k : ℕ) (hc : 0 < c) : unit s (N * c) (k * c) = unit s N k := by
  unfold unit
  congr 2
  have : (c : ℂ) ≠ 0 := by exact_mod_cast hc.ne'
  rcases Nat.eq_zero_or_pos N with h | h
  · subst h; simp
  · have : (N : ℂ) ≠ 0 := by exact_mod_cast h.ne'
    push_cast
    field_simp

theorem unit_eq (s : ℤ) (N k : ℕ) : unit s N k =
    ⟨Real.cos (2 * Real.pi * k / N), Real.sin (s * (2 * Real.pi * k / N))⟩ ∨ (s ≠ 1 ∧ s ≠ -1) := by
  by_cases h : s = 1 ∨ s = -1
  · left
    unfold unit
    have : (s : ℂ) * (2 * Real.pi * I * k / N) = ((s * (2 * Real.pi * k / N) : ℝ) : ℂ) * I := by
      push_cast; ring
    rw [this]
    apply Complex.ext
    · rw [Complex.exp_ofReal_mul_I_re]
      rcases h with h | h <;> subst h
      · simp
      · simp
    · rw [Complex.exp_ofReal_mul_I_im]
  · right
    push Not at h
    exact h

theorem unit_one (N k : ℕ) : unit 1 N k = ⟨Real.cos (2 * Real.pi * k / N), Real.sin (2 * Real.pi * k / N)⟩ := by
  rcases unit_eq 1 N k with h | h
  · rw [h]; simp
  · simp at h

theorem unit_neg (N k : ℕ) : unit (-1) N k = ⟨Real.cos (2 * Real.pi * k / N), -Real.sin (2 * Real.pi * k / N)⟩ := by
  rcases unit_eq (-1) N k with h | h
  · rw [h]; simp
  · simp at h

theorem unit_neg_conj (s : ℤ) (N k : ℕ) : unit (-s) N k = (starRingEnd ℂ) (unit s N k) := by
  unfold unit
  rw [← Complex.exp_conj]
  congr 1
  simp only [map_mul, map_div₀, Complex.conj_ofReal, Complex.conj_I, map_natCast, map_intCast, map_ofNat, Int.cast_neg]
  ring

theorem unit_mul_neg (s : ℤ) (N k : ℕ) : unit s N k * unit (-s) N k = 1 := by
  unfold unit
  rw [← Complex.exp_add]
  push_cast
  simp

theorem unit_rev (s : ℤ) (N k j : ℕ) (h : k ≤ N) : unit s N (j * (N - k)) = unit (-s) N (j * k) := by
  have h1 : unit s N (j * (N - k)) * unit s N (j * k) = 1 := by
    rw [← unit_add, ← Nat.mul_add, Nat.sub_add_cancel h, Nat.mul_comm, unit_self]
  have h2 := unit_mul_neg s N (j * k)
  have h3 : unit s N (j * k) ≠ 0 := left_ne_zero_of_mul_eq_one h2
  apply mul_right_cancel₀ h3
  rw [h1, mul_comm, h2]

theorem unit_mod (s : ℤ) (N k : ℕ) : unit s N (k % N) = unit s N k := by
  conv_rhs => rw [← Nat.mod_add_div k N, unit_add, unit_self, mul_one]

theorem sum_range_mul {α : Type*} [AddCommMonoid α] (f : ℕ → α) (R Q : ℕ) :
    ∑ n ∈ Finset.range (R * Q), f n = ∑ a ∈ Finset.range R, ∑ m ∈ Finset.range Q, f (a + m * R) := by
  rw [Finset.sum_comm]
  induction Q with
  | zero => simp
  | succ Q ih =>
    rw [Nat.mul_succ, Finset.sum_range_add, ih, Finset.sum_range_succ]
    congr 1
    apply Finset.sum_congr rfl
    intro a _
    congr 1
    ring

theorem sum_pairs {α : Type*} [AddCommMonoid α] (f : ℕ → α) (h : ℕ) :
    ∑ n ∈ Finset.range (2 * h + 1), f n = f 0 + ∑ j ∈ Finset.range h, (f (j + 1) + f (2 * h + 1 - (j + 1))) := by
  rw [Finset.sum_range_succ', add_comm, two_mul, Finset.sum_range_add, Finset.sum_add_distrib]
  congr 2
  rw [← Finset.sum_range_reflect]
  apply Finset.sum_congr rfl
  intro j hj
  have := Finset.mem_range.mp hj
  congr 1
  omega

theorem list_sum {α : Type*} [AddCommMonoid α] (f : ℕ → α) (n : ℕ) : ((List.range n).map f).sum = ∑ j ∈ Finset.range n, f j := by
  induction n with
  | zero => simp
  | succ n ih => rw [List.range_succ, List.map_append, List.sum_append, ih, Finset.sum_range_succ]; simp

/-- The decimation in time step. -/
theorem dft_split (s : ℤ) (R Q : ℕ) (hR : 0 < R) (hQ : 0 < Q) (x : ℕ → ℂ) (j k : ℕ) :
    dft s (R * Q) x (k + j * Q) =
      dft s R (fun a => unit s (R * Q) (k * a) * dft s Q (fun m => x (a + m * R)) k) j := by
  unfold dft
  rw [sum_range_mul]
  apply Finset.sum_congr rfl
  intro a _
  beta_reduce
  rw [Finset.mul_sum, Finset.sum_mul]
  apply Finset.sum_congr rfl
  intro m _
  have e : (a + m * R) * (k + j * Q) = k * a + ((a * j) * Q + ((m * k) * R + (R * Q) * (m * j))) := by ring
  rw [e, unit_add, unit_add, unit_add, unit_self, unit_scale s R Q _ hQ]
  rw [show R * Q = Q * R by ring, unit_scale s Q R _ hR]
  ring

theorem dft_congr (s : ℤ) (N : ℕ) (x y : ℕ → ℂ) (k : ℕ) (h : ∀ n < N, x n = y n) : dft s N x k = dft s N y k := by
  unfold dft
  apply Finset.sum_congr rfl
  intro n hn
  rw [h n (Finset.mem_range.mp hn)]

theorem dft_rev (s : ℤ) (N : ℕ) (x : ℕ → ℂ) (k : ℕ) (h : k ≤ N) : dft s N x (N - k) = dft (-s) N x k := by
  unfold dft
  apply Finset.sum_congr rfl
  intro n _
  rw [unit_rev s N k n h]

end Spec
end DSP
