import Verif.Model.Base
import Verif.Model.Endless

/-! # Facts about endless streams -/

namespace DSP

variable {σ ι ω : Type _}

/-- Running over the first `n` samples of a stream gives the first `n` outputs: `stream` and `outputs` describe the same runs. -/
theorem outputs_eq_stream (step : σ → ι → σ × ω) (s : σ) (x : Nat → ι) (n : Nat) :
    outputs step s ((List.range n).map x) = (List.range n).map (stream step s x) := by
  have aux : ∀ n s (x : Nat → ι), outputs step s ((List.range n).map x) = (List.range n).map (stream step s x) := by
    intro n
    induction n with
    | zero => intro s x; rfl
    | succ n ih =>
      intro s x
      have shift : ∀ k, states step (step s (x 0)).1 (fun j => x (j + 1)) k = states step s x (k + 1) := by
        intro k
        induction k with
        | zero => rfl
        | succ k ihk => simp only [states] at ihk ⊢; rw [ihk]
      rw [List.range_succ_eq_map]
      simp only [List.map_cons, List.map_map, outputs]
      have := ih (step s (x 0)).1 (fun j => x (j + 1))
      congr 1
      refine (?_ : _ = _).trans (this.trans ?_)
      · rfl
      · apply List.map_congr_left
        intro k _
        simp only [stream, Function.comp, shift]
  exact aux n s x

/-- A fact about the state that every step keeps. -/
theorem states_inv (step : σ → ι → σ × ω) (s : σ) (x : Nat → ι) (P : σ → Prop) (h0 : P s)
    (h : ∀ s i, P s → P (step s i).1) (n : Nat) : P (states step s x n) := by
  induction n with
  | zero => exact h0
  | succ n ih => exact h _ _ ih

/-- Outputs depend on the past only. -/
theorem stream_causal (step : σ → ι → σ × ω) (s : σ) (x y : Nat → ι) (n : Nat) (h : ∀ k ≤ n, x k = y k) :
    stream step s x n = stream step s y n := by
  have : ∀ m ≤ n, states step s x m = states step s y m := by
    intro m
    induction m with
    | zero => intro _; rfl
    | succ m ih => intro hm; simp only [states, ih (by omega), h m (by omega)]
  simp only [stream, this n (Nat.le_refl _), h n (Nat.le_refl _)]

end DSP
