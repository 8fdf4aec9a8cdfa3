/-!
# Running a machine that cannot fail on an endless stream
-/

namespace DSP

/-- The state before input `n`. -/
def states {σ ι ω : Type _} (step : σ → ι → σ × ω) (s : σ) (x : Nat → ι) : Nat → σ
  | 0 => s
  | n + 1 => (step (states step s x n) (x n)).1

/-- Output `n`. -/
def stream {σ ι ω : Type _} (step : σ → ι → σ × ω) (s : σ) (x : Nat → ι) (n : Nat) : ω :=
  (step (states step s x n) (x n)).2

end DSP
