import Verif.Model.UnitCircle
import Verif.Props.Phasor

/-!
# The reduction to one octant
-/

set_option linter.unusedSectionVars false
set_option linter.unusedSimpArgs false

namespace DSP

theorem int32_fits {v : ℤ} (h : -2147483648 ≤ v ∧ v ≤ 2147483647) : int32 v = .ok v := by simp [int32, h]

namespace UnitCircle

variable {V : Type} [Neg V] [Mul V] [Div V] [IntCast V]

theorem ev_ok (K : Kernels V) (f : V → V) (n N b d : ℤ) (hN : 1 ≤ N) (hd : 1 ≤ d) (h1 : -2147483648 ≤ d * n ∧ d * n ≤ 2147483647)
    (h2 : -2147483648 ≤ b * N ∧ b * N ≤ 2147483647) (h3 : -2147483648 ≤ d * n + b * N ∧ d * n + b * N ≤ 2147483647)
    (h4 : d * N ≤ 2147483647) : ev K f n N d b d = .ok (f (K.twoPi * ((d * n + b * N : ℤ) : V) / ((d * N : ℤ) : V))) := by
  have hdN : 0 < d * N := by positivity
  simp only [ev, bind, Except.bind, int32_fits h1, int32_fits h2, int32_fits h3, int32_fits ⟨by omega, h4⟩, rad, if_neg hdN.ne', pure, Except.pure]

theorem chain_cons (n N c : ℤ) (e last : M V) (l : List (ℤ × M V)) (h1 : -2147483648 ≤ 8 * n ∧ 8 * n ≤ 2147483647)
    (h2 : -2147483648 ≤ c * N ∧ c * N ≤ 2147483647) : chain n N ((c, e) :: l) last = if 8 * n < c * N then e else chain n N l last := by
  simp only [chain, bind, Except.bind, int32_fits h1, int32_fits h2]

/-- The negative, or the value itself. -/
@[reducible] def flip {W : Type} [Neg W] (neg : Bool) (x : W) : W := if neg then -x else x

/-- One of the two kernels at a fraction of at most an eighth of a turn, up to the sign. -/
def Reduced (K : Kernels V) (r : M V) (v : ℝ) : Prop :=
  ∃ (neg : Bool) (j J : ℤ), 1 ≤ J ∧ -J ≤ 8 * j ∧ 8 * j ≤ J ∧ J ≤ 2147483647 ∧
    ((r = .ok (flip neg (K.cosine (K.twoPi * (j : V) / (J : V)))) ∧ v = flip neg (Real.cos (2 * Real.pi * ((j : ℝ) / J)))) ∨
      (r = .ok (flip neg (K.sine (K.twoPi * (j : V) / (J : V)))) ∧ v = flip neg (Real.sin (2 * Real.pi * ((j : ℝ) / J)))))

theorem turn (n N b d : ℤ) (hN : 1 ≤ N) (hd : 1 ≤ d) : 2 * Real.pi * (((d * n + b * N : ℤ) : ℝ) / ((d * N : ℤ) : ℝ)) = 2 * Real.pi * n / N + 2 * Real.pi * b / d := by
  have hN' : (N : ℝ) ≠ 0 := by exact_mod_cast (by omega : N ≠ 0)
  have hd' : (d : ℝ) ≠ 0 := by exact_mod_cast (by omega : d ≠ 0)
  push_cast
  field_simp

theorem reduced_cosine (K : Kernels V) (neg : Bool) (n N b d : ℤ) (hN : 1 ≤ N) (hd : 1 ≤ d) (h1 : -2147483648 ≤ d * n ∧ d * n ≤ 2147483647)
    (h2 : -2147483648 ≤ b * N ∧ b * N ≤ 2147483647) (h3 : -2147483648 ≤ d * n + b * N ∧ d * n + b * N ≤ 2147483647)
    (h4 : d * N ≤ 2147483647) (h5 : -(d * N) ≤ 8 * (d * n + b * N)) (h6 : 8 * (d * n + b * N) ≤ d * N) (v : ℝ)
    (hv : v = flip neg (Real.cos (2 * Real.pi * n / N + 2 * Real.pi * b / d))) : Reduced K (ev K (fun r => flip neg (K.cosine r)) n N d b d) v :=
  ⟨neg, _, _, by nlinarith, h5, h6, h4, Or.inl ⟨ev_ok K _ n N b d hN hd h1 h2 h3 h4, by rw [turn n N b d hN hd]; exact hv⟩⟩

theorem reduced_sine (K : Kernels V) (neg : Bool) (n N b d : ℤ) (hN : 1 ≤ N) (hd : 1 ≤ d) (h1 : -2147483648 ≤ d * n ∧ d * n ≤ 2147483647)
    (h2 : -2147483648 ≤ b * N ∧ b * N ≤ 2147483647) (h3 : -2147483648 ≤ d * n + b * N ∧ d * n + b * N ≤ 2147483647)
    (h4 : d * N ≤ 2147483647) (h5 : -(d * N) ≤ 8 * (d * n + b * N)) (h6 : 8 * (d * n + b * N) ≤ d * N) (v : ℝ)
    (hv : v = flip neg (Real.sin (2 * Real.pi * n / N + 2 * Real.pi * b / d))) : Reduced K (ev K (fun r => flip neg (K.sine r)) n N d b d) v :=
  ⟨neg, _, _, by nlinarith, h5, h6, h4, Or.inr ⟨ev_ok K _ n N b d hN hd h1 h2 h3 h4, by rw [turn n N b d hN hd]; exact hv⟩⟩

variable (K : Kernels V) (n N : ℤ) (hN : 1 ≤ N) (hN2 : N ≤ 268435455) (hn : -N ≤ n) (hn2 : n ≤ N)

include hN hN2 hn hn2 in
theorem cos_reduced : Reduced K (cos K n N) (exactCos n N) := by
  have pi4 : ∀ x : ℝ, Real.cos (x + 2 * Real.pi * 3 / 4) = Real.sin x ∧ Real.sin (x + 2 * Real.pi * 3 / 4) = -Real.cos x := fun x => by
    have : x + 2 * Real.pi * 3 / 4 = x + Real.pi / 2 + Real.pi := by ring
    rw [this, Real.cos_add_pi, Real.sin_add_pi, Real.cos_add_pi_div_two, Real.sin_add_pi_div_two]; simp
  simp only [cos]
  rw [chain_cons _ _ _ _ _ _ (by omega) (by omega)]
  split_ifs with c0
  · refine reduced_cosine K false n N 1 1 hN (by omega) (by omega) (by omega) (by omega) (by omega) (by omega) (by omega) _ ?_
    simp only [flip, exactCos, if_true, Bool.false_eq_true, if_false]; push_cast; rw [mul_one, div_one, Real.cos_add_two_pi]
  rw [chain_cons _ _ _ _ _ _ (by omega) (by omega)]
  split_ifs with c1
  · refine reduced_sine K true n N 3 4 hN (by omega) (by omega) (by omega) (by omega) (by omega) (by omega) (by omega) _ ?_
    simp only [flip, exactCos, if_true, Bool.false_eq_true, if_false]; push_cast; rw [(pi4 _).2]; ring
  rw [chain_cons _ _ _ _ _ _ (by omega) (by omega)]
  split_ifs with c2
  · refine reduced_cosine K true n N 1 2 hN (by omega) (by omega) (by omega) (by omega) (by omega) (by omega) (by omega) _ ?_
    simp only [flip, exactCos, if_true, Bool.false_eq_true, if_false]; push_cast
    rw [show 2 * Real.pi * (1 : ℝ) / 2 = Real.pi by ring, Real.cos_add_pi]; ring
  rw [chain_cons _ _ _ _ _ _ (by omega) (by omega)]
  split_ifs with c3
  · refine reduced_sine K false n N 1 4 hN (by omega) (by omega) (by omega) (by omega) (by omega) (by omega) (by omega) _ ?_
    simp only [flip, exactCos, if_true, Bool.false_eq_true, if_false]; push_cast
    rw [show 2 * Real.pi * (1 : ℝ) / 4 = Real.pi / 2 by ring, Real.sin_add_pi_div_two]
  rw [chain_cons _ _ _ _ _ _ (by omega) (by omega)]
  split_ifs with c4
  · refine reduced_cosine K false n N 0 1 hN (by omega) (by omega) (by omega) (by omega) (by omega) (by omega) (by omega) _ ?_
    simp only [flip, exactCos, if_true, Bool.false_eq_true, if_false]; push_cast; simp
  rw [chain_cons _ _ _ _ _ _ (by omega) (by omega)]
  split_ifs with c5
  · refine reduced_sine K true n N (-1) 4 hN (by omega) (by omega) (by omega) (by omega) (by omega) (by omega) (by omega) _ ?_
    simp only [flip, exactCos, if_true, Bool.false_eq_true, if_false]; push_cast
    rw [show ∀ x : ℝ, x + 2 * Real.pi * (-1 : ℝ) / 4 = x - Real.pi / 2 by intro x; ring, Real.sin_sub_pi_div_two]; ring
  rw [chain_cons _ _ _ _ _ _ (by omega) (by omega)]
  split_ifs with c6
  · refine reduced_cosine K true n N (-1) 2 hN (by omega) (by omega) (by omega) (by omega) (by omega) (by omega) (by omega) _ ?_
    simp only [flip, exactCos, if_true, Bool.false_eq_true, if_false]; push_cast
    rw [show ∀ x : ℝ, x + 2 * Real.pi * (-1 : ℝ) / 2 = x - Real.pi by intro x; ring, Real.cos_sub_pi]; ring
  rw [chain_cons _ _ _ _ _ _ (by omega) (by omega)]
  split_ifs with c7
  · refine reduced_sine K false n N (-3) 4 hN (by omega) (by omega) (by omega) (by omega) (by omega) (by omega) (by omega) _ ?_
    simp only [flip, exactCos, if_true, Bool.false_eq_true, if_false]; push_cast
    rw [show ∀ x : ℝ, x + 2 * Real.pi * (-3 : ℝ) / 4 = x + Real.pi / 2 - 2 * Real.pi by intro x; ring, Real.sin_sub_two_pi, Real.sin_add_pi_div_two]
  · simp only [chain]
    refine reduced_cosine K false n N (-1) 1 hN (by omega) (by omega) (by omega) (by omega) (by omega) (by omega) (by omega) _ ?_
    simp only [flip, exactCos, if_true, Bool.false_eq_true, if_false]; push_cast
    rw [show ∀ x : ℝ, x + 2 * Real.pi * (-1 : ℝ) / 1 = x - 2 * Real.pi by intro x; ring, Real.cos_sub_two_pi]

include hN hN2 hn hn2 in
theorem sin_reduced : Reduced K (sin K n N) (exactSin n N) := by
  have pi4 : ∀ x : ℝ, Real.cos (x + 2 * Real.pi * 3 / 4) = Real.sin x ∧ Real.sin (x + 2 * Real.pi * 3 / 4) = -Real.cos x := fun x => by
    have : x + 2 * Real.pi * 3 / 4 = x + Real.pi / 2 + Real.pi := by ring
    rw [this, Real.cos_add_pi, Real.sin_add_pi, Real.cos_add_pi_div_two, Real.sin_add_pi_div_two]; simp
  simp only [sin]
  rw [chain_cons _ _ _ _ _ _ (by omega) (by omega)]
  split_ifs with c0
  · refine reduced_sine K false n N 1 1 hN (by omega) (by omega) (by omega) (by omega) (by omega) (by omega) (by omega) _ ?_
    simp only [flip, exactSin, if_true, Bool.false_eq_true, if_false]; push_cast; rw [mul_one, div_one, Real.sin_add_two_pi]
  rw [chain_cons _ _ _ _ _ _ (by omega) (by omega)]
  split_ifs with c1
  · refine reduced_cosine K false n N 3 4 hN (by omega) (by omega) (by omega) (by omega) (by omega) (by omega) (by omega) _ ?_
    simp only [flip, exactSin, if_true, Bool.false_eq_true, if_false]; push_cast; rw [(pi4 _).1]
  rw [chain_cons _ _ _ _ _ _ (by omega) (by omega)]
  split_ifs with c2
  · refine reduced_sine K true n N 1 2 hN (by omega) (by omega) (by omega) (by omega) (by omega) (by omega) (by omega) _ ?_
    simp only [flip, exactSin, if_true, Bool.false_eq_true, if_false]; push_cast
    rw [show 2 * Real.pi * (1 : ℝ) / 2 = Real.pi by ring, Real.sin_add_pi]; ring
  rw [chain_cons _ _ _ _ _ _ (by omega) (by omega)]
  split_ifs with c3
  · refine reduced_cosine K true n N 1 4 hN (by omega) (by omega) (by omega) (by omega) (by omega) (by omega) (by omega) _ ?_
    simp only [flip, exactSin, if_true, Bool.false_eq_true, if_false]; push_cast
    rw [show 2 * Real.pi * (1 : ℝ) / 4 = Real.pi / 2 by ring, Real.cos_add_pi_div_two]; ring
  rw [chain_cons _ _ _ _ _ _ (by omega) (by omega)]
  split_ifs with c4
  · refine reduced_sine K false n N 0 1 hN (by omega) (by omega) (by omega) (by omega) (by omega) (by omega) (by omega) _ ?_
    simp only [flip, exactSin, if_true, Bool.false_eq_true, if_false]; push_cast; simp
  rw [chain_cons _ _ _ _ _ _ (by omega) (by omega)]
  split_ifs with c5
  · refine reduced_cosine K false n N (-1) 4 hN (by omega) (by omega) (by omega) (by omega) (by omega) (by omega) (by omega) _ ?_
    simp only [flip, exactSin, if_true, Bool.false_eq_true, if_false]; push_cast
    rw [show ∀ x : ℝ, x + 2 * Real.pi * (-1 : ℝ) / 4 = x - Real.pi / 2 by intro x; ring, Real.cos_sub_pi_div_two]
  rw [chain_cons _ _ _ _ _ _ (by omega) (by omega)]
  split_ifs with c6
  · refine reduced_sine K true n N (-1) 2 hN (by omega) (by omega) (by omega) (by omega) (by omega) (by omega) (by omega) _ ?_
    simp only [flip, exactSin, if_true, Bool.false_eq_true, if_false]; push_cast
    rw [show ∀ x : ℝ, x + 2 * Real.pi * (-1 : ℝ) / 2 = x - Real.pi by intro x; ring, Real.sin_sub_pi]; ring
  rw [chain_cons _ _ _ _ _ _ (by omega) (by omega)]
  split_ifs with c7
  · refine reduced_cosine K true n N (-3) 4 hN (by omega) (by omega) (by omega) (by omega) (by omega) (by omega) (by omega) _ ?_
    simp only [flip, exactSin, if_true, Bool.false_eq_true, if_false]; push_cast
    rw [show ∀ x : ℝ, x + 2 * Real.pi * (-3 : ℝ) / 4 = x + Real.pi / 2 - 2 * Real.pi by intro x; ring, Real.cos_sub_two_pi, Real.cos_add_pi_div_two]; ring
  · simp only [chain]
    refine reduced_sine K false n N (-1) 1 hN (by omega) (by omega) (by omega) (by omega) (by omega) (by omega) (by omega) _ ?_
    simp only [flip, exactSin, if_true, Bool.false_eq_true, if_false]; push_cast
    rw [show ∀ x : ℝ, x + 2 * Real.pi * (-1 : ℝ) / 1 = x - 2 * Real.pi by intro x; ring, Real.sin_sub_two_pi]

end UnitCircle

namespace UnitCircle

variable (n N : ℤ) (hN : 1 ≤ N) (hN2 : N ≤ 268435455) (hn : -N ≤ n) (hn2 : n ≤ N)

/-- The same in exact arithmetic. -/
theorem Reduced.real {K : Kernels} {r : M ℝ} {v : ℝ} (h : Reduced K r v) : ∃ σ q : ℝ, (σ = 1 ∨ σ = -1) ∧ |q| ≤ 1 / 8 ∧
    ((r = .ok (σ * K.cosine (K.twoPi * q)) ∧ v = σ * Real.cos (2 * Real.pi * q)) ∨ (r = .ok (σ * K.sine (K.twoPi * q)) ∧ v = σ * Real.sin (2 * Real.pi * q))) := by
  obtain ⟨neg, j, J, hJ, h1, h2, -, h⟩ := h
  have hJ' : (0 : ℝ) < J := by exact_mod_cast (by omega : 0 < J)
  have h1' : -(J : ℝ) ≤ 8 * j := by exact_mod_cast h1
  have h2' : 8 * (j : ℝ) ≤ J := by exact_mod_cast h2
  refine ⟨flip neg 1, (j : ℝ) / J, by cases neg <;> simp [flip], ?_, ?_⟩
  · rw [abs_le, le_div_iff₀ hJ', div_le_iff₀ hJ']
    constructor <;> linarith
  · rw [mul_div_assoc] at h
    have e : ∀ x : ℝ, flip neg x = flip neg 1 * x := by intro x; cases neg <;> simp [flip]
    rw [← e, ← e, ← e, ← e]
    exact h

include hN hN2 hn hn2 in
theorem cos_exact : cos Kernels.exact n N = .ok (exactCos n N) := by
  obtain ⟨σ, q, -, -, h | h⟩ := (cos_reduced Kernels.exact n N hN hN2 hn hn2).real <;> rw [h.1, h.2] <;> rfl

include hN hN2 hn hn2 in
theorem sin_exact : sin Kernels.exact n N = .ok (exactSin n N) := by
  obtain ⟨σ, q, -, -, h | h⟩ := (sin_reduced Kernels.exact n N hN hN2 hn hn2).real <;> rw [h.1, h.2] <;> rfl

end UnitCircle
end DSP
