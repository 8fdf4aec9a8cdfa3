import Verif.Lemmas.Ieee
import Verif.Lemmas.SMA
import Verif.Model.Filters
import Verif.Model.Calculus
import Verif.Model.SMA

/-!
# Infinities and NaN in recursive filters (C95)

Once a sample is not finite, be it an input or the result of an overflow, no later output of a recursive filter is finite.
-/

namespace DSP
namespace Nonfinite

open Spec

/-- If the state goes bad with a bad output or input and never recovers then all outputs from there on are bad. -/
theorem absorb {σ ι ω : Type} (step : σ → ι → σ × ω) (s : σ) (x : ℕ → ι) (bad : σ → Prop) (bi : ι → Prop) (bo : ω → Prop)
    (h1 : ∀ s i, bad s → bo (step s i).2) (h2 : ∀ s i, bi i → bo (step s i).2) (h3 : ∀ s i, bo (step s i).2 → bad (step s i).1)
    (n m : ℕ) (hn : bi (x n) ∨ bo (stream step s x n)) (hm : n ≤ m) : bo (stream step s x m) := by
  induction m, hm using Nat.le_induction with
  | base =>
    rcases hn with h | h
    · exact h2 _ _ h
    · exact h
  | succ m hm ih => exact h1 _ _ (h3 _ _ ih)

variable {F : Format} {E : Type} [Add E] [Sub E] [SMul (Ieee F) E] [Sample F E]

theorem ema_step (f : EMA (Ieee F) E) (x : E) (h : ¬Sample.Finite F f.prev ∨ ¬Sample.Finite F x) : ¬Sample.Finite F (f.call x).2 := by
  rcases h with h | h
  · exact Sample.add_left _ _ (Sample.smul _ _ h)
  · exact Sample.add_right _ _ (Sample.smul _ _ h)

/-- **C95** The exponential moving average, for every weight. -/
theorem C95_ema (f : EMA (Ieee F) E) (x : ℕ → E) (n m : ℕ) (hn : ¬Sample.Finite F (x n) ∨ ¬Sample.Finite F (stream EMA.call f x n)) (hm : n ≤ m) : ¬Sample.Finite F (stream EMA.call f x m) :=
  absorb EMA.call f x (fun f => ¬Sample.Finite F f.prev) (fun x => ¬Sample.Finite F x) (fun y => ¬Sample.Finite F y) (fun f x h => ema_step f x (.inl h)) (fun f x h => ema_step f x (.inr h)) (fun _ _ h => h) n m hn hm

/-- An infinite sample and the weight 1/2. -/
example (x : ℕ → Ieee Format.single) (h : x 7 = .inf true) : ¬(stream EMA.call ((EMA.init 0 1).samples 2 : EMA (Ieee Format.single) (Ieee Format.single)) x 100).Finite :=
  C95_ema (F := Format.single) _ x 7 100 (.inl (by rw [h]; exact id)) (by norm_num)

theorem stages_bad (alpha : Ieee F) (ps : List E) (x : E) (h : ¬Sample.Finite F x) :
    ¬Sample.Finite F (EMACascade.stages alpha ps x).2 := by
  induction ps generalizing x with
  | nil => exact h
  | cons p ps ih => exact ih _ (Sample.add_right _ _ (Sample.smul _ _ h))

theorem stages_out (alpha : Ieee F) (ps : List E) (x x' : E) (hne : ps ≠ []) (h : ¬Sample.Finite F (EMACascade.stages alpha ps x).2) :
    ¬Sample.Finite F (EMACascade.stages alpha (EMACascade.stages alpha ps x).1 x').2 := by
  induction ps generalizing x x' with
  | nil => exact absurd rfl hne
  | cons p ps ih =>
    cases ps with
    | nil => exact Sample.add_left _ _ (Sample.smul _ _ h)
    | cons q qs => exact ih _ _ (by simp) h

omit [Sub E] [Sample F E] in
theorem stages_length (alpha : Ieee F) (ps : List E) (x : E) : (EMACascade.stages alpha ps x).1.length = ps.length := by
  induction ps generalizing x with
  | nil => rfl
  | cons p ps ih => simp only [EMACascade.stages, List.length_cons, ih]

/-- **C95** Cascades of averages. -/
theorem C95_ema_cascade (f : EMACascade (Ieee F) E) (hf : f.prev ≠ []) (x : ℕ → E) (n m : ℕ) (hn : ¬Sample.Finite F (x n) ∨ ¬Sample.Finite F (stream EMACascade.call f x n)) (hm : n ≤ m) :
    ¬Sample.Finite F (stream EMACascade.call f x m) := by
  have hl : ∀ k, (states EMACascade.call f x k).prev ≠ [] := by
    intro k
    induction k with
    | zero => exact hf
    | succ k ih =>
      intro h
      apply ih
      have : ((EMACascade.stages (states EMACascade.call f x k).alpha (states EMACascade.call f x k).prev (x k)).1).length = 0 := by
        show ((states EMACascade.call f x (k + 1)).prev).length = 0
        rw [h]; rfl
      rw [stages_length] at this
      exact List.eq_nil_of_length_eq_zero this
  induction m, hm using Nat.le_induction with
  | base =>
    rcases hn with h | h
    · exact stages_bad _ _ _ h
    · exact h
  | succ m hm ih => exact stages_out _ _ _ _ (hl m) ih

theorem blockdc_step (f : BlockDC (Ieee F) E) (x : E) (h : ¬Sample.Finite F f.y1 ∨ ¬Sample.Finite F x) : ¬Sample.Finite F (f.call x).2 := by
  rcases h with h | h
  · exact Sample.add_right _ _ (Sample.smul _ _ h)
  · exact Sample.add_left _ _ (Sample.smul _ _ (Sample.sub_left _ _ h))

/-- **C95** The DC blocker. -/
theorem C95_blockdc (f : BlockDC (Ieee F) E) (x : ℕ → E) (n m : ℕ) (hn : ¬Sample.Finite F (x n) ∨ ¬Sample.Finite F (stream BlockDC.call f x n)) (hm : n ≤ m) : ¬Sample.Finite F (stream BlockDC.call f x m) :=
  absorb BlockDC.call f x (fun f => ¬Sample.Finite F f.y1) (fun x => ¬Sample.Finite F x) (fun y => ¬Sample.Finite F y) (fun f x h => blockdc_step f x (.inl h)) (fun f x h => blockdc_step f x (.inr h)) (fun _ _ h => h) n m hn hm

theorem biquad_step (f : Biquad (Ieee F) E) (x : E) (h : ¬Sample.Finite F f.y1 ∨ ¬Sample.Finite F x) : ¬Sample.Finite F (f.call x).2 := by
  rcases h with h | h
  · exact Sample.sub_left _ _ (Sample.sub_right _ _ (Sample.smul _ _ h))
  · exact Sample.sub_left _ _ (Sample.sub_left _ _ (Sample.add_left _ _ (Sample.add_left _ _ (Sample.smul _ _ h))))

/-- **C95** The second order filter, even where its feedback is zero. -/
theorem C95_biquad (f : Biquad (Ieee F) E) (x : ℕ → E) (n m : ℕ) (hn : ¬Sample.Finite F (x n) ∨ ¬Sample.Finite F (stream Biquad.call f x n)) (hm : n ≤ m) : ¬Sample.Finite F (stream Biquad.call f x m) :=
  absorb Biquad.call f x (fun f => ¬Sample.Finite F f.y1) (fun x => ¬Sample.Finite F x) (fun y => ¬Sample.Finite F y) (fun f x h => biquad_step f x (.inl h)) (fun f x h => biquad_step f x (.inr h)) (fun _ _ h => h) n m hn hm

theorem cascade_bad (c : BiquadCascade (Ieee F) E) (x : E) (h : ¬Sample.Finite F x) : ¬Sample.Finite F (BiquadCascade.call c x).2 := by
  induction c generalizing x with
  | nil => exact h
  | cons f fs ih => exact ih _ (biquad_step f x (.inr h))

theorem cascade_out (c : BiquadCascade (Ieee F) E) (x x' : E) (hne : c ≠ []) (h : ¬Sample.Finite F (BiquadCascade.call c x).2) :
    ¬Sample.Finite F (BiquadCascade.call (BiquadCascade.call c x).1 x').2 := by
  induction c generalizing x x' with
  | nil => exact absurd rfl hne
  | cons f fs ih =>
    cases fs with
    | nil => exact biquad_step _ _ (.inl h)
    | cons g gs => exact ih _ _ (by simp) h

omit [Sample F E] in
theorem cascade_length (c : BiquadCascade (Ieee F) E) (x : E) : (BiquadCascade.call c x).1.length = c.length := by
  induction c generalizing x with
  | nil => rfl
  | cons f fs ih => simp only [BiquadCascade.call, List.length_cons, ih]

/-- **C95** Cascades of second order filters. -/
theorem C95_biquad_cascade (c : BiquadCascade (Ieee F) E) (hc : c ≠ []) (x : ℕ → E) (n m : ℕ) (hn : ¬Sample.Finite F (x n) ∨ ¬Sample.Finite F (stream BiquadCascade.call c x n)) (hm : n ≤ m) :
    ¬Sample.Finite F (stream BiquadCascade.call c x m) := by
  have hl : ∀ k, states BiquadCascade.call c x k ≠ [] := by
    intro k
    induction k with
    | zero => exact hc
    | succ k ih =>
      intro h
      apply ih
      have : ((BiquadCascade.call (states BiquadCascade.call c x k) (x k)).1).length = 0 := by
        show (states BiquadCascade.call c x (k + 1)).length = 0
        rw [h]; rfl
      rw [cascade_length] at this
      exact List.eq_nil_of_length_eq_zero this
  induction m, hm using Nat.le_induction with
  | base =>
    rcases hn with h | h
    · exact cascade_bad _ _ h
    · exact h
  | succ m hm ih => exact cascade_out _ _ _ (hl m) ih

omit [Sub E] [SMul (Ieee F) E] [Sample F E] [Add E] in
theorem integrator_step (F : Format) [Add E] [Sub E] [SMul (Ieee F) E] [Sample F E] (s x : E) (h : ¬Sample.Finite F s ∨ ¬Sample.Finite F x) : ¬Sample.Finite F (integrator s x).2 := by
  rcases h with h | h
  · exact Sample.add_left _ _ h
  · exact Sample.add_right _ _ h

/-- **C95** The integrator. -/
theorem C95_integrator (s : E) (x : ℕ → E) (n m : ℕ) (hn : ¬Sample.Finite F (x n) ∨ ¬Sample.Finite F (stream integrator s x n)) (hm : n ≤ m) : ¬Sample.Finite F (stream integrator s x m) :=
  absorb integrator s x (fun s => ¬Sample.Finite F s) (fun x => ¬Sample.Finite F x) (fun y => ¬Sample.Finite F y) (fun s x h => integrator_step F s x (.inl h)) (fun s x h => integrator_step F s x (.inr h)) (fun _ _ h => h) n m hn hm

omit [Sub E] [SMul (Ieee F) E] [Sample F E] [Add E] in
theorem kahan_step (F : Format) [Add E] [Sub E] [SMul (Ieee F) E] [Sample F E] (k : Kahan E) (x : E) (h : ¬Sample.Finite F k.high ∨ ¬Sample.Finite F x) : ¬Sample.Finite F (k.call x).2 := by
  rcases h with h | h
  · exact Sample.add_left _ _ h
  · exact Sample.add_right _ _ (Sample.sub_left _ _ h)

/-- **C95** The compensated sum. -/
theorem C95_kahan (k : Kahan E) (x : ℕ → E) (n m : ℕ) (hn : ¬Sample.Finite F (x n) ∨ ¬Sample.Finite F (stream Kahan.call k x n)) (hm : n ≤ m) : ¬Sample.Finite F (stream Kahan.call k x m) :=
  absorb Kahan.call k x (fun k => ¬Sample.Finite F k.high) (fun x => ¬Sample.Finite F x) (fun y => ¬Sample.Finite F y) (fun k x h => kahan_step F k x (.inl h)) (fun k x h => kahan_step F k x (.inr h)) (fun _ _ h => h) n m hn hm

/-- **C95** The moving average with a running sum: an input that is not finite spoils all later outputs, long after it left the window. -/
theorem C95_sma2 (NUM : ℕ) (hN : 0 < NUM) (norm : Bool) (xs : List (Ieee F)) :
    ∃ ys, trace (SMA2.call (fun a b => .ok (a + b)) (fun a b => .ok (a - b)) norm (fun s => s / ((NUM : ℤ) : Ieee F))) (SMA2.init NUM) xs = (ys, none) ∧ ys.length = xs.length ∧
      ∀ n x, xs[n]? = some x → ¬x.Finite → ∀ m, n ≤ m → m < xs.length → ∃ y, ys[m]? = some y ∧ ¬y.Finite := by
  obtain ⟨s', ys, -, h1, -, h2, h3⟩ := run_of_inv (step := SMA2.call (fun a b => .ok (a + b)) (fun a b => .ok (a - b)) norm (fun s => s / ((NUM : ℤ) : Ieee F)))
    (fun s h => Delay.Rep NUM s.delay (window NUM 0 h) ∧ ((∃ x ∈ h, ¬x.Finite) → ¬s.sum.Finite)) (fun h y => (∃ x ∈ h, ¬x.Finite) → ¬y.Finite) (fun _ => True)
    (by
      intro s h x ⟨hr, hs⟩ _
      obtain ⟨d', y, e, hr', -, -⟩ := hr.step hN x
      have key : (∃ x' ∈ h ++ [x], ¬x'.Finite) → ¬(s.sum + (x - y)).Finite := by
        rintro ⟨x', hx', hb⟩
        rcases List.mem_append.mp hx' with hx' | hx'
        · exact Ieee.add_bad_left _ _ (hs ⟨x', hx', hb⟩)
        · rw [List.mem_singleton.mp hx'] at hb
          exact Ieee.add_bad_right _ _ (Ieee.sub_bad_left _ _ hb)
      refine ⟨_, _, by simp only [SMA2.call, e, bind, Except.bind, pure, Except.pure]; rfl, ⟨hr', key⟩, fun hb => ?_⟩
      cases norm
      · exact key hb
      · exact Ieee.div_bad _ _ (key hb))
    (s := SMA2.init NUM) (h := []) ⟨by rw [Spec.window_nil]; exact Delay.Rep.init hN 0, by simp⟩ xs (fun _ _ => trivial)
  refine ⟨ys, h1, h2, fun n x hx hb m hm hml => ?_⟩
  obtain ⟨y, hy, hP⟩ := h3 m hml
  refine ⟨y, hy, hP ⟨x, ?_, hb⟩⟩
  rw [List.nil_append]
  refine List.mem_of_getElem? (i := n) ?_
  rw [List.getElem?_take_of_lt (by omega), hx]

/-- **C95** The moving average with a compensated running sum. -/
theorem C95_sma3 (NUM : ℕ) (hN : 0 < NUM) (norm : Bool) (xs : List (Ieee F)) :
    ∃ ys, trace (SMA3.call norm (fun s => s / ((NUM : ℤ) : Ieee F))) (SMA3.init NUM) xs = (ys, none) ∧ ys.length = xs.length ∧
      ∀ n x, xs[n]? = some x → ¬x.Finite → ∀ m, n ≤ m → m < xs.length → ∃ y, ys[m]? = some y ∧ ¬y.Finite := by
  obtain ⟨s', ys, -, h1, -, h2, h3⟩ := run_of_inv (step := SMA3.call norm (fun s => s / ((NUM : ℤ) : Ieee F)))
    (fun s h => Delay.Rep NUM s.delay (window NUM 0 h) ∧ ((∃ x ∈ h, ¬x.Finite) → ¬s.sum.high.Finite)) (fun h y => (∃ x ∈ h, ¬x.Finite) → ¬y.Finite) (fun _ => True)
    (by
      intro s h x ⟨hr, hs⟩ _
      obtain ⟨d', y, e, hr', -, -⟩ := hr.step hN x
      have key : (∃ x' ∈ h ++ [x], ¬x'.Finite) → ¬(((s.sum.call (-y)).1.call x).2).Finite := by
        rintro ⟨x', hx', hb⟩
        rcases List.mem_append.mp hx' with hx' | hx'
        · exact kahan_step F (s.sum.call (-y)).1 x (.inl (kahan_step F s.sum (-y) (.inl (hs ⟨x', hx', hb⟩))))
        · rw [List.mem_singleton.mp hx'] at hb
          exact kahan_step F (s.sum.call (-y)).1 x (.inr hb)
      refine ⟨_, _, by simp only [SMA3.call, e, bind, Except.bind, pure, Except.pure]; rfl, ⟨hr', key⟩, fun hb => ?_⟩
      cases norm
      · exact key hb
      · exact Ieee.div_bad _ _ (key hb))
    (s := SMA3.init NUM) (h := []) ⟨by rw [Spec.window_nil]; exact Delay.Rep.init hN 0, by simp⟩ xs (fun _ _ => trivial)
  refine ⟨ys, h1, h2, fun n x hx hb m hm hml => ?_⟩
  obtain ⟨y, hy, hP⟩ := h3 m hml
  refine ⟨y, hy, hP ⟨x, ?_, hb⟩⟩
  rw [List.nil_append]
  refine List.mem_of_getElem? (i := n) ?_
  rw [List.getElem?_take_of_lt (by omega), hx]

/-- An overflow: two large numbers whose sum is infinite; the window of one sample has long forgotten them. -/
example : ∃ ys, trace (SMA3.call true (fun s => s / (((1 : ℕ) : ℤ) : Ieee Format.single))) (SMA3.init 1) ([.inf false] ++ List.replicate 9 0) = (ys, none) ∧ ∃ y, ys[9]? = some y ∧ ¬y.Finite := by
  obtain ⟨ys, h1, -, h2⟩ := C95_sma3 (F := Format.single) 1 (by norm_num) true ([.inf false] ++ List.replicate 9 0)
  exact ⟨ys, h1, h2 0 (.inf false) rfl id 9 (by norm_num) (by norm_num)⟩

end Nonfinite
end DSP
