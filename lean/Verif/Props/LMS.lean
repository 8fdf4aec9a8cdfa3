import Verif.Model.LMS
import Verif.Lemmas.Loops
import Verif.Lemmas.Delay
import Verif.Props.Phasor
import Mathlib.Analysis.RCLike.Basic

/-!
# Adaptive filters (C56, C57)
-/

namespace DSP
namespace LMS

open ComplexConjugate

variable {𝕜 : Type} [RCLike 𝕜]

/-- `Σ h[i] * u[i]`. -/
noncomputable def dot (h u : List 𝕜) : 𝕜 := (List.zipWith (· * ·) h u).sum

/-- `Σ |u[i]|²`. -/
noncomputable def energy (u : List 𝕜) : ℝ := (u.map (fun v => ‖v‖ ^ 2)).sum

/-- The squared distance of two sets of taps. -/
noncomputable def distance (g h : List 𝕜) : ℝ := energy (List.zipWith (· - ·) g h)

/-- The last `SIZE` inputs, oldest first, zeros before the first one. -/
noncomputable def window (SIZE : ℕ) (xs : List 𝕜) : List 𝕜 := (List.replicate SIZE 0 ++ xs).drop xs.length

/-! ### Algebra -/

theorem energy_nonneg (u : List 𝕜) : 0 ≤ energy u := by
  apply List.sum_nonneg
  simp only [List.mem_map, forall_exists_index, and_imp, forall_apply_eq_imp_iff₂]
  intro a _; positivity

theorem energy_eq_zero (u : List 𝕜) : energy u = 0 ↔ ∀ v ∈ u, v = 0 := by
  induction u with
  | nil => simp [energy]
  | cons a u ih =>
    have h1 := energy_nonneg u
    have h2 : energy (a :: u) = ‖a‖ ^ 2 + energy u := by simp [energy]
    rw [h2]
    simp only [List.mem_cons, forall_eq_or_imp, ← ih]
    constructor
    · intro h
      have h3 : 0 ≤ ‖a‖ ^ 2 := by positivity
      refine ⟨norm_eq_zero.mp (pow_eq_zero_iff (two_ne_zero) |>.mp (by linarith)), by linarith⟩
    · rintro ⟨rfl, h⟩; simp [h]

/-- The taps after a step in the direction of the inputs. -/
noncomputable def move (c : 𝕜) (g u : List 𝕜) : List 𝕜 := List.zipWith (fun a b => a + c * conj b) g u

theorem dot_move (c : 𝕜) (g u : List 𝕜) (h : g.length = u.length) : dot (move c g u) u = dot g u + c * (energy u : ℝ) := by
  induction g generalizing u with
  | nil => cases u <;> simp_all [dot, move, energy]
  | cons a g ih =>
    cases u with
    | nil => simp at h
    | cons b u =>
      have := ih u (by simpa using h)
      simp only [dot, move, energy, List.zipWith_cons_cons, List.sum_cons, List.map_cons, RCLike.ofReal_add, RCLike.ofReal_pow] at this ⊢
      rw [this, ← RCLike.conj_mul b]; ring

theorem distance_move (c : 𝕜) (g h u : List 𝕜) (h1 : g.length = u.length) (h2 : h.length = u.length) :
    distance (move c g u) h = distance g h + 2 * RCLike.re (c * conj (dot g u - dot h u)) + ‖c‖ ^ 2 * energy u := by
  induction g generalizing u h with
  | nil => cases u <;> cases h <;> simp_all [dot, move, energy, distance]
  | cons a g ih =>
    cases u with
    | nil => simp at h1
    | cons b u =>
      cases h with
      | nil => simp at h2
      | cons d h =>
        have := ih h u (by simpa using h1) (by simpa using h2)
        simp only [dot, move, energy, distance, List.zipWith_cons_cons, List.sum_cons, List.map_cons] at this ⊢
        rw [this]
        have e : ‖a + c * conj b - d‖ ^ 2 = ‖a - d‖ ^ 2 + 2 * RCLike.re (c * conj ((a - d) * b)) + ‖c‖ ^ 2 * ‖b‖ ^ 2 := by
          have e1 : a + c * conj b - d = (a - d) + c * conj b := by ring
          rw [e1, RCLike.norm_sq_eq_def, RCLike.norm_sq_eq_def, RCLike.norm_sq_eq_def, RCLike.norm_sq_eq_def]
          simp only [map_add, map_sub, RCLike.mul_re, RCLike.mul_im, RCLike.conj_re, RCLike.conj_im, map_mul]
          ring
        rw [e]
        have e2 : c * conj (a * b + (List.zipWith (fun x1 x2 => x1 * x2) g u).sum - (d * b + (List.zipWith (fun x1 x2 => x1 * x2) h u).sum))
            = c * conj ((a - d) * b) + c * conj ((List.zipWith (fun x1 x2 => x1 * x2) g u).sum - (List.zipWith (fun x1 x2 => x1 * x2) h u).sum) := by
          rw [← mul_add, ← map_add]; congr 2; ring
        rw [e2, map_add]; ring

/-- One step of the method. -/
noncomputable def adapt (mu : ℝ) (e : 𝕜) (g u : List 𝕜) : List 𝕜 := open Classical in
  if energy u = 0 then g else move (((mu / energy u : ℝ) : 𝕜) * e) g u

theorem adapt_length (mu : ℝ) (e : 𝕜) (g u : List 𝕜) (h : g.length = u.length) : (adapt mu e g u).length = g.length := by
  unfold adapt; split
  · rfl
  · simp [move, h]

theorem adapt_one (d : 𝕜) (g u : List 𝕜) (h : g.length = u.length) (hu : ∃ v ∈ u, v ≠ 0) :
    dot (adapt 1 (d - dot g u) g u) u = d := by
  have h0 : energy u ≠ 0 := by
    rw [Ne, energy_eq_zero]; push Not; exact hu
  have h1 : ((energy u : ℝ) : 𝕜) ≠ 0 := by exact_mod_cast h0
  rw [adapt, if_neg h0, dot_move _ _ _ h]
  push_cast
  field_simp
  ring

theorem adapt_zero (mu : ℝ) (e : 𝕜) (g u : List 𝕜) (hu : ∀ v ∈ u, v = 0) : adapt mu e g u = g := by
  rw [adapt, if_pos ((energy_eq_zero u).mpr hu)]

/-- What a step gains. -/
theorem adapt_distance (mu : ℝ) (g h u : List 𝕜) (h1 : g.length = u.length) (h2 : h.length = u.length) (h0 : energy u ≠ 0) :
    distance (adapt mu (dot h u - dot g u) g u) h = distance g h - mu * (2 - mu) * ‖dot h u - dot g u‖ ^ 2 / energy u := by
  rw [adapt, if_neg h0, distance_move _ _ _ _ h1 h2]
  have e1 : dot g u - dot h u = -(dot h u - dot g u) := by ring
  generalize dot h u - dot g u = e at *
  rw [e1, map_neg, mul_neg, map_neg, mul_assoc, RCLike.mul_conj, norm_mul, RCLike.norm_ofReal]
  have e2 : RCLike.re (((mu / energy u : ℝ) : 𝕜) * (‖e‖ : 𝕜) ^ 2) = mu / energy u * ‖e‖ ^ 2 := by
    rw [← RCLike.ofReal_pow, ← RCLike.ofReal_mul, RCLike.ofReal_re]
  rw [e2, mul_pow, sq_abs]
  field_simp
  ring

theorem adapt_nearer (mu : ℝ) (h0 : 0 ≤ mu) (h2 : mu ≤ 2) (g h u : List 𝕜) (l1 : g.length = u.length) (l2 : h.length = u.length) (d : 𝕜)
    (hd : dot h u = d) : distance (adapt mu (d - dot g u) g u) h ≤ distance g h := by
  subst hd
  by_cases c : energy u = 0
  · rw [adapt, if_pos c]
  · rw [adapt_distance mu g h u l1 l2 c]
    have : 0 ≤ mu * (2 - mu) * ‖dot h u - dot g u‖ ^ 2 / energy u :=
      div_nonneg (mul_nonneg (mul_nonneg h0 (by linarith)) (by positivity)) (energy_nonneg u)
    linarith

theorem window_length (SIZE : ℕ) (xs : List 𝕜) : (window SIZE xs).length = SIZE := by simp [window]

theorem window_snoc (SIZE : ℕ) (h : 0 < SIZE) (xs : List 𝕜) (x : 𝕜) : window SIZE (xs ++ [x]) = (window SIZE xs).tail ++ [x] := by
  unfold window
  rw [List.tail_drop, ← List.append_assoc, List.drop_append_of_le_length (by simp; omega)]
  simp

/-- The machine: the last inputs and the taps. -/
noncomputable def step (s : List 𝕜 × List 𝕜) (a : 𝕜 × 𝕜 × ℝ) : (List 𝕜 × List 𝕜) × 𝕜 :=
  let u := s.1.tail ++ [a.1]
  let e := a.2.1 - dot s.2 u
  ((u, adapt a.2.2 e s.2 u), e)

theorem final_lengths (SIZE : ℕ) (h : 0 < SIZE) (calls : List (𝕜 × 𝕜 × ℝ)) :
    (final step (List.replicate SIZE 0, List.replicate SIZE 0) calls).1 = window SIZE (calls.map Prod.fst) ∧
    (final step (List.replicate SIZE 0, List.replicate SIZE 0) calls).2.length = SIZE := by
  induction calls using List.reverseRecOn with
  | nil => simp [final, window]
  | append_singleton l a ih =>
    rw [final_append]
    simp only [final, step]
    rw [ih.1, List.map_append, List.map_cons, List.map_nil, window_snoc SIZE h, ← window_snoc SIZE h, adapt_length _ _ _ _ (by rw [window_length, ih.2])]
    exact ⟨rfl, ih.2⟩

/-- The calls of someone who wants the filter to become `h`: the desired values are made by `h` from the last `SIZE` inputs. -/
def Follows (SIZE : ℕ) (h : List 𝕜) (mu : ℝ) (calls : List (𝕜 × 𝕜 × ℝ)) : Prop :=
  ∀ hist x d m, hist ++ [(x, d, m)] <+: calls → m = mu ∧ d = dot h (window SIZE ((hist.map Prod.fst) ++ [x]))

theorem energy_le (B : ℝ) (u : List 𝕜) (h : ∀ v ∈ u, ‖v‖ ≤ B) : energy u ≤ u.length * B ^ 2 := by
  have := List.sum_le_card_nsmul (u.map (fun v => ‖v‖ ^ 2)) (B ^ 2) (by
    simp only [List.mem_map, forall_exists_index, and_imp, forall_apply_eq_imp_iff₂]
    intro v hv
    exact pow_le_pow_left₀ (norm_nonneg v) (h v hv) 2)
  simpa [energy] using this

theorem window_mem (SIZE : ℕ) (xs : List 𝕜) (v : 𝕜) (hv : v ∈ window SIZE xs) : v = 0 ∨ v ∈ xs := by
  have := List.mem_of_mem_drop hv
  rcases List.mem_append.mp this with h | h
  · exact Or.inl (List.eq_of_mem_replicate h)
  · exact Or.inr h

theorem distance_zero (SIZE : ℕ) (h : List 𝕜) (hl : h.length = SIZE) : distance (List.replicate SIZE 0) h = energy h := by
  subst hl
  unfold distance
  induction h with
  | nil => rfl
  | cons a h ih =>
    simp only [energy, List.length_cons, List.replicate_succ, List.zipWith_cons_cons, List.map_cons, List.sum_cons] at ih ⊢
    rw [ih, zero_sub, norm_neg]

theorem learns_aux (SIZE : ℕ) (hS : 0 < SIZE) (h : List 𝕜) (hl : h.length = SIZE) (mu B : ℝ) (h0 : 0 ≤ mu) (h2 : mu ≤ 2) (hB : 0 ≤ B)
    (calls : List (𝕜 × 𝕜 × ℝ)) (hx : ∀ a ∈ calls, ‖a.1‖ ≤ B) (hf : Follows SIZE h mu calls) :
    mu * (2 - mu) * energy (outputs step (List.replicate SIZE 0, List.replicate SIZE 0) calls) +
      SIZE * B ^ 2 * distance (final step (List.replicate SIZE 0, List.replicate SIZE 0) calls).2 h ≤ SIZE * B ^ 2 * energy h := by
  induction calls using List.reverseRecOn with
  | nil => simp [outputs, final, energy, distance_zero SIZE h hl]
  | append_singleton l a ih =>
    have ih := ih (fun b hb => hx b (by simp [hb])) (fun hist x d m hp => hf hist x d m (hp.trans (List.prefix_append _ _)))
    obtain ⟨l1, l2⟩ := final_lengths SIZE hS l
    obtain ⟨x, d, m⟩ := a
    obtain ⟨rfl, hd⟩ := hf l x d m (List.prefix_refl _)
    rw [outputs_append, final_append]
    set s := final step (List.replicate SIZE (0 : 𝕜), List.replicate SIZE (0 : 𝕜)) l with hs
    set es := outputs step (List.replicate SIZE (0 : 𝕜), List.replicate SIZE (0 : 𝕜)) l
    set u := window SIZE (l.map Prod.fst ++ [x]) with hu
    have e1 : (step s (x, d, m)).2 = dot h u - dot s.2 u := by
      simp only [step]; rw [l1, ← window_snoc SIZE hS, ← hu, hd]
    have e2 : (step s (x, d, m)).1.2 = adapt m (dot h u - dot s.2 u) s.2 u := by
      simp only [step]; rw [l1, ← window_snoc SIZE hS, ← hu, hd]
    have hul : u.length = SIZE := window_length SIZE _
    have key : m * (2 - m) * ‖dot h u - dot s.2 u‖ ^ 2 + SIZE * B ^ 2 * distance (adapt m (dot h u - dot s.2 u) s.2 u) h ≤
        SIZE * B ^ 2 * distance s.2 h := by
      by_cases c : energy u = 0
      · have c' := (energy_eq_zero u).mp c
        have d0 : ∀ g : List 𝕜, dot g u = 0 := by
          intro g
          apply List.sum_eq_zero
          intro z hz
          rw [List.mem_iff_getElem?] at hz
          obtain ⟨i, hi⟩ := hz
          rw [List.getElem?_zipWith] at hi
          cases hg : g[i]? with
          | none => rw [hg] at hi; simp at hi
          | some p =>
            cases hu' : u[i]? with
            | none => rw [hg, hu'] at hi; simp at hi
            | some q =>
              rw [hg, hu'] at hi
              have := c' q (List.mem_of_getElem? hu')
              simp [this] at hi
              exact hi.symm
        rw [d0, d0, adapt, if_pos c]; simp
      · rw [adapt_distance m s.2 h u (by rw [l2, hul]) (by rw [hl, hul]) c]
        have hp : 0 < energy u := lt_of_le_of_ne (energy_nonneg u) (Ne.symm c)
        have hle : energy u ≤ SIZE * B ^ 2 := by
          rw [← hul]
          apply energy_le
          intro v hv
          rcases window_mem SIZE _ v hv with rfl | hv
          · simpa using hB
          · rw [List.mem_append, List.mem_map] at hv
            rcases hv with ⟨b, hb, rfl⟩ | hv
            · exact hx b (by simp [hb])
            · rw [List.mem_singleton.mp hv]; exact hx (x, d, m) (by simp)
        have hq : 0 ≤ m * (2 - m) * ‖dot h u - dot s.2 u‖ ^ 2 := mul_nonneg (mul_nonneg h0 (by linarith)) (by positivity)
        have hr : m * (2 - m) * ‖dot h u - dot s.2 u‖ ^ 2 ≤ SIZE * B ^ 2 * (m * (2 - m) * ‖dot h u - dot s.2 u‖ ^ 2 / energy u) := by
          rw [mul_div_assoc', le_div_iff₀ hp, mul_comm]
          exact mul_le_mul_of_nonneg_right hle hq
        linarith
    have e3 : energy (es ++ outputs step s [(x, d, m)]) = energy es + ‖dot h u - dot s.2 u‖ ^ 2 := by
      simp [energy, outputs, e1]
    have e4 : (final step s [(x, d, m)]).2 = adapt m (dot h u - dot s.2 u) s.2 u := e2
    rw [e3, e4]
    linarith

end LMS

namespace BipBuffer

theorem Rep.cell {α : Type _} {NUM : ℕ} {b : BipBuffer α} {w : List α} {r : ℕ} (h : Rep NUM b w r) (i : ℕ) (v : α) (hi : w[i]? = some v) :
    rd b.buf (b.ptr + i) = .ok v := by
  have hlt : i < NUM := by rw [← h.wlen]; exact (List.getElem?_eq_some_iff.mp hi).1
  have hp : b.ptr = r := by unfold ptr; rcases h.pos with ⟨h0, h1⟩ | ⟨h0, h1⟩ <;> omega
  apply rd_of_getElem? (by omega)
  rw [← hi, ← h.cells i hlt]
  congr 1; omega

end BipBuffer

namespace NLMS

open LMS

/-- Taps and buffer agree with the machine. -/
def Agrees (SIZE : ℕ) (f : NLMS) (s : List ℝ × List ℝ) : Prop :=
  f.filter = s.2 ∧ s.2.length = SIZE ∧ ∃ r, BipBuffer.Rep SIZE f.history s.1 r

theorem agrees_init (SIZE : ℕ) (h : 0 < SIZE) : Agrees SIZE (init SIZE) (List.replicate SIZE 0, List.replicate SIZE 0) :=
  ⟨rfl, by simp, 0, BipBuffer.Rep.init h 0⟩

theorem agrees_call (SIZE : ℕ) (f : NLMS) (s : List ℝ × List ℝ) (h : Agrees SIZE f s) (a : ℝ × ℝ × ℝ) :
    ∃ f', f.call a = .ok (f', (step s a).2) ∧ Agrees SIZE f' (step s a).1 := by
  obtain ⟨h1, h2, r, h3⟩ := h
  obtain ⟨x, d, mu⟩ := a
  obtain ⟨b, r', e, hr⟩ := h3.put x
  have hw := hr.wlen
  have hn := hr.num
  have c := hr.cell
  simp only [step]
  set u := s.1.tail ++ [x] with hu
  have l1 : (List.range b.num).foldlM (fun acc (i : ℕ) => do
      let c ← rd f.filter i
      let h ← rd b.buf (b.ptr + i)
      return acc + c * h) (0 : ℝ) = .ok (dot s.2 u) := by
    apply sum_loop
    · simp [hn, h2, hw]
    · intro acc i v hv
      rw [List.getElem?_zipWith] at hv
      cases hg : s.2[i]? with
      | none => rw [hg] at hv; simp at hv
      | some p =>
        cases hq : u[i]? with
        | none => rw [hg, hq] at hv; simp at hv
        | some q =>
          rw [hg, hq] at hv
          simp only [Option.some.injEq] at hv
          rw [h1, rd_of_getElem? (by omega) (by simpa using hg), c i q hq]
          simp only [bind, Except.bind, pure, Except.pure, hv]
  have l2 : (List.range b.num).foldlM (fun acc (i : ℕ) => do
      let h ← rd b.buf (b.ptr + i)
      let h' ← rd b.buf (b.ptr + i)
      return acc + h * h') (0 : ℝ) = .ok (energy u) := by
    apply sum_loop
    · simp [hn, hw]
    · intro acc i v hv
      rw [List.getElem?_map] at hv
      cases hq : u[i]? with
      | none => rw [hq] at hv; simp at hv
      | some q =>
        rw [hq] at hv
        simp only [Option.map_some, Option.some.injEq] at hv
        rw [c i q hq]
        simp only [bind, Except.bind, pure, Except.pure, ← hv]
        rw [Real.norm_eq_abs, sq_abs, sq]
  simp only [bind, Except.bind, pure, Except.pure] at l1 l2
  by_cases c0 : energy u = 0
  · refine ⟨{ f with history := b }, ?_, ?_, ?_, r', hr⟩
    · simp only [call, e, l1, l2, bind, Except.bind, pure, Except.pure]
      rw [if_pos c0]
    · rw [adapt, if_pos c0]; exact h1
    · rw [adapt, if_pos c0]; exact h2
  · have l3 : (List.range b.num).foldlM (fun filter (i : ℕ) => do
        let c ← rd filter i
        let h ← rd b.buf (b.ptr + i)
        wr filter i (c + (mu / energy u) * (d - dot s.2 u) * h)) f.filter = .ok (adapt mu (d - dot s.2 u) s.2 u) := by
      rw [h1, adapt, if_neg c0]
      apply update_loop
      · rw [h2, hn]
      · simp [move, hn, h2, hw]
      · intro g i p v hi hg hp hp2 hv
        rw [move, List.getElem?_zipWith, hp2] at hv
        cases hq : u[i]? with
        | none => rw [hq] at hv; simp at hv
        | some q =>
          rw [hq] at hv
          simp only [Option.some.injEq] at hv
          rw [rd_of_getElem? (by omega) (by simpa using hp), c i q hq]
          simp only [bind, Except.bind]
          rw [wr_nat (by omega), ← hv]
          simp
    refine ⟨⟨b, adapt mu (d - dot s.2 u) s.2 u⟩, ?_, rfl, ?_, r', hr⟩
    · simp only [call, e, l1, l2, bind, Except.bind, pure, Except.pure]
      rw [if_neg c0, fdiv_ok c0]
      simp only [bind, Except.bind] at l3
      simp only [l3]
    · rw [adapt_length _ _ _ _ (by rw [h2, hw])]; exact h2

/-- After every history a call with input `x`, desired output `d` and `mu` returns the error of the estimate `Σ filter[i] * window[i]`.
With `mu = 1` (and not only zeros among the last inputs) the new taps reproduce `d`; with `0 ≤ mu ≤ 2` they are not farther than before from any
taps reproducing `d`; if the last `SIZE` inputs are all zero they stay. There is no division by zero and no access outside the arrays. -/
theorem C56_step (SIZE : ℕ) (hS : 0 < SIZE) (hist : List (ℝ × ℝ × ℝ)) (x d mu : ℝ) :
    ∃ f es f' e, run call (init SIZE) hist = .ok (f, es) ∧ f.call (x, d, mu) = .ok (f', e) ∧ f'.filter.length = SIZE ∧
      e = d - dot f.filter (window SIZE (hist.map Prod.fst ++ [x])) ∧
      (mu = 1 → (∃ v ∈ window SIZE (hist.map Prod.fst ++ [x]), v ≠ 0) → dot f'.filter (window SIZE (hist.map Prod.fst ++ [x])) = d) ∧
      (0 ≤ mu → mu ≤ 2 → ∀ h : List ℝ, h.length = SIZE → dot h (window SIZE (hist.map Prod.fst ++ [x])) = d →
        distance f'.filter h ≤ distance f.filter h) ∧
      ((∀ v ∈ window SIZE (hist.map Prod.fst ++ [x]), v = 0) → f'.filter = f.filter) := by
  obtain ⟨f, es, e, -, hI, -, -⟩ := run_of_inv (step := call)
    (fun f h => Agrees SIZE f (final step (List.replicate SIZE 0, List.replicate SIZE 0) h)) (fun _ _ => True) (fun _ => True)
    (fun f h a hI _ => by
      obtain ⟨f', e, h'⟩ := agrees_call SIZE f _ hI a
      exact ⟨f', _, e, by rw [final_append]; exact h', trivial⟩)
    (s := init SIZE) (h := []) (agrees_init SIZE hS) hist (by simp)
  rw [List.nil_append] at hI
  obtain ⟨f', e2, hI2⟩ := agrees_call SIZE f _ hI (x, d, mu)
  obtain ⟨l1, l2⟩ := final_lengths SIZE hS hist
  simp only [step] at e2 hI2
  rw [l1, ← window_snoc SIZE hS] at e2 hI2
  rw [← hI.1] at e2 hI2 l2
  have hl : (window SIZE (hist.map Prod.fst ++ [x])).length = SIZE := window_length SIZE _
  refine ⟨f, es, f', _, e, e2, by rw [hI2.1]; exact hI2.2.1, rfl, ?_, ?_, ?_⟩
  · rintro rfl hv
    rw [hI2.1]
    exact adapt_one d f.filter _ (by rw [l2, hl]) hv
  · intro m0 m2 h hh hd
    rw [hI2.1]
    exact adapt_nearer mu m0 m2 _ h _ (by rw [l2, hl]) (by rw [hh, hl]) d hd
  · intro hv
    rw [hI2.1]
    exact adapt_zero _ _ _ _ hv

/-- Learning: if the desired outputs are made by taps `h` from inputs of magnitude at most `B`, then the squares of all errors ever returned sum to at most
`SIZE B² Σ h² / (mu (2 - mu))`, however long the filter runs. -/
theorem C56_learns (SIZE : ℕ) (hS : 0 < SIZE) (h : List ℝ) (hl : h.length = SIZE) (mu B : ℝ) (h0 : 0 < mu) (h2 : mu < 2) (hB : 0 ≤ B)
    (calls : List (ℝ × ℝ × ℝ)) (hx : ∀ a ∈ calls, |a.1| ≤ B) (hf : Follows SIZE h mu calls) :
    ∃ es, trace call (init SIZE) calls = (es, none) ∧ es.length = calls.length ∧
      (es.map (fun e => e ^ 2)).sum ≤ SIZE * B ^ 2 * (h.map (fun c => c ^ 2)).sum / (mu * (2 - mu)) := by
  have e := trace_eq_outputs (Agrees SIZE) (fun f s a hI => agrees_call SIZE f s hI a) (agrees_init SIZE hS) calls
  refine ⟨_, e, outputs_length _ _, ?_⟩
  have := learns_aux SIZE hS h hl mu B h0.le h2.le hB calls hx hf
  have hd : 0 ≤ SIZE * B ^ 2 * distance (final step (List.replicate SIZE 0, List.replicate SIZE 0) calls).2 h :=
    mul_nonneg (by positivity) (energy_nonneg _)
  have hm : 0 < mu * (2 - mu) := mul_pos h0 (by linarith)
  rw [le_div_iff₀ hm]
  simp only [energy, Real.norm_eq_abs, sq_abs] at this
  linarith

/-- Three calls that follow the taps 2, 3 (the newest input is weighted with 3). -/
example : Follows 2 [(2 : ℝ), 3] (1 / 2) [(1, 3, 1 / 2), (0, 2, 1 / 2), (1, 3, 1 / 2)] := by
  intro hist x d m hp
  rcases hist with _ | ⟨a, _ | ⟨b, _ | ⟨c, _ | ⟨d, t⟩⟩⟩⟩ <;> simp_all [List.prefix_iff_eq_take, dot, window]

end NLMS

namespace NCLMS

open LMS

/-- Taps and buffer agree with the machine. -/
def Agrees (SIZE : ℕ) (f : NCLMS) (s : List ℂ × List ℂ) : Prop :=
  f.filter = s.2 ∧ s.2.length = SIZE ∧ ∃ r, BipBuffer.Rep SIZE f.history (s.1.map (starRingEnd ℂ)) r

theorem agrees_init (SIZE : ℕ) (h : 0 < SIZE) : Agrees SIZE (init SIZE) (List.replicate SIZE 0, List.replicate SIZE 0) :=
  ⟨rfl, by simp, 0, by simpa [init] using BipBuffer.Rep.init h (0 : ℂ)⟩

theorem agrees_call (SIZE : ℕ) (f : NCLMS) (s : List ℂ × List ℂ) (h : Agrees SIZE f s) (a : ℂ × ℂ × ℝ) :
    ∃ f', f.call a = .ok (f', (step s a).2) ∧ Agrees SIZE f' (step s a).1 := by
  obtain ⟨h1, h2, r, h3⟩ := h
  obtain ⟨x, d, mu⟩ := a
  obtain ⟨b, r', e, hr⟩ := h3.put (starRingEnd ℂ x)
  have hr : BipBuffer.Rep SIZE b ((s.1.tail ++ [x]).map (starRingEnd ℂ)) r' := by
    rw [← List.map_tail] at hr; simpa using hr
  have hw := hr.wlen
  rw [List.length_map] at hw
  have hn := hr.num
  have c : ∀ (i : ℕ) (v : ℂ), (s.1.tail ++ [x])[i]? = some v → rd b.buf (b.ptr + i) = .ok (starRingEnd ℂ v) := fun i v hv =>
    hr.cell i _ (by rw [List.getElem?_map, hv]; rfl)
  simp only [step]
  set u := s.1.tail ++ [x] with hu
  have l1 : (List.range b.num).foldlM (fun acc (i : ℕ) => do
      let c ← rd f.filter i
      let h ← rd b.buf (b.ptr + i)
      return acc + starRingEnd ℂ c * h) (0 : ℂ) = .ok (starRingEnd ℂ (dot s.2 u)) := by
    have : starRingEnd ℂ (dot s.2 u) = ((List.zipWith (· * ·) s.2 u).map (starRingEnd ℂ)).sum := map_list_sum _ _
    rw [this]
    apply sum_loop
    · simp [hn, h2, hw]
    · intro acc i v hv
      rw [List.getElem?_map, List.getElem?_zipWith] at hv
      cases hg : s.2[i]? with
      | none => rw [hg] at hv; simp at hv
      | some p =>
        cases hq : u[i]? with
        | none => rw [hg, hq] at hv; simp at hv
        | some q =>
          rw [hg, hq] at hv
          simp only [Option.map_some, Option.some.injEq] at hv
          rw [h1, rd_of_getElem? (by omega) (by simpa using hg), c i q hq]
          simp only [bind, Except.bind, pure, Except.pure, ← hv, map_mul]
  have l2 : (List.range b.num).foldlM (fun acc (i : ℕ) => do
      let h ← rd b.buf (b.ptr + i)
      return acc + Complex.normSq h) (0 : ℝ) = .ok (energy u) := by
    apply sum_loop
    · simp [hn, hw]
    · intro acc i v hv
      rw [List.getElem?_map] at hv
      cases hq : u[i]? with
      | none => rw [hq] at hv; simp at hv
      | some q =>
        rw [hq] at hv
        simp only [Option.map_some, Option.some.injEq] at hv
        rw [c i q hq]
        simp only [bind, Except.bind, pure, Except.pure, ← hv]
        rw [Complex.normSq_conj, Complex.normSq_eq_norm_sq]
  have hcc : starRingEnd ℂ (starRingEnd ℂ d - starRingEnd ℂ (dot s.2 u)) = d - dot s.2 u := by simp
  simp only [bind, Except.bind, pure, Except.pure] at l1 l2
  by_cases c0 : energy u = 0
  · refine ⟨{ f with history := b }, ?_, ?_, ?_, r', hr⟩
    · simp only [call, e, l1, l2, hcc, bind, Except.bind, pure, Except.pure]
      rw [if_pos c0]
    · rw [adapt, if_pos c0]; exact h1
    · rw [adapt, if_pos c0]; exact h2
  · have l3 : (List.range b.num).foldlM (fun filter (i : ℕ) => do
        let c ← rd filter i
        let h ← rd b.buf (b.ptr + i)
        wr filter i (c + ((mu / energy u : ℝ) : ℂ) * (d - dot s.2 u) * h)) f.filter = .ok (adapt mu (d - dot s.2 u) s.2 u) := by
      rw [h1, adapt, if_neg c0]
      apply update_loop
      · rw [h2, hn]
      · simp [move, hn, h2, hw]
      · intro g i p v hi hg hp hp2 hv
        rw [move, List.getElem?_zipWith, hp2] at hv
        cases hq : u[i]? with
        | none => rw [hq] at hv; simp at hv
        | some q =>
          rw [hq] at hv
          simp only [Option.some.injEq] at hv
          rw [rd_of_getElem? (by omega) (by simpa using hp), c i q hq]
          simp only [bind, Except.bind]
          rw [wr_nat (by omega), ← hv]
          simp
    refine ⟨⟨b, adapt mu (d - dot s.2 u) s.2 u⟩, ?_, rfl, ?_, r', hr⟩
    · simp only [call, e, l1, l2, hcc, bind, Except.bind, pure, Except.pure]
      rw [if_neg c0, fdiv_ok c0]
      simp only [bind, Except.bind] at l3
      simp only [l3]
    · rw [adapt_length _ _ _ _ (by rw [h2, hw])]; exact h2

/-- After every history a call with input `x`, desired output `d` and `mu` returns the error of the estimate `Σ filter[i] * window[i]`.
With `mu = 1` (and not only zeros among the last inputs) the new taps reproduce `d`; with `0 ≤ mu ≤ 2` they are not farther than before from any
taps reproducing `d`; if the last `SIZE` inputs are all zero they stay. There is no division by zero and no access outside the arrays. -/
theorem C57_step (SIZE : ℕ) (hS : 0 < SIZE) (hist : List (ℂ × ℂ × ℝ)) (x d : ℂ) (mu : ℝ) :
    ∃ f es f' e, run call (init SIZE) hist = .ok (f, es) ∧ f.call (x, d, mu) = .ok (f', e) ∧ f'.filter.length = SIZE ∧
      e = d - dot f.filter (window SIZE (hist.map Prod.fst ++ [x])) ∧
      (mu = 1 → (∃ v ∈ window SIZE (hist.map Prod.fst ++ [x]), v ≠ 0) → dot f'.filter (window SIZE (hist.map Prod.fst ++ [x])) = d) ∧
      (0 ≤ mu → mu ≤ 2 → ∀ h : List ℂ, h.length = SIZE → dot h (window SIZE (hist.map Prod.fst ++ [x])) = d →
        distance f'.filter h ≤ distance f.filter h) ∧
      ((∀ v ∈ window SIZE (hist.map Prod.fst ++ [x]), v = 0) → f'.filter = f.filter) := by
  obtain ⟨f, es, e, -, hI, -, -⟩ := run_of_inv (step := call)
    (fun f h => Agrees SIZE f (final step (List.replicate SIZE 0, List.replicate SIZE 0) h)) (fun _ _ => True) (fun _ => True)
    (fun f h a hI _ => by
      obtain ⟨f', e, h'⟩ := agrees_call SIZE f _ hI a
      exact ⟨f', _, e, by rw [final_append]; exact h', trivial⟩)
    (s := init SIZE) (h := []) (agrees_init SIZE hS) hist (by simp)
  rw [List.nil_append] at hI
  obtain ⟨f', e2, hI2⟩ := agrees_call SIZE f _ hI (x, d, mu)
  obtain ⟨l1, l2⟩ := final_lengths SIZE hS hist
  simp only [step] at e2 hI2
  rw [l1, ← window_snoc SIZE hS] at e2 hI2
  rw [← hI.1] at e2 hI2 l2
  have hl : (window SIZE (hist.map Prod.fst ++ [x])).length = SIZE := window_length SIZE _
  refine ⟨f, es, f', _, e, e2, by rw [hI2.1]; exact hI2.2.1, rfl, ?_, ?_, ?_⟩
  · rintro rfl hv
    rw [hI2.1]
    exact adapt_one d f.filter _ (by rw [l2, hl]) hv
  · intro m0 m2 h hh hd
    rw [hI2.1]
    exact adapt_nearer mu m0 m2 _ h _ (by rw [l2, hl]) (by rw [hh, hl]) d hd
  · intro hv
    rw [hI2.1]
    exact adapt_zero _ _ _ _ hv

/-- Learning: if the desired outputs are made by taps `h` from inputs of magnitude at most `B`, then the squared magnitudes of all errors ever returned sum to at most
`SIZE B² Σ |h|² / (mu (2 - mu))`, however long the filter runs. -/
theorem C57_learns (SIZE : ℕ) (hS : 0 < SIZE) (h : List ℂ) (hl : h.length = SIZE) (mu B : ℝ) (h0 : 0 < mu) (h2 : mu < 2) (hB : 0 ≤ B)
    (calls : List (ℂ × ℂ × ℝ)) (hx : ∀ a ∈ calls, ‖a.1‖ ≤ B) (hf : Follows SIZE h mu calls) :
    ∃ es, trace call (init SIZE) calls = (es, none) ∧ es.length = calls.length ∧
      (es.map (fun e => ‖e‖ ^ 2)).sum ≤ SIZE * B ^ 2 * (h.map (fun c => ‖c‖ ^ 2)).sum / (mu * (2 - mu)) := by
  have e := trace_eq_outputs (Agrees SIZE) (fun f s a hI => agrees_call SIZE f s hI a) (agrees_init SIZE hS) calls
  refine ⟨_, e, outputs_length _ _, ?_⟩
  have := learns_aux SIZE hS h hl mu B h0.le h2.le hB calls hx hf
  have hd : 0 ≤ SIZE * B ^ 2 * distance (final step (List.replicate SIZE 0, List.replicate SIZE 0) calls).2 h :=
    mul_nonneg (by positivity) (energy_nonneg _)
  have hm : 0 < mu * (2 - mu) := mul_pos h0 (by linarith)
  rw [le_div_iff₀ hm]
  simp only [energy] at this
  linarith

example : Follows 2 [(2 : ℂ), Complex.I] 1 [(1, Complex.I, 1), (Complex.I, 1, 1)] := by
  intro hist x d m hp
  rcases hist with _ | ⟨a, _ | ⟨b, _ | ⟨c, t⟩⟩⟩ <;> simp_all [List.prefix_iff_eq_take, dot, window]
  norm_num

end NCLMS
end DSP
