import Verif.Props.FDZP

/-!
# C73: for which sizes FDZP interpolates
-/

namespace DSP

open FFT Complex

theorem set_same {α : Type} {l : List α} {i : ℕ} {v : α} (h : l[i]? = some v) : l.set i v = l := by
  apply List.ext_getElem?
  intro k
  rw [List.getElem?_set]
  by_cases e : i = k
  · subst e
    rw [if_pos rfl, h]
    rw [if_pos (by by_contra c; rw [List.getElem?_eq_none (by omega)] at h; simp at h)]
  · rw [if_neg e]

theorem wr_same {α : Type} {l : List α} {i : ℕ} {v : α} (h : l[i]? = some v) : wr l (i : Int) v = .ok l := by
  rw [wr_nat (by by_contra c; rw [List.getElem?_eq_none (by omega)] at h; simp at h), set_same h]

namespace FDZP

/-- Moving zeros onto zeros. -/
theorem copy_zeros (t : List ℂ) (first off n : ℕ) (h1 : ∀ a < n, t[first + a]? = some 0) (h2 : ∀ a < n, t[off + (first + a)]? = some 0) :
    (List.range n).foldlM (fun tmp (a : Nat) => do
      let t ← rd tmp ((first + a : Nat) : Int)
      wr tmp ((off + (first + a) : Nat) : Int) t) t = (.ok t : M (List ℂ)) := by
  obtain ⟨b, e, h⟩ := foldlM_inv (fun _ (b : List ℂ) => b = t) (fun tmp (a : Nat) => do
      let t ← rd tmp ((first + a : Nat) : Int)
      wr tmp ((off + (first + a) : Nat) : Int) t) n t rfl (by
    rintro a ha b rfl
    refine ⟨b, ?_, rfl⟩
    rw [rd_some (h1 a ha)]
    simp only [bind, Except.bind]
    exact wr_same (h2 a ha))
  rw [e, h]

theorem clear_zeros (t : List ℂ) (first n : ℕ) (h1 : ∀ a < n, t[first + a]? = some 0) :
    (List.range n).foldlM (fun tmp (a : Nat) => wr tmp ((first + a : Nat) : Int) 0) t = (.ok t : M (List ℂ)) := by
  obtain ⟨b, e, h⟩ := foldlM_inv (fun _ (b : List ℂ) => b = t) (fun tmp (a : Nat) => wr tmp ((first + a : Nat) : Int) 0) n t rfl (by
    rintro a ha b rfl
    exact ⟨b, wr_same (h1 a ha), rfl⟩)
  rw [e, h]

/-- The samples of a single spectral line. -/
noncomputable def line (N b : ℕ) : List ℂ := (List.range N).map (Spec.dft 1 N fun j => if j = b then 1 else 0)

theorem dft_congr (s : ℤ) (N : ℕ) (x y : ℕ → ℂ) (h : ∀ n < N, x n = y n) (k : ℕ) : Spec.dft s N x k = Spec.dft s N y k := by
  unfold Spec.dft
  apply Finset.sum_congr rfl
  intro n hn
  rw [h n (Finset.mem_range.mp hn)]

theorem line_get (N b n : ℕ) (hn : n < N) : (line N b).getD n 0 = Spec.dft 1 N (fun j => if j = b then 1 else 0) n := by
  unfold line
  rw [getD_map_range _ N n 0 hn]

/-- It has just one line. -/
theorem line_dft (N b k : ℕ) (hk : k < N) : Spec.dft (-1) N (fun n => (line N b).getD n 0) k = if k = b then (N : ℂ) else 0 := by
  rw [dft_congr (-1) N _ _ (fun n hn => line_get N b n hn), dft_dft 1 (Or.inl rfl) N _ k hk]
  split_ifs <;> simp

/-- `tmp` behind the forward transform of the first call. -/
theorem line_tmp (N O b : ℕ) (hO : N ≤ O) (j : ℕ) (hj : j < O) (hb : b < N) :
    ((List.range N).map (Spec.dft (-1) N fun n => (line N b).getD n 0) ++ (FDZP.init O).drop N)[j]? = some (if j = b then (N : ℂ) else 0) := by
  by_cases h : j < N
  · rw [List.getElem?_append_left (by simpa using h), List.getElem?_map, List.getElem?_range h, Option.map_some, line_dft N b j h]
  · rw [List.getElem?_append_right (by simp; omega), FDZP.init, List.drop_replicate, List.getElem?_replicate, List.length_map, List.length_range, if_pos (by omega), if_neg (by omega)]

/-- The rest of a call when there is nothing to move. -/
theorem finish (T : Trig ℝ) (hT : T.Exact) (O N : ℕ) (hO : 0 < O) (hpo : ∀ p, p.Prime → p ∣ O → p ≤ 31) (t output : List ℂ) (ht : t.length = O) (ho : output.length = O) :
    (do
      let output ← FFT.call T 1 O output t
      let output ← (List.range O).foldlM (fun output (i : Nat) => do
        let v ← rd output (i : Int)
        wr output (i : Int) (((1 / (N : ℝ) : ℝ) : ℂ) * v)) output
      return (t, output) : M (List ℂ × List ℂ)) = .ok (t, (List.range O).map fun m => ((1 / (N : ℝ) : ℝ) : ℂ) * Spec.dft 1 O (fun n => t.getD n 0) m) := by
  rw [C31_dft T hT 1 (Or.inl rfl) O hO hpo output t (by omega) (by omega)]
  rw [← ho, List.drop_length, List.append_nil, ho]
  have hs := FDZP.scale_ok (((1 / (N : ℝ) : ℝ) : ℂ)) ((List.range O).map (Spec.dft 1 O fun n => t.getD n 0))
  rw [List.length_map, List.length_range] at hs
  simp only [bind, Except.bind] at hs ⊢
  rw [hs]
  simp only [pure, Except.pure]
  rw [List.map_map]
  rfl

/-- An even size with too few outputs: a line among the negative frequencies gets lost. -/
theorem overlap_zero (T : Trig ℝ) (hT : T.Exact) (H g : ℕ) (h0 : 0 < g) (h1 : g < H) (hpi : ∀ p, p.Prime → p ∣ 2 * H → p ≤ 31) (hpo : ∀ p, p.Prime → p ∣ 2 * H + g → p ≤ 31) :
    ∃ tmp, FDZP.step T (2 * H + g) (2 * H) (FDZP.init (2 * H + g)) (line (2 * H) (H + g)) = .ok (tmp, List.replicate (2 * H + g) 0) := by
  unfold FDZP.step FDZP.call
  rw [C31_dft T hT (-1) (Or.inr rfl) (2 * H) (by omega) hpi _ _ (by simp [FDZP.init]) (by simp [line])]
  have ht : ∀ j, j < 2 * H + g → ((List.range (2 * H)).map (Spec.dft (-1) (2 * H) fun n => (line (2 * H) (H + g)).getD n 0) ++ (FDZP.init (2 * H + g)).drop (2 * H))[j]? =
      some (if j = H + g then ((2 * H : ℕ) : ℂ) else 0) := fun j hj => line_tmp (2 * H) (2 * H + g) (H + g) (by omega) j hj (by omega)
  have hl : ((List.range (2 * H)).map (Spec.dft (-1) (2 * H) fun n => (line (2 * H) (H + g)).getD n 0) ++ (FDZP.init (2 * H + g)).drop (2 * H)).length = 2 * H + g := by simp [FDZP.init]
  generalize (List.range (2 * H)).map (Spec.dft (-1) (2 * H) fun n => (line (2 * H) (H + g)).getD n 0) ++ (FDZP.init (2 * H + g)).drop (2 * H) = t1 at ht hl
  have d1 : 2 * H / 2 = H := by omega
  have d2 : (2 * H + 1) / 2 + 1 = H + 1 := by omega
  have d3 : 2 * H - (H + 1) = H - 1 := by omega
  have d4 : 2 * H + g - H = H + g := by omega
  have d5 : 2 * H + g - 2 * H = g := by omega
  have d6 : (2 * H % 2 == 0) = true := by rw [beq_iff_eq]; omega
  simp only [bind, Except.bind, d1, d2, d3, d4, d5, d6, M.ite, if_true]
  have hm : t1[H]? = some 0 := by rw [ht H (by omega), if_neg (by omega)]
  rw [rd_some hm]
  simp only [mul_zero]
  rw [wr_same hm]
  simp only
  rw [rd_some hm]
  simp only
  rw [wr_nat (by omega)]
  simp only
  have hz : t1.set (H + g) 0 = List.replicate (2 * H + g) 0 := by
    apply List.ext_getElem?
    intro k
    rw [List.getElem?_set, List.getElem?_replicate]
    by_cases hk : k < 2 * H + g
    · rw [if_pos hk]
      by_cases e : H + g = k
      · rw [if_pos e, if_pos (by omega)]
      · rw [if_neg e, ht k hk, if_neg (by omega)]
    · rw [if_neg hk, if_neg (by omega), List.getElem?_eq_none (by omega)]
  rw [hz]
  have hr : ∀ j, j < 2 * H + g → (List.replicate (2 * H + g) (0 : ℂ))[j]? = some 0 := fun j hj => by rw [List.getElem?_replicate, if_pos hj]
  have c1 := copy_zeros (List.replicate (2 * H + g) 0) (H + 1) g (H - 1) (fun a ha => hr _ (by omega)) (fun a ha => hr _ (by omega))
  have c2 := clear_zeros (List.replicate (2 * H + g) 0) (H + 1) (H - 1) (fun a ha => hr _ (by omega))
  simp only [bind, Except.bind] at c1 c2
  rw [c1]
  simp only
  rw [c2]
  simp only
  have f := finish T hT (2 * H + g) (2 * H) (by omega) hpo (List.replicate (2 * H + g) 0) (List.replicate (2 * H + g) 0) (by simp) (by simp)
  simp only [bind, Except.bind] at f
  rw [f]
  refine ⟨List.replicate (2 * H + g) 0, ?_⟩
  congr 2
  rw [List.eq_replicate_iff]
  refine ⟨by simp, ?_⟩
  intro v hv
  simp only [List.mem_map, List.mem_range] at hv
  obtain ⟨m, -, rfl⟩ := hv
  have : Spec.dft 1 (2 * H + g) (fun n => (List.replicate (2 * H + g) (0 : ℂ)).getD n 0) m = 0 := by
    unfold Spec.dft
    apply Finset.sum_eq_zero
    intro n hn
    beta_reduce; rw [List.getD_eq_getElem?_getD, hr n (Finset.mem_range.mp hn)]
    simp
  rw [this, mul_zero]

/-- An odd size: the lowest negative frequency is taken for a positive one. -/
theorem odd_wrong (T : Trig ℝ) (hT : T.Exact) (h O : ℕ) (hh : 0 < h) (hO : 2 * h + 1 < O) (hpi : ∀ p, p.Prime → p ∣ 2 * h + 1 → p ≤ 31) (hpo : ∀ p, p.Prime → p ∣ O → p ≤ 31) :
    ∃ tmp, FDZP.step T O (2 * h + 1) (FDZP.init O) (line (2 * h + 1) (h + 1)) = .ok (tmp, (List.range O).map fun m => Spec.unit 1 O ((h + 1) * m)) := by
  unfold FDZP.step FDZP.call
  rw [C31_dft T hT (-1) (Or.inr rfl) (2 * h + 1) (by omega) hpi _ _ (by simp [FDZP.init]; omega) (by simp [line])]
  have ht : ∀ j, j < O → ((List.range (2 * h + 1)).map (Spec.dft (-1) (2 * h + 1) fun n => (line (2 * h + 1) (h + 1)).getD n 0) ++ (FDZP.init O).drop (2 * h + 1))[j]? =
      some (if j = h + 1 then ((2 * h + 1 : ℕ) : ℂ) else 0) := fun j hj => line_tmp (2 * h + 1) O (h + 1) (by omega) j hj (by omega)
  have hl : ((List.range (2 * h + 1)).map (Spec.dft (-1) (2 * h + 1) fun n => (line (2 * h + 1) (h + 1)).getD n 0) ++ (FDZP.init O).drop (2 * h + 1)).length = O := by
    simp [FDZP.init]; omega
  generalize (List.range (2 * h + 1)).map (Spec.dft (-1) (2 * h + 1) fun n => (line (2 * h + 1) (h + 1)).getD n 0) ++ (FDZP.init O).drop (2 * h + 1) = t1 at ht hl
  have d2 : (2 * h + 1 + 1) / 2 + 1 = h + 2 := by omega
  have d3 : 2 * h + 1 - (h + 2) = h - 1 := by omega
  have d6 : ((2 * h + 1) % 2 == 0) = false := by rw [beq_eq_false_iff_ne]; omega
  simp only [bind, Except.bind, d2, d3, d6, M.ite, pure, Except.pure]
  have c1 := copy_zeros t1 (h + 2) (O - (2 * h + 1)) (h - 1) (fun a ha => by rw [ht _ (by omega), if_neg (by omega)]) (fun a ha => by rw [ht _ (by omega), if_neg (by omega)])
  have c2 := clear_zeros t1 (h + 2) (h - 1) (fun a ha => by rw [ht _ (by omega), if_neg (by omega)])
  simp only [bind, Except.bind] at c1 c2
  simp only [Bool.false_eq_true, if_false]
  rw [c1]
  simp only
  rw [c2]
  simp only
  have f := finish T hT O (2 * h + 1) (by omega) hpo t1 (List.replicate O 0) hl (by simp)
  simp only [bind, Except.bind, pure, Except.pure] at f
  rw [f]
  refine ⟨t1, ?_⟩
  congr 2
  apply List.map_congr_left
  intro m _
  have : Spec.dft 1 O (fun n => t1.getD n 0) m = ((2 * h + 1 : ℕ) : ℂ) * Spec.unit 1 O ((h + 1) * m) := by
    unfold Spec.dft
    rw [Finset.sum_eq_single (h + 1)]
    · beta_reduce; rw [List.getD_eq_getElem?_getD, ht _ (by omega), if_pos rfl]; rfl
    · intro n hn hne
      beta_reduce; rw [List.getD_eq_getElem?_getD, ht n (Finset.mem_range.mp hn), if_neg hne]
      simp
    · intro hc
      exact absurd (Finset.mem_range.mpr (by omega)) hc
  rw [this, ← mul_assoc]
  have hne : ((2 * h + 1 : ℕ) : ℂ) ≠ 0 := by exact_mod_cast (by omega : 2 * h + 1 ≠ 0)
  rw [show ((1 / ((2 * h + 1 : ℕ) : ℝ) : ℝ) : ℂ) = 1 / ((2 * h + 1 : ℕ) : ℂ) by push_cast; rfl, one_div_mul_cancel hne, one_mul]

/-- What it should be. -/
theorem odd_interp (h : ℕ) (t : ℝ) (hh : 0 < h) : Spec.interp (2 * h + 1) (fun n => (line (2 * h + 1) (h + 1)).getD n 0) t = Complex.exp (-(2 * Real.pi * I * (h : ℕ) * t)) := by
  unfold Spec.interp
  rw [if_neg (by omega), add_zero, show (2 * h + 1 - 1) / 2 = h by omega, line_dft _ _ 0 (by omega), if_neg (by omega), zero_add]
  rw [Finset.sum_eq_single (h - 1)]
  · rw [line_dft _ _ _ (by omega), line_dft _ _ _ (by omega), if_neg (by omega), if_pos (by omega), zero_mul, zero_add, show h - 1 + 1 = h by omega]
    have hne : ((2 * h + 1 : ℕ) : ℂ) ≠ 0 := by exact_mod_cast (by omega : 2 * h + 1 ≠ 0)
    rw [← mul_assoc, one_div_mul_cancel hne, one_mul]
  · intro k hk hne
    have := Finset.mem_range.mp hk
    rw [line_dft _ _ _ (by omega), line_dft _ _ _ (by omega), if_neg (by omega), if_neg (by omega)]
    simp
  · intro hc
    exact absurd (Finset.mem_range.mpr (by omega)) hc

/-- A single sample. -/
theorem one_ok (T : Trig ℝ) (hT : T.Exact) (O : ℕ) (hO : 1 < O) (hpo : ∀ p, p.Prime → p ∣ O → p ≤ 31) (tmp : List ℂ) (x : List ℂ) (hx : x.length = 1) (hl : tmp.length = O)
    (hz : ∀ j, 1 ≤ j → j < O → tmp[j]? = some 0) :
    ∃ tmp', FDZP.step T O 1 tmp x = .ok (tmp', (List.range O).map fun (m : ℕ) => Spec.interp 1 (fun n => x.getD n 0) ((m : ℝ) / (O : ℝ))) ∧ tmp'.length = O ∧
      ∀ j, 1 ≤ j → j < O → tmp'[j]? = some 0 := by
  unfold FDZP.step FDZP.call
  rw [C31_dft T hT (-1) (Or.inr rfl) 1 (by norm_num) (smooth_of_le 1 (by norm_num) (by norm_num)) _ _ (by omega) (by omega)]
  generalize hX : Spec.dft (-1) 1 (fun n => x.getD n 0) = X
  generalize ht1 : (List.range 1).map X ++ tmp.drop 1 = t1
  have h0 : t1[0]? = some (X 0) := by rw [← ht1]; rfl
  have hl1 : t1.length = O := by rw [← ht1]; simp [hl]; omega
  have hz1 : ∀ j, 1 ≤ j → j < O → t1[j]? = some 0 := by
    intro j h1 h2
    rw [← ht1, List.getElem?_append_right (by simpa using h1), List.getElem?_drop, ← hz j h1 h2]
    congr 1
    simp
    omega
  have d3 : 1 - ((1 + 1) / 2 + 1) = 0 := by norm_num
  have d6 : (1 % 2 == 0) = false := rfl
  simp only [bind, Except.bind, d3, d6, M.ite, pure, Except.pure, Bool.false_eq_true, if_false, List.range_zero, List.foldlM_nil]
  have f := finish T hT O 1 (by omega) hpo t1 (List.replicate O 0) hl1 (by simp)
  simp only [bind, Except.bind, pure, Except.pure] at f
  rw [f]
  refine ⟨t1, ?_, hl1, hz1⟩
  congr 2
  apply List.map_congr_left
  intro m _
  unfold Spec.interp
  rw [hX]
  have : Spec.dft 1 O (fun n => t1.getD n 0) m = X 0 := by
    unfold Spec.dft
    rw [Finset.sum_eq_single 0]
    · beta_reduce; rw [List.getD_eq_getElem?_getD, h0, Nat.zero_mul, Spec.unit_zero, mul_one]; rfl
    · intro n hn hne
      beta_reduce; rw [List.getD_eq_getElem?_getD, hz1 n (by omega) (Finset.mem_range.mp hn)]
      simp
    · intro hc
      exact absurd (Finset.mem_range.mpr (by omega)) hc
  rw [this]
  norm_num

/-- **C73** For which sizes the class keeps its promise, for all inputs and call sequences: a single sample, or an even number of them with at least half as many outputs again; never
otherwise. -/
theorem C73_sizes (T : Trig ℝ) (hT : T.Exact) (OUTPUT INPUT : ℕ) (h0 : 0 < INPUT) (hlt : INPUT < OUTPUT) (hpi : ∀ p, p.Prime → p ∣ INPUT → p ≤ 31) (hpo : ∀ p, p.Prime → p ∣ OUTPUT → p ≤ 31) :
    (∀ inputs : List (List ℂ), (∀ x ∈ inputs, x.length = INPUT) → ∃ s, run (FDZP.step T OUTPUT INPUT) (FDZP.init OUTPUT) inputs =
      .ok (s, inputs.map fun x => (List.range OUTPUT).map fun (m : ℕ) => Spec.interp INPUT (fun n => x.getD n 0) ((m : ℝ) / (OUTPUT : ℝ)))) ↔
    INPUT = 1 ∨ (INPUT % 2 = 0 ∧ 3 * INPUT ≤ 2 * OUTPUT) := by
  constructor
  · intro H
    by_contra hc
    have key : ∀ b, ∃ s ys, FDZP.step T OUTPUT INPUT (FDZP.init OUTPUT) (line INPUT b) = .ok (s, ys) ∧
        ∀ m < OUTPUT, ys[m]? = some (Spec.interp INPUT (fun n => (line INPUT b).getD n 0) ((m : ℝ) / (OUTPUT : ℝ))) := by
      intro b
      obtain ⟨s, e⟩ := H [line INPUT b] (by simp [line])
      unfold run at e
      split at e
      · simp at e
      · next s1 o h1 =>
        simp only [run, Except.ok.injEq, Prod.mk.injEq, List.map_cons, List.map_nil, List.cons.injEq, and_true] at e
        refine ⟨_, _, h1, ?_⟩
        intro m hm
        rw [e.2, List.getElem?_map, List.getElem?_range hm]
        rfl
    by_cases hev : INPUT % 2 = 0
    · obtain ⟨H', rfl⟩ : ∃ H', INPUT = 2 * H' := ⟨INPUT / 2, by omega⟩
      obtain ⟨g, rfl⟩ : ∃ g, OUTPUT = 2 * H' + g := ⟨OUTPUT - 2 * H', by omega⟩
      obtain ⟨s, ys, e, h⟩ := key (H' + g)
      obtain ⟨tmp, e'⟩ := overlap_zero T hT H' g (by omega) (by omega) hpi hpo
      rw [e'] at e
      simp only [Except.ok.injEq, Prod.mk.injEq] at e
      have h1 := h 0 (by omega)
      rw [← e.2, List.getElem?_replicate, if_pos (by omega)] at h1
      have h2 := interp_sample (2 * H') h0 (fun n => (line (2 * H') (H' + g)).getD n 0) 0 h0
      rw [show (((0 : ℕ) : ℝ) / ((2 * H' : ℕ) : ℝ)) = 0 by simp] at h2
      rw [show (((0 : ℕ) : ℝ) / ((2 * H' + g : ℕ) : ℝ)) = 0 by simp, h2, line_get _ _ 0 h0] at h1
      simp only [Option.some.injEq] at h1
      unfold Spec.dft at h1
      rw [Finset.sum_eq_single (H' + g)] at h1
      · beta_reduce at h1
        rw [if_pos rfl, Nat.mul_zero, Spec.unit_zero] at h1
        norm_num at h1
      · intro n _ hne
        beta_reduce
        rw [if_neg hne, zero_mul]
      · intro hc'
        exact absurd (Finset.mem_range.mpr (by omega)) hc'
    · obtain ⟨h', rfl⟩ : ∃ h', INPUT = 2 * h' + 1 := ⟨INPUT / 2, by omega⟩
      have hh : 0 < h' := by omega
      obtain ⟨s, ys, e, h⟩ := key (h' + 1)
      obtain ⟨tmp, e'⟩ := odd_wrong T hT h' OUTPUT hh hlt hpi hpo
      rw [e'] at e
      simp only [Except.ok.injEq, Prod.mk.injEq] at e
      have h1 := h 1 (by omega)
      rw [← e.2, List.getElem?_map, List.getElem?_range (by omega), odd_interp h' _ hh, exp_eq_unit_neg] at h1
      simp only [Option.map_some, Option.some.injEq, Nat.mul_one] at h1
      have h2 : Spec.unit 1 OUTPUT (2 * h' + 1) = 1 := by
        rw [show 2 * h' + 1 = (h' + 1) + h' by ring, Spec.unit_add, h1, mul_comm]
        exact Spec.unit_mul_neg 1 OUTPUT h'
      unfold Spec.unit at h2
      rw [Complex.exp_eq_one_iff] at h2
      obtain ⟨k, hk⟩ := h2
      have hO : (OUTPUT : ℂ) ≠ 0 := by exact_mod_cast (by omega : OUTPUT ≠ 0)
      have hpi' : (2 * Real.pi * I : ℂ) ≠ 0 := by simp [Real.pi_ne_zero]
      have h3 : ((2 * h' + 1 : ℕ) : ℂ) = k * OUTPUT := by
        have : (2 * Real.pi * I : ℂ) * ((2 * h' + 1 : ℕ) : ℂ) = (2 * Real.pi * I) * (k * OUTPUT) := by
          have h4 := congrArg (· * (OUTPUT : ℂ)) hk
          simp only [Int.cast_one, one_mul] at h4
          rw [div_mul_cancel₀ _ hO] at h4
          rw [h4]; ring
        exact mul_left_cancel₀ hpi' this
      have h5 : ((2 * h' + 1 : ℕ) : ℤ) = k * OUTPUT := by exact_mod_cast h3
      have hk0 : 0 < k := by
        by_contra hneg
        have : k * (OUTPUT : ℤ) ≤ 0 := mul_nonpos_of_nonpos_of_nonneg (by omega) (by omega)
        omega
      have : (OUTPUT : ℤ) ≤ k * OUTPUT := by nlinarith
      omega
  · rintro (rfl | ⟨hev, h32⟩) inputs hx
    · have hz : ∀ j, 1 ≤ j → j < OUTPUT → (FDZP.init OUTPUT)[j]? = some 0 := by
        intro j _ h2
        unfold FDZP.init
        rw [List.getElem?_replicate, if_pos h2]
      have hl : (FDZP.init OUTPUT).length = OUTPUT := by simp [FDZP.init]
      generalize FDZP.init OUTPUT = tmp at hz hl
      induction inputs generalizing tmp with
      | nil => exact ⟨tmp, rfl⟩
      | cons x xs ih =>
        obtain ⟨tmp', e, hl', hz'⟩ := one_ok T hT OUTPUT hlt hpo tmp x (hx x (by simp)) hl hz
        obtain ⟨s, es⟩ := ih (fun y hy => hx y (by simp [hy])) tmp' hz' hl'
        refine ⟨s, ?_⟩
        unfold run
        rw [e]
        simp only
        rw [es]
        rfl
    · exact C35_interpolates_partial T hT OUTPUT INPUT h0 hev hlt h32 hpi hpo inputs hx

/-- Eight to twelve samples are fine, eight to ten are not, and neither are nine to eighteen. -/
example : (8 = 1 ∨ (8 % 2 = 0 ∧ 3 * 8 ≤ 2 * 12)) ∧ ¬(8 = 1 ∨ (8 % 2 = 0 ∧ 3 * 8 ≤ 2 * 10)) ∧ ¬(9 = 1 ∨ (9 % 2 = 0 ∧ 3 * 9 ≤ 2 * 18)) ∧ Trig.real.Exact ∧
    (∀ p, p.Prime → p ∣ 18 → p ≤ 31) := ⟨by norm_num, by norm_num, by norm_num, Trig.real_exact, smooth_of_le 18 (by norm_num) (by norm_num)⟩

end FDZP
end DSP
