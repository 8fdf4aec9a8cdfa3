import Verif.Lemmas.IeeeRound
import Verif.Lemmas.SMA
import Verif.Props.Silence
import Verif.Props.Memory
import Verif.Props.KahanError
import Verif.Props.SMADrift

/-!
# Finite results are those of arithmetic with unbounded exponents (C99)

The rounding errors are bounded in an arithmetic without overflow and underflow. Here: every finite output of the filters in IEEE arithmetic is exactly the output of the same filter in that arithmetic. For those that
only add and subtract there is no condition, the others need their products to be zero or not below the normal numbers.
-/

namespace DSP
namespace Bridge

open Ieee Spec Silence

variable {F : Format} [NeZero F.p]

/-- The same number in both arithmetics. -/
def Same (a : Ieee F) (b : Binary F.p) : Prop := a.Finite ∧ a.Valid ∧ a.val = b.val

/-- The same number, unless the first one is infinite or NaN. -/
def Agree (a : Ieee F) (b : Binary F.p) : Prop := a.Finite → Same a b

/-- Zero or a normal number. -/
def Clear (F : Format) (x : ℚ) : Prop := x = 0 ∨ (2 : ℚ) ^ (F.emin + F.p - 1) ≤ |x|

omit [NeZero F.p] in
theorem clear_round {x : ℚ} (h : Clear F x) : roundTo F x = Binary.round F.p x := by
  rcases h with rfl | h
  · rw [roundTo_zero]
    simp [Binary.round, Binary.nearest]
  · exact roundTo_normal x h

omit [NeZero F.p] in
theorem Same.agree {a : Ieee F} {b : Binary F.p} (h : Same a b) : Agree a b := fun _ => h

theorem agree_zero : Same (0 : Ieee F) (0 : Binary F.p) :=
  ⟨trivial, valid_of_fits _ _ le_rfl (by positivity) ⟨⟨0, 0, by simp, by simp⟩, 0, by simp⟩, signed_zero false⟩

theorem Agree.add {a b : Ieee F} {a' b' : Binary F.p} (ha : Agree a a') (hb : Agree b b') : Agree (a + b) (a' + b') := by
  intro h
  have hp : 0 < F.p := Nat.pos_of_ne_zero (NeZero.ne _)
  have fa : a.Finite := by by_contra c; exact add_bad_left a b c h
  have fb : b.Finite := by by_contra c; exact add_bad_right a b c h
  obtain ⟨-, va, ea⟩ := ha fa
  obtain ⟨-, vb, eb⟩ := hb fb
  refine ⟨h, add_valid hp _ _, ?_⟩
  rw [add_val' hp a b fa fb va vb h, ea, eb]
  rfl

omit [NeZero F.p] in
theorem Agree.neg {a : Ieee F} {a' : Binary F.p} (ha : Agree a a') : Agree (-a) (-a') := by
  intro h
  have fa : a.Finite := by by_contra c; exact neg_bad a c h
  obtain ⟨-, va, ea⟩ := ha fa
  refine ⟨h, neg_valid a va, ?_⟩
  rw [neg_val, ea]
  rfl

theorem Agree.sub {a b : Ieee F} {a' b' : Binary F.p} (ha : Agree a a') (hb : Agree b b') : Agree (a - b) (a' - b') := by
  have := ha.add hb.neg
  have e : (a' - b') = a' + -b' := by
    have : (a' - b').val = (a' + -b').val := by
      show Binary.round F.p (a'.val - b'.val) = Binary.round F.p (a'.val + -b'.val)
      rw [sub_eq_add_neg]
    cases h : a' - b'; cases h' : a' + -b'
    simp only [h, h'] at this
    subst this
    rfl
  rw [e]
  exact this

theorem Agree.mul {a b : Ieee F} {a' b' : Binary F.p} (ha : Agree a a') (hb : Agree b b') (hc : Clear F (a'.val * b'.val)) : Agree (a * b) (a' * b') := by
  intro h
  have hp : 0 < F.p := Nat.pos_of_ne_zero (NeZero.ne _)
  have fa : a.Finite := by by_contra c; exact mul_bad_left a b c h
  have fb : b.Finite := by by_contra c; exact mul_bad_right a b c h
  obtain ⟨-, va, ea⟩ := ha fa
  obtain ⟨-, vb, eb⟩ := hb fb
  refine ⟨h, mul_valid hp _ _, ?_⟩
  rw [mul_val hp a b fa fb va vb h, ea, eb, clear_round hc]
  rfl

theorem Agree.div {a b : Ieee F} {a' b' : Binary F.p} (ha : Agree a a') (hb : Same b b') (h0 : b'.val ≠ 0) (hc : Clear F (a'.val / b'.val)) : Agree (a / b) (a' / b') := by
  intro h
  have hp : 0 < F.p := Nat.pos_of_ne_zero (NeZero.ne _)
  have fa : a.Finite := by by_contra c; exact div_bad a b c h
  obtain ⟨-, va, ea⟩ := ha fa
  obtain ⟨fb, vb, eb⟩ := hb
  refine ⟨h, div_valid hp _ _, ?_⟩
  rw [div_val hp a b fa fb va vb h (by rw [eb]; exact h0), ea, eb, clear_round hc]
  rfl

theorem same_cast (u : Usual F) (n : ℤ) (hn : |n| < 2 ^ F.p) : Same ((n : ℤ) : Ieee F) ((n : ℤ) : Binary F.p) := by
  have hp : 0 < F.p := Nat.pos_of_ne_zero (NeZero.ne _)
  obtain ⟨h1, h2, h3⟩ := cast_exact hp (by have := u.emin; omega) u.emax n hn
  refine ⟨h1, h2, ?_⟩
  rw [h3]
  exact (Binary.round_of_representable F.p n ⟨n, 0, hn, by simp⟩).symm

theorem same_one (u : Usual F) : Same (1 : Ieee F) (1 : Binary F.p) := same_cast u 1 (by have := u.sixteen; rw [abs_one]; omega)

/-- Two machines side by side. -/
theorem stream_rel {σ σ' ι ι' ω ω' : Type} (step : σ → ι → σ × ω) (step' : σ' → ι' → σ' × ω') (s : σ) (s' : σ') (x : ℕ → ι) (x' : ℕ → ι') (R : σ → σ' → Prop) (O : ω → ω' → Prop) (h0 : R s s')
    (h : ∀ n, R (states step s x n) (states step' s' x' n) → R (step (states step s x n) (x n)).1 (step' (states step' s' x' n) (x' n)).1 ∧ O (step (states step s x n) (x n)).2 (step' (states step' s' x' n) (x' n)).2) (n : ℕ) :
    O (stream step s x n) (stream step' s' x' n) := by
  have key : ∀ n, R (states step s x n) (states step' s' x' n) := by
    intro n
    induction n with
    | zero => exact h0
    | succ n ih => exact (h n ih).1
  exact (h n (key n)).2

/-- **C99** The integrator. -/
theorem C99_integrator (s : Ieee F) (s' : Binary F.p) (hs : Same s s') (x : ℕ → Ieee F) (x' : ℕ → Binary F.p) (hx : ∀ n, Same (x n) (x' n)) (n : ℕ) :
    Agree (stream integrator s x n) (stream integrator s' x' n) :=
  stream_rel integrator integrator s s' x x' Agree Agree hs.agree (fun n h => ⟨h.add (hx n).agree, h.add (hx n).agree⟩) n

/-- **C99** The differentiator. -/
theorem C99_differentiator (s : Ieee F) (s' : Binary F.p) (hs : Same s s') (x : ℕ → Ieee F) (x' : ℕ → Binary F.p) (hx : ∀ n, Same (x n) (x' n)) (n : ℕ) :
    Agree (stream differentiator s x n) (stream differentiator s' x' n) :=
  stream_rel differentiator differentiator s s' x x' Agree Agree hs.agree (fun n h => ⟨(hx n).agree, (hx n).agree.sub h⟩) n

/-- Both parts of the compensated sum. -/
def AgreeK (k : Kahan (Ieee F)) (k' : Kahan (Binary F.p)) : Prop := Agree k.high k'.high ∧ Agree k.low k'.low

theorem kahan_call {k : Kahan (Ieee F)} {k' : Kahan (Binary F.p)} (h : AgreeK k k') {x : Ieee F} {x' : Binary F.p} (hx : Agree x x') : AgreeK (k.call x).1 (k'.call x').1 ∧ Agree (k.call x).2 (k'.call x').2 := by
  have h1 := hx.sub h.2
  have h2 := h.1.add h1
  exact ⟨⟨h2, (h2.sub h.1).sub h1⟩, h2⟩

/-- **C99** The compensated sum, whatever is added to it. -/
theorem C99_kahan (k : Kahan (Ieee F)) (k' : Kahan (Binary F.p)) (h1 : Same k.high k'.high) (h2 : Same k.low k'.low) (x : ℕ → Ieee F) (x' : ℕ → Binary F.p) (hx : ∀ n, Same (x n) (x' n)) (n : ℕ) :
    Agree (stream Kahan.call k x n) (stream Kahan.call k' x' n) :=
  stream_rel Kahan.call Kahan.call k k' x x' AgreeK Agree ⟨h1.agree, h2.agree⟩ (fun n h => kahan_call h (hx n).agree) n

theorem feed_agree (xs : List (Ieee F)) (xs' : List (Binary F.p)) (h : List.Forall₂ Same xs xs') (k : Kahan (Ieee F)) (k' : Kahan (Binary F.p)) (hk : AgreeK k k') : AgreeK (k.feed xs) (k'.feed xs') := by
  induction h generalizing k k' with
  | nil => exact hk
  | cons h _ ih => exact ih _ _ (kahan_call hk h.agree).1

/-- A finite number of the format in the other arithmetic. -/
def lift (a : Ieee F) (h : a.Valid) : Binary F.p := ⟨a.val, (valid_fits h).1⟩

theorem exists_same (xs : List (Ieee F)) (h : ∀ x ∈ xs, x.Finite ∧ x.Valid) : ∃ xs' : List (Binary F.p), List.Forall₂ Same xs xs' ∧ xs'.length = xs.length ∧ xs'.map Binary.val = xs.map Ieee.val := by
  induction xs with
  | nil => exact ⟨[], .nil, rfl, rfl⟩
  | cons x xs ih =>
    obtain ⟨xs', h1, h2, h3⟩ := ih fun y hy => h y (by simp [hy])
    obtain ⟨hf, hv⟩ := h x (by simp)
    exact ⟨lift x hv :: xs', .cons ⟨hf, hv, rfl⟩ h1, by simp [h2], by simp [h3, lift]⟩

/-- **C99** The error of the compensated sum in IEEE arithmetic: if the result is finite then it is as near to the sum as it is without limits of the exponent. -/
theorem C99_kahan_error (hp : 6 ≤ F.p) (x0 : Ieee F) (xs : List (Ieee F)) (h0 : x0.Finite ∧ x0.Valid) (hx : ∀ x ∈ xs, x.Finite ∧ x.Valid) (hn : 352 * (xs.length : ℝ) * (1 / 2 ^ F.p) ^ 2 ≤ 1)
    (hf : (Kahan.sum xs x0).Finite) :
    |((Kahan.sum xs x0).val : ℝ) - (x0.val + (xs.map fun x => (x.val : ℝ)).sum)| ≤ (3 * (1 / 2 ^ F.p) + 12 * xs.length * (1 / 2 ^ F.p) ^ 2) * (|(x0.val : ℝ)| + (xs.map fun x => |(x.val : ℝ)|).sum) := by
  obtain ⟨xs', h1, h2, h3⟩ := exists_same xs hx
  have h4 := Kahan.C15_binary F.p hp (lift x0 h0.2) xs' (by rw [h2]; exact hn)
  have h5 : Agree (Kahan.sum xs x0) (Kahan.sum xs' (lift x0 h0.2)) := (feed_agree xs xs' h1 (Kahan.init x0) (Kahan.init (lift x0 h0.2)) ⟨Same.agree ⟨h0.1, h0.2, rfl⟩, agree_zero.agree⟩).1
  have e1 : (xs'.map fun x => (x.val : ℝ)) = xs.map fun x => (x.val : ℝ) := by
    have := congrArg (List.map fun q : ℚ => (q : ℝ)) h3
    simpa only [List.map_map, Function.comp_def] using this
  have e2 : (xs'.map fun x => |(x.val : ℝ)|) = xs.map fun x => |(x.val : ℝ)| := by
    have := congrArg (List.map fun q : ℚ => |(q : ℝ)|) h3
    simpa only [List.map_map, Function.comp_def] using this
  rw [e1, e2, h2, ← (h5 hf).2.2] at h4
  exact h4

/-! ### Moving averages -/

/-- Two machines side by side on lists of inputs. -/
theorem trace_rel {σ σ' ι ι' ω ω' : Type} (step : σ → ι → M (σ × ω)) (step' : σ' → ι' → M (σ' × ω')) (R : σ → σ' → Prop) (I : ι → ι' → Prop) (O : ω → ω' → Prop)
    (h : ∀ s s' i i', R s s' → I i i' → ∃ t o t' o', step s i = .ok (t, o) ∧ step' s' i' = .ok (t', o') ∧ R t t' ∧ O o o') (xs : List ι) (xs' : List ι') (hx : List.Forall₂ I xs xs') :
    ∀ s s', R s s' → ∃ ys ys', trace step s xs = (ys, none) ∧ trace step' s' xs' = (ys', none) ∧ List.Forall₂ O ys ys' := by
  induction hx with
  | nil => exact fun s s' _ => ⟨[], [], rfl, rfl, .nil⟩
  | cons hi _ ih =>
    intro s s' hs
    obtain ⟨t, o, t', o', e, e', ht, ho⟩ := h s s' _ _ hs hi
    obtain ⟨ys, ys', f, f', hy⟩ := ih t t' ht
    exact ⟨o :: ys, o' :: ys', by simp only [trace, e, f], by simp only [trace, e', f'], .cons ho hy⟩

/-- The outputs are the same function of sums that agree: the sums themselves or the sums divided by `NUM`. -/
def Outputs (div : Ieee F → Ieee F) (div' : Binary F.p → Binary F.p) (y : Ieee F) (y' : Binary F.p) : Prop := ∃ t t', Agree t t' ∧ y = div t ∧ y' = div' t'

theorem delay_rel {NUM : ℕ} (hN : 0 < NUM) {d : Delay (Ieee F)} {d' : Delay (Binary F.p)} {w : List (Ieee F)} {w' : List (Binary F.p)} (h : Delay.Rep NUM d w) (h' : Delay.Rep NUM d' w') (hw : List.Forall₂ Same w w')
    {x : Ieee F} {x' : Binary F.p} (hx : Same x x') :
    ∃ e y e' y' v v', d.call x = .ok (e, y) ∧ d'.call x' = .ok (e', y') ∧ Same y y' ∧ Delay.Rep NUM e v ∧ Delay.Rep NUM e' v' ∧ List.Forall₂ Same v v' := by
  cases hw with
  | nil => have := h.wlen; simp at this; omega
  | cons hy hw =>
    obtain ⟨e, e1, e2⟩ := h.call x
    obtain ⟨e', e1', e2'⟩ := h'.call x'
    exact ⟨e, _, e', _, _, _, e1, e1', hy, e2, e2', List.rel_append hw (.cons hx .nil)⟩

theorem zeros (NUM : ℕ) : List.Forall₂ Same (List.replicate NUM (0 : Ieee F)) (List.replicate NUM (0 : Binary F.p)) := by
  induction NUM with
  | zero => exact .nil
  | succ n ih => exact .cons agree_zero ih

/-- **C99** The moving average with a running sum. -/
theorem C99_sma2 (NUM : ℕ) (hN : 0 < NUM) (norm : Bool) (div : Ieee F → Ieee F) (div' : Binary F.p → Binary F.p) (xs : List (Ieee F)) (xs' : List (Binary F.p)) (hx : List.Forall₂ Same xs xs') :
    ∃ ys ys', trace (SMA2.call (fun a b => .ok (a + b)) (fun a b => .ok (a - b)) norm div) (SMA2.init NUM) xs = (ys, none) ∧
      trace (SMA2.call (fun a b => .ok (a + b)) (fun a b => .ok (a - b)) norm div') (SMA2.init NUM) xs' = (ys', none) ∧ List.Forall₂ (Outputs (if norm then div else id) (if norm then div' else id)) ys ys' := by
  refine trace_rel _ _ (fun s s' => (∃ w w', Delay.Rep NUM s.delay w ∧ Delay.Rep NUM s'.delay w' ∧ List.Forall₂ Same w w') ∧ Agree s.sum s'.sum) Same _ ?_ xs xs' hx _ _
    ⟨⟨_, _, Delay.Rep.init hN 0, Delay.Rep.init hN 0, zeros NUM⟩, agree_zero.agree⟩
  rintro s s' x x' ⟨⟨w, w', h, h', hw⟩, hs⟩ hx
  obtain ⟨e, y, e', y', v, v', e1, e1', hy, hv, hv', hvv⟩ := delay_rel hN h h' hw hx
  have ht : Agree (s.sum + (x - y)) (s'.sum + (x' - y')) := hs.add (hx.agree.sub hy.agree)
  refine ⟨_, _, _, _, by simp only [SMA2.call, e1, bind, Except.bind, pure, Except.pure]; rfl, by simp only [SMA2.call, e1', bind, Except.bind, pure, Except.pure]; rfl, ⟨⟨v, v', hv, hv', hvv⟩, ht⟩, _, _, ht, ?_, ?_⟩ <;>
    cases norm <;> rfl

/-- **C99** The moving average with a compensated running sum. -/
theorem C99_sma3 (NUM : ℕ) (hN : 0 < NUM) (norm : Bool) (div : Ieee F → Ieee F) (div' : Binary F.p → Binary F.p) (xs : List (Ieee F)) (xs' : List (Binary F.p)) (hx : List.Forall₂ Same xs xs') :
    ∃ ys ys', trace (SMA3.call norm div) (SMA3.init NUM) xs = (ys, none) ∧ trace (SMA3.call norm div') (SMA3.init NUM) xs' = (ys', none) ∧
      List.Forall₂ (Outputs (if norm then div else id) (if norm then div' else id)) ys ys' := by
  refine trace_rel _ _ (fun s s' => (∃ w w', Delay.Rep NUM s.delay w ∧ Delay.Rep NUM s'.delay w' ∧ List.Forall₂ Same w w') ∧ AgreeK s.sum s'.sum) Same _ ?_ xs xs' hx _ _
    ⟨⟨_, _, Delay.Rep.init hN 0, Delay.Rep.init hN 0, zeros NUM⟩, agree_zero.agree, agree_zero.agree⟩
  rintro s s' x x' ⟨⟨w, w', h, h', hw⟩, hs⟩ hx
  obtain ⟨e, y, e', y', v, v', e1, e1', hy, hv, hv', hvv⟩ := delay_rel hN h h' hw hx
  have ht := kahan_call (kahan_call hs hy.agree.neg).1 hx.agree
  refine ⟨_, _, _, _, by simp only [SMA3.call, e1, bind, Except.bind, pure, Except.pure]; rfl, by simp only [SMA3.call, e1', bind, Except.bind, pure, Except.pure]; rfl, ⟨⟨v, v', hv, hv', hvv⟩, ht.1⟩, _, _, ht.2, ?_, ?_⟩ <;>
    cases norm <;> rfl

theorem ring_rel (NUM n : ℕ) (h : List (Ieee F)) (h' : List (Binary F.p)) (hh : List.Forall₂ Same h h') : List.Forall₂ Same (ringOf NUM n (window NUM 0 h)) (ringOf NUM n (window NUM 0 h')) := by
  have hl := hh.length_eq
  have hw : List.Forall₂ Same (window NUM 0 h) (window NUM 0 h') := by
    unfold window lastN
    rw [List.length_append, List.length_append, List.length_replicate, List.length_replicate, hl]
    exact List.forall₂_drop _ (List.rel_append (zeros NUM) hh)
  unfold ringOf
  rw [List.rotate_eq_drop_append_take_mod, List.rotate_eq_drop_append_take_mod, hw.length_eq]
  exact List.rel_append (List.forall₂_drop _ hw) (List.forall₂_take _ hw)

theorem fold_rel (l : List (Ieee F)) (l' : List (Binary F.p)) (h : List.Forall₂ Same l l') (a : Ieee F) (a' : Binary F.p) (ha : Agree a a') : Agree (l.foldl (· + ·) a) (l'.foldl (· + ·) a') := by
  induction h generalizing a a' with
  | nil => exact ha
  | cons h _ ih => exact ih _ _ (ha.add h.agree)

/-- **C99** The moving average that sums its window anew. -/
theorem C99_sma1 (NUM : ℕ) (hN : 0 < NUM) (div : Ieee F → Ieee F) (div' : Binary F.p → Binary F.p) (xs : List (Ieee F)) (xs' : List (Binary F.p)) (hx : List.Forall₂ Same xs xs') :
    ∃ ys ys', trace (SMA1.call div) (SMA1.init NUM) xs = (ys, none) ∧ trace (SMA1.call div') (SMA1.init NUM) xs' = (ys', none) ∧ List.Forall₂ (Outputs div div') ys ys' := by
  refine trace_rel _ _ (fun s s' => ∃ h h', SMA1.After NUM s h ∧ SMA1.After NUM s' h' ∧ List.Forall₂ Same h h') Same _ ?_ xs xs' hx _ _ ⟨[], [], SMA1.after_init NUM hN, SMA1.after_init NUM hN, .nil⟩
  rintro s s' x x' ⟨h, h', ha, ha', hh⟩ hx
  obtain ⟨t, e, ht⟩ := SMA1.after_call div NUM hN s h x ha
  obtain ⟨t', e', ht'⟩ := SMA1.after_call div' NUM hN s' h' x' ha'
  have hh' := List.rel_append hh (List.Forall₂.cons hx .nil)
  refine ⟨_, _, _, _, e, e', ⟨_, _, ht, ht', hh'⟩, _, _, ?_, rfl, rfl⟩
  have hr := ring_rel NUM (h ++ [x]).length _ _ hh'
  rw [← hh'.length_eq]
  generalize ringOf NUM (h ++ [x]).length (window NUM 0 (h ++ [x])) = l at *
  generalize ringOf NUM (h ++ [x]).length (window NUM 0 (h' ++ [x'])) = l' at *
  cases hr with
  | nil => exact agree_zero.agree
  | cons h1 h2 => exact fold_rel _ _ h2 _ _ h1.agree

theorem tree_rel (NUM : ℕ) (f : ℕ → Ieee F) (f' : ℕ → Binary F.p) (h : ∀ i, NUM ≤ i → i < 2 * NUM → Agree (f i) (f' i)) (i : ℕ) (h1 : 1 ≤ i) (h2 : i < 2 * NUM) : Agree (SWA.eval (· + ·) NUM f i) (SWA.eval (· + ·) NUM f' i) := by
  by_cases hn : i < NUM
  · rw [SWA.eval_node _ _ _ _ h1 hn, SWA.eval_node _ _ _ _ h1 hn]
    exact (tree_rel NUM f f' h (2 * i) (by omega) (by omega)).add (tree_rel NUM f f' h (2 * i + 1) (by omega) (by omega))
  · rw [SWA.eval_leaf _ _ _ _ (by omega), SWA.eval_leaf _ _ _ _ (by omega)]
    exact h i (by omega) h2
termination_by 2 * NUM - i

/-- **C99** The moving average with a tree of sums. -/
theorem C99_sma4 (NUM : ℕ) (hN : 0 < NUM) (norm norm' : Bool) (div : Ieee F → Ieee F) (div' : Binary F.p → Binary F.p) (xs : List (Ieee F)) (xs' : List (Binary F.p)) (hx : List.Forall₂ Same xs xs') :
    ∃ ys ys', trace (SMA4.call norm div) (SMA4.init NUM) xs = (ys, none) ∧ trace (SMA4.call norm' div') (SMA4.init NUM) xs' = (ys', none) ∧
      List.Forall₂ (Outputs (if norm then div else id) (if norm' then div' else id)) ys ys' := by
  refine trace_rel _ _ (fun s s' => ∃ h h', SMA4.After NUM s h ∧ SMA4.After NUM s' h' ∧ List.Forall₂ Same h h') Same _ ?_ xs xs' hx _ _
    ⟨[], [], SMA4.after_init Ieee.zero_add_zero NUM hN, SMA4.after_init SMADrift.zero_add_zero NUM hN, .nil⟩
  rintro s s' x x' ⟨h, h', ha, ha', hh⟩ hx
  obtain ⟨t, e, ht⟩ := SMA4.after_call Ieee.add_comm norm div NUM hN s h x ha
  obtain ⟨t', e', ht'⟩ := SMA4.after_call SMADrift.add_comm' norm' div' NUM hN s' h' x' ha'
  have hh' := List.rel_append hh (List.Forall₂.cons hx .nil)
  refine ⟨_, _, _, _, e, e', ⟨_, _, ht, ht', hh'⟩, SMA4.sumTree NUM (ringOf NUM (h ++ [x]).length (window NUM 0 (h ++ [x]))), SMA4.sumTree NUM (ringOf NUM (h' ++ [x']).length (window NUM 0 (h' ++ [x']))), ?_,
    by cases norm <;> rfl, by cases norm' <;> rfl⟩
  have hr := ring_rel NUM (h ++ [x]).length _ _ hh'
  rw [← hh'.length_eq]
  have hlen : (ringOf NUM (h ++ [x]).length (window NUM 0 (h ++ [x]))).length = NUM := by rw [ringOf, List.length_rotate, window_length]
  refine tree_rel NUM _ _ (fun i h1 h2 => ?_) 1 le_rfl (by omega)
  show Agree (List.getD _ _ _) (List.getD _ _ _)
  have hi : i - NUM < (ringOf NUM (h ++ [x]).length (window NUM 0 (h ++ [x]))).length := by omega
  rw [List.getD_eq_getElem?_getD, List.getElem?_eq_getElem hi, List.getD_eq_getElem?_getD, List.getElem?_eq_getElem (by rw [← hr.length_eq]; exact hi)]
  exact (hr.get hi _).agree

omit [NeZero F.p] in
theorem windowSum_same (g : ℚ → ℝ) (NUM n : ℕ) (xs : List (Ieee F)) (xs' : List (Binary F.p)) (hl : xs'.length = xs.length) (h : xs'.map Binary.val = xs.map Ieee.val) :
    windowSum (fun x => g x.val) NUM xs' n = windowSum (fun x => g x.val) NUM xs n := by
  unfold windowSum lastN
  have : (xs'.map fun x => g x.val) = xs.map fun x => g x.val := by
    have := congrArg (List.map g) h
    simpa only [List.map_map, Function.comp_def] using this
  rw [List.map_drop, List.map_take, this, List.length_take, hl, List.map_drop, List.map_take, List.length_take]

/-- **C99** The error of the moving average with a tree of sums in IEEE arithmetic: where the output is finite it only depends on the inputs within the window and only grows with the logarithm of its length. -/
theorem C99_sma4_error (u : Usual F) (NUM : ℕ) (hN : 0 < NUM) (hn : NUM < 2 ^ F.p) (xs : List (Ieee F)) (hx : ∀ x ∈ xs, x.Finite ∧ x.Valid) :
    ∃ ys, trace (SMA4.call true fun s => s / ((NUM : ℤ) : Ieee F)) (SMA4.init NUM) xs = (ys, none) ∧ ys.length = xs.length ∧ ∀ n, n < xs.length → ∃ y, ys[n]? = some y ∧ (y.Finite →
      |(y.val : ℝ) - windowSum (fun x => (x.val : ℝ)) NUM xs n / NUM| ≤ ((1 + 1 / 2 ^ F.p) ^ (Nat.clog 2 NUM + 2) - 1) * (windowSum (fun x => |(x.val : ℝ)|) NUM xs n / NUM) + 2 ^ F.emin / 2) := by
  have hp : 0 < F.p := Nat.pos_of_ne_zero (NeZero.ne _)
  obtain ⟨xs', h1, h2, h3⟩ := exists_same xs hx
  obtain ⟨ys, ys', e, e', hy⟩ := C99_sma4 NUM hN true false (fun s => s / ((NUM : ℤ) : Ieee F)) (SMADrift.divNum F.p NUM) xs xs' h1
  obtain ⟨zs, f, hzl, hz⟩ := SMAError.C71_sma4 (binary_rounded F.p) (by positivity) SMADrift.add_comm' SMADrift.zero_add_zero NUM hN (SMADrift.divNum_rounded NUM hn) false xs'
  rw [e'] at f
  obtain rfl : ys' = zs := (Prod.mk.injEq _ _ _ _ ▸ f).1
  refine ⟨ys, e, by rw [hy.length_eq, hzl, h2], fun n hlt => ?_⟩
  obtain ⟨y', hy', hb⟩ := hz n (by omega)
  have hlt' : n < ys.length := by rw [hy.length_eq, hzl]; omega
  refine ⟨ys[n], List.getElem?_eq_getElem hlt', fun hf => ?_⟩
  rw [List.getElem?_eq_getElem (by omega)] at hy'
  obtain ⟨t, t', ht, e1, e2⟩ := hy.get hlt' (by omega)
  simp only [List.get_eq_getElem] at e1 e2
  rw [Option.some.inj hy'] at e2
  rw [e1] at hf ⊢
  have e2' : y' = t' := e2
  subst e2'
  have ft : t.Finite := by by_contra c; exact div_bad _ _ c hf
  obtain ⟨-, vt, et⟩ := ht ft
  obtain ⟨d1, d2, d3⟩ := cast_exact hp (by have := u.emin; omega) u.emax (NUM : ℤ) (by rw [abs_of_nonneg (by omega)]; exact_mod_cast hn)
  have hN' : (0 : ℝ) < NUM := by exact_mod_cast hN
  have hd : (t / ((NUM : ℤ) : Ieee F)).val = roundTo F (t.val / NUM) := by
    have := div_val hp t _ ft d1 vt d2 hf (by rw [d3]; exact_mod_cast hN.ne')
    rwa [d3, Int.cast_natCast] at this
  have hr : |(((t / ((NUM : ℤ) : Ieee F)).val : ℚ) : ℝ) - t.val / NUM| ≤ |(t.val : ℝ) / NUM| / 2 ^ F.p + 2 ^ F.emin / 2 := by
    have := roundTo_error (F := F) (t.val / NUM)
    have h' : |roundTo F (t.val / NUM) - t.val / NUM| ≤ |t.val / NUM| / 2 ^ F.p + 2 ^ F.emin / 2 := this.trans (max_le (by linarith [show (0 : ℚ) < 2 ^ F.emin / 2 by positivity]) (by
      have : 0 ≤ |t.val / NUM| / 2 ^ F.p := by positivity
      linarith))
    rw [hd]
    have := (Rat.cast_le (K := ℝ)).mpr h'
    push_cast at this
    exact this
  simp only [mean, Bool.false_eq_true, if_false] at hb
  rw [windowSum_same (fun q => (q : ℝ)) NUM n xs xs' h2 h3, windowSum_same (fun q => |(q : ℝ)|) NUM n xs xs' h2 h3, ← et] at hb
  have hS : |windowSum (fun x : Ieee F => (x.val : ℝ)) NUM xs n| ≤ windowSum (fun x : Ieee F => |(x.val : ℝ)|) NUM xs n := by
    unfold windowSum
    generalize lastN NUM (xs.take (n + 1)) = l
    induction l with
    | nil => simp
    | cons a l ih => simp only [List.map_cons, List.sum_cons]; exact (abs_add_le _ _).trans (by linarith)
  set S := windowSum (fun x : Ieee F => (x.val : ℝ)) NUM xs n
  set A := windowSum (fun x : Ieee F => |(x.val : ℝ)|) NUM xs n
  set v : ℝ := 1 / 2 ^ F.p with hv
  set B := (1 + v) ^ (Nat.clog 2 NUM + 1) with hB
  have hv0 : 0 ≤ v := by positivity
  have ht1 : |(t.val : ℝ)| ≤ B * A := by
    have := abs_sub_abs_le_abs_sub (t.val : ℝ) S
    linarith
  have ht2 : |(t.val : ℝ) / NUM| ≤ B * (A / NUM) := by
    rw [abs_div, abs_of_pos hN', ← mul_div_assoc]
    gcongr
  have ht3 : |(t.val : ℝ) / NUM - S / NUM| ≤ (B - 1) * (A / NUM) := by
    rw [← sub_div, abs_div, abs_of_pos hN', ← mul_div_assoc]
    gcongr
  have e4 : (1 + v) ^ (Nat.clog 2 NUM + 2) = B * (1 + v) := by rw [hB, ← pow_succ]
  rw [e4]
  calc |(((t / ((NUM : ℤ) : Ieee F)).val : ℚ) : ℝ) - S / NUM| ≤ |(((t / ((NUM : ℤ) : Ieee F)).val : ℚ) : ℝ) - t.val / NUM| + |(t.val : ℝ) / NUM - S / NUM| := abs_sub_le _ _ _
    _ ≤ (|(t.val : ℝ) / NUM| / 2 ^ F.p + 2 ^ F.emin / 2) + (B - 1) * (A / NUM) := add_le_add hr ht3
    _ ≤ (B * (A / NUM) / 2 ^ F.p + 2 ^ F.emin / 2) + (B - 1) * (A / NUM) := by gcongr
    _ = _ := by rw [hv]; ring

/-! ### Recursive filters with products -/

/-- **C99** The exponential moving average, as long as its products do not underflow. -/
theorem C99_ema (u : Usual F) (f : EMA (Ieee F) (Ieee F)) (f' : EMA (Binary F.p) (Binary F.p)) (h1 : Same f.prev f'.prev) (h2 : Same f.alpha f'.alpha) (x : ℕ → Ieee F) (x' : ℕ → Binary F.p) (hx : ∀ n, Same (x n) (x' n))
    (hc : ∀ n, Clear F ((1 - f'.alpha).val * (states EMA.call f' x' n).prev.val) ∧ Clear F (f'.alpha.val * (x' n).val)) (n : ℕ) :
    Agree (stream EMA.call f x n) (stream EMA.call f' x' n) := by
  refine stream_rel EMA.call EMA.call f f' x x' (fun s s' => Agree s.prev s'.prev ∧ s.alpha = f.alpha ∧ s'.alpha = f'.alpha) Agree ⟨h1.agree, rfl, rfl⟩ (fun n h => ?_) n
  obtain ⟨h3, h4, h5⟩ := h
  have hc := hc n
  generalize states EMA.call f x n = s at *
  generalize states EMA.call f' x' n = s' at *
  have key : Agree (EMA.call s (x n)).2 (EMA.call s' (x' n)).2 := by
    unfold EMA.call lerp
    rw [h4, h5]
    exact Agree.add (Agree.mul ((same_one u).agree.sub h2.agree) h3 hc.1) (h2.agree.mul (hx n).agree hc.2)
  exact ⟨⟨key, h4, h5⟩, key⟩

/-- **C99** The DC blocker, as long as its products do not underflow. -/
theorem C99_blockdc (f : BlockDC (Ieee F) (Ieee F)) (f' : BlockDC (Binary F.p) (Binary F.p)) (h1 : Same f.x1 f'.x1) (h2 : Same f.y1 f'.y1) (h3 : Same f.a f'.a) (h4 : Same f.b f'.b) (x : ℕ → Ieee F) (x' : ℕ → Binary F.p)
    (hx : ∀ n, Same (x n) (x' n))
    (hc : ∀ n, Clear F (f'.b.val * (x' n - (states BlockDC.call f' x' n).x1).val) ∧ Clear F (f'.a.val * (states BlockDC.call f' x' n).y1.val)) (n : ℕ) :
    Agree (stream BlockDC.call f x n) (stream BlockDC.call f' x' n) := by
  refine stream_rel BlockDC.call BlockDC.call f f' x x' (fun s s' => Agree s.x1 s'.x1 ∧ Agree s.y1 s'.y1 ∧ s.a = f.a ∧ s'.a = f'.a ∧ s.b = f.b ∧ s'.b = f'.b) Agree ⟨h1.agree, h2.agree, rfl, rfl, rfl, rfl⟩ (fun n h => ?_) n
  obtain ⟨g1, g2, g3, g4, g5, g6⟩ := h
  have hc := hc n
  generalize states BlockDC.call f x n = s at *
  generalize states BlockDC.call f' x' n = s' at *
  have key : Agree (BlockDC.call s (x n)).2 (BlockDC.call s' (x' n)).2 := by
    unfold BlockDC.call
    rw [g3, g4, g5, g6]
    exact Agree.add (Agree.mul h4.agree ((hx n).agree.sub g1) hc.1) (h3.agree.mul g2 hc.2)
  exact ⟨⟨(hx n).agree, key, g3, g4, g5, g6⟩, key⟩

/-- **C99** The second order filter, as long as its products do not underflow. -/
theorem C99_biquad (f : Biquad (Ieee F) (Ieee F)) (f' : Biquad (Binary F.p) (Binary F.p)) (h1 : Same f.x1 f'.x1) (h2 : Same f.x2 f'.x2) (h3 : Same f.y1 f'.y1) (h4 : Same f.y2 f'.y2) (c0 : Same f.b0a0 f'.b0a0)
    (c1 : Same f.b1a0 f'.b1a0) (c2 : Same f.b2a0 f'.b2a0) (c3 : Same f.a1a0 f'.a1a0) (c4 : Same f.a2a0 f'.a2a0) (x : ℕ → Ieee F) (x' : ℕ → Binary F.p) (hx : ∀ n, Same (x n) (x' n))
    (hc : ∀ n, let s := states Biquad.call f' x' n
      Clear F (f'.b0a0.val * (x' n).val) ∧ Clear F (f'.b1a0.val * s.x1.val) ∧ Clear F (f'.b2a0.val * s.x2.val) ∧ Clear F (f'.a1a0.val * s.y1.val) ∧ Clear F (f'.a2a0.val * s.y2.val)) (n : ℕ) :
    Agree (stream Biquad.call f x n) (stream Biquad.call f' x' n) := by
  refine stream_rel Biquad.call Biquad.call f f' x x' (fun s s' => (Agree s.x1 s'.x1 ∧ Agree s.x2 s'.x2 ∧ Agree s.y1 s'.y1 ∧ Agree s.y2 s'.y2) ∧ (s.b0a0 = f.b0a0 ∧ s.b1a0 = f.b1a0 ∧ s.b2a0 = f.b2a0 ∧ s.a1a0 = f.a1a0 ∧
    s.a2a0 = f.a2a0) ∧ s'.b0a0 = f'.b0a0 ∧ s'.b1a0 = f'.b1a0 ∧ s'.b2a0 = f'.b2a0 ∧ s'.a1a0 = f'.a1a0 ∧ s'.a2a0 = f'.a2a0) Agree
    ⟨⟨h1.agree, h2.agree, h3.agree, h4.agree⟩, ⟨rfl, rfl, rfl, rfl, rfl⟩, rfl, rfl, rfl, rfl, rfl⟩ (fun n h => ?_) n
  obtain ⟨⟨g1, g2, g3, g4⟩, ⟨a1, a2, a3, a4, a5⟩, b1, b2, b3, b4, b5⟩ := h
  obtain ⟨k1, k2, k3, k4, k5⟩ := hc n
  generalize states Biquad.call f x n = s at *
  generalize states Biquad.call f' x' n = s' at *
  have key : Agree (Biquad.call s (x n)).2 (Biquad.call s' (x' n)).2 := by
    unfold Biquad.call
    rw [a1, a2, a3, a4, a5, b1, b2, b3, b4, b5]
    exact ((((c0.agree.mul (hx n).agree k1).add (c1.agree.mul g1 k2)).add (c2.agree.mul g2 k3)).sub (c3.agree.mul g3 k4)).sub (c4.agree.mul g4 k5)
  exact ⟨⟨⟨(hx n).agree, g1, key, g3⟩, ⟨a1, a2, a3, a4, a5⟩, b1, b2, b3, b4, b5⟩, key⟩

/-! ### Cases that meet the hypotheses -/

instance : NeZero Format.single.p := ⟨by decide⟩

theorem valid_single (s : Bool) (n : ℕ) (e : ℤ) (h : n < 2 ^ 24) (he : -149 ≤ e) (hl : (n : ℚ) * 2 ^ e < 2 ^ (128 : ℤ)) : (num s (n * 2 ^ e) : Ieee Format.single).Valid :=
  ⟨by positivity, hl, n, e, h, he, rfl⟩

set_option maxRecDepth 100000 in
/-- A sum with samples of very different sizes, the largest of which cancel. -/
example : (Kahan.sum [num false (1 * 2 ^ (100 : ℤ)), num false (1 * 2 ^ (-149 : ℤ)), num true (1 * 2 ^ (100 : ℤ))] (num false (3 * 2 ^ (-2 : ℤ))) : Ieee Format.single).Finite ∧
    ∀ x ∈ [num false (1 * 2 ^ (100 : ℤ)), num false (1 * 2 ^ (-149 : ℤ)), num true (1 * 2 ^ (100 : ℤ)), (num false (3 * 2 ^ (-2 : ℤ)) : Ieee Format.single)], x.Finite ∧ x.Valid := by
  refine ⟨by decide +kernel, ?_⟩
  simp only [List.mem_cons, List.not_mem_nil, or_false, forall_eq_or_imp, forall_eq]
  exact ⟨⟨trivial, valid_single _ 1 100 (by norm_num) (by norm_num) (by norm_num)⟩, ⟨trivial, valid_single _ 1 (-149) (by norm_num) (by norm_num) (by norm_num)⟩,
    ⟨trivial, valid_single _ 1 100 (by norm_num) (by norm_num) (by norm_num)⟩, trivial, valid_single _ 3 (-2) (by norm_num) (by norm_num) (by norm_num)⟩

/-- Windows of 100 in single precision: the error is below nine units of the last place of the mean magnitude. -/
example (xs : List (Ieee Format.single)) (hx : ∀ x ∈ xs, x.Finite ∧ x.Valid) :
    ∃ ys, trace (SMA4.call true fun s => s / (((100 : ℕ) : ℤ) : Ieee Format.single)) (SMA4.init 100) xs = (ys, none) ∧ ys.length = xs.length ∧ ∀ n, n < xs.length → ∃ y, ys[n]? = some y ∧ (y.Finite →
      |(y.val : ℝ) - windowSum (fun x => (x.val : ℝ)) 100 xs n / (100 : ℕ)| ≤ ((1 + 1 / 2 ^ 24) ^ (Nat.clog 2 100 + 2) - 1) * (windowSum (fun x => |(x.val : ℝ)|) 100 xs n / (100 : ℕ)) + 2 ^ (-149 : ℤ) / 2) :=
  C99_sma4_error usual_single 100 (by norm_num) (by norm_num [Format.single]) xs hx

theorem states_fixed {σ ι ω : Type} (step : σ → ι → σ × ω) (s : σ) (i : ι) (h : (step s i).1 = s) (n : ℕ) : states step s (fun _ => i) n = s := by
  induction n with
  | zero => rfl
  | succ n ih => show (step (states step s (fun _ => i) n) i).1 = s; rw [ih, h]

theorem binary_ext {p : ℕ} {a b : Binary p} (h : a.val = b.val) : a = b := by
  cases a; cases b; simp only at h; subst h; rfl

/-- `n / 4` as a number of single precision. -/
def quarter (n : ℤ) : Binary Format.single.p := if h : |n| < 2 ^ 24 then ⟨n / 4, n, -2, h, by norm_num; ring⟩ else 0

/-- The same in IEEE arithmetic. -/
def quarter' (s : Bool) (n : ℕ) : Ieee Format.single := num s (n / 4)

theorem same_quarter (s : Bool) (n : ℕ) (m : ℤ) (h : |m| < 2 ^ 24) (hm : m = if s then -(n : ℤ) else n) : Same (quarter' s n) (quarter m) := by
  rw [quarter, dif_pos h]
  refine ⟨trivial, ?_, ?_⟩
  · have hn : n < 2 ^ 24 := by
      subst hm
      cases s
      · simpa using h
      · simp only [if_true, abs_neg, Nat.abs_cast] at h; exact_mod_cast h
    have := valid_single s n (-2) hn (by norm_num) (by
      calc (n : ℚ) * 2 ^ (-2 : ℤ) ≤ 2 ^ 24 * 2 ^ (-2 : ℤ) := by gcongr; exact_mod_cast hn.le
        _ < _ := by norm_num)
    have e : (n : ℚ) * 2 ^ (-2 : ℤ) = n / 4 := by norm_num; ring
    rwa [e] at this
  · subst hm
    show signed s _ = ((_ : ℤ) : ℚ) / 4
    cases s <;> simp [signed, neg_div]

theorem clear_quarter (n : ℤ) (x : ℚ) (h : x = n / 16) : Clear Format.single x := by
  by_cases hn : n = 0
  · left; rw [h, hn]; simp
  · right
    have : (1 : ℚ) ≤ |(n : ℚ)| := by exact_mod_cast Int.one_le_abs hn
    rw [h, abs_div, abs_of_pos (by norm_num : (0 : ℚ) < 16)]
    norm_num [Format.single]
    linarith

set_option maxRecDepth 100000 in
/-- An average that has settled at its constant input. -/
example (n : ℕ) : Agree (stream EMA.call (EMA.init (quarter' false 4) (quarter' false 2)) (fun _ => quarter' false 4) n)
    (stream EMA.call (EMA.init (quarter 4) (quarter 2)) (fun _ => quarter 4) n) := by
  refine C99_ema usual_single _ _ (same_quarter _ _ _ (by norm_num) (by norm_num)) (same_quarter _ _ _ (by norm_num) (by norm_num)) _ _ (fun _ => same_quarter _ _ _ (by norm_num) (by norm_num)) (fun n => ?_) n
  rw [states_fixed]
  · exact ⟨clear_quarter 8 _ (by decide +kernel), clear_quarter 8 _ (by decide +kernel)⟩
  · show EMA.mk _ _ = EMA.mk _ _
    congr 1
    exact binary_ext (by decide +kernel)

set_option maxRecDepth 100000 in
/-- The same for a second order filter. -/
example (n : ℕ) : Agree
    (stream Biquad.call ⟨quarter' false 4, quarter' false 4, quarter' false 4, quarter' false 4, quarter' false 1, quarter' false 2, quarter' false 1, quarter' true 2, quarter' false 2⟩ (fun _ => quarter' false 4) n)
    (stream Biquad.call ⟨quarter 4, quarter 4, quarter 4, quarter 4, quarter 1, quarter 2, quarter 1, quarter (-2),
      quarter 2⟩ (fun _ => quarter 4) n) := by
  refine C99_biquad _ _ (same_quarter _ _ _ (by norm_num) (by norm_num)) (same_quarter _ _ _ (by norm_num) (by norm_num)) (same_quarter _ _ _ (by norm_num) (by norm_num)) (same_quarter _ _ _ (by norm_num) (by norm_num)) (same_quarter _ _ _ (by norm_num) (by norm_num))
    (same_quarter _ _ _ (by norm_num) (by norm_num)) (same_quarter _ _ _ (by norm_num) (by norm_num)) (same_quarter _ _ _ (by norm_num) (by norm_num)) (same_quarter _ _ _ (by norm_num) (by norm_num)) _ _ (fun _ => same_quarter _ _ _ (by norm_num) (by norm_num)) (fun n => ?_) n
  rw [states_fixed]
  · exact ⟨clear_quarter 4 _ (by decide +kernel), clear_quarter 8 _ (by decide +kernel), clear_quarter 4 _ (by decide +kernel), clear_quarter (-8) _ (by decide +kernel), clear_quarter 8 _ (by decide +kernel)⟩
  · show Biquad.mk _ _ _ _ _ _ _ _ _ = Biquad.mk _ _ _ _ _ _ _ _ _
    congr 1
    exact binary_ext (by decide +kernel)

end Bridge
end DSP
