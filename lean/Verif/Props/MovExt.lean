import Verif.Lemmas.MovExt
import Verif.Lemmas.Window
import Mathlib.Order.OrderDual
import Mathlib.Tactic.NormNum
import Mathlib.Data.Rat.Defs
import Mathlib.Algebra.Order.Ring.Rat
import Mathlib.Order.Max
import Mathlib.Data.Int.Order.Basic

/-! Properties C05 and C06: moving extrema. -/

namespace DSP
variable {α : Type} {K : Type} [LinearOrder K]

/-- `y` has the smallest key of all elements of `W`, and that key occurs. -/
def Spec.IsMinimum {β : Type} (k : β → K) (y : β) (W : List β) : Prop := (∃ x ∈ W, k x = k y) ∧ ∀ x ∈ W, k y ≤ k x

namespace MovExt

theorem lastN_sub (NUM : Nat) (i : α) (h : List α) :
    ∃ f, (∀ z ∈ f, z = i) ∧ Spec.lastN NUM (List.replicate NUM i ++ h) = f ++ Spec.lastN NUM h := by
  unfold Spec.lastN
  have e : (List.replicate NUM i ++ h).length - NUM = h.length := by simp
  rw [e]
  by_cases hn : h.length ≤ NUM
  · refine ⟨(List.replicate NUM i).drop h.length, by simp, ?_⟩
    rw [List.drop_append_of_le_length (by simpa using hn), Nat.sub_eq_zero_of_le hn, List.drop_zero]
  · refine ⟨[], by simp, ?_⟩
    rw [List.drop_append]
    simp
    omega

theorem lastN_append (NUM : Nat) (hN : 0 < NUM) (h : List α) (x : α) (o : α) (w : List α)
    (e : Spec.lastN NUM h = o :: w) (hl : (Spec.lastN NUM h).length = NUM) :
    Spec.lastN NUM (h ++ [x]) = w ++ [x] := by
  unfold Spec.lastN at *
  have h1 : NUM ≤ h.length := by rw [List.length_drop] at hl; omega
  have h2 : (h ++ [x]).length - NUM = (h.length - NUM) + 1 := by simp; omega
  rw [h2, ← List.drop_drop, List.drop_append_of_le_length (by omega), e]
  simp

/-- Invariant of the whole run. -/
def Inv (k : α → K) (NUM : Nat) (eq comp : α → α → Bool) (i : α) (A : Prop) (m : MovExt α) (h : List α) : Prop :=
  ∃ a P O N, Rep NUM eq comp m a ∧ Safe NUM a h.length ∧ Corr k i NUM a P O N ∧
    a.w = Spec.lastN NUM (List.replicate NUM i ++ h) ∧
    (A → ∀ z ∈ O ++ N, k z ≤ k i) ∧
    (¬ A → (h = [] ∧ O = [i] ∧ N = []) ∨ (∀ z ∈ O ++ N, k z ≠ k i))

end MovExt

open MovExt in
/-- **C05.** Let `==` and `comp` be equality and strict order of a key in a linear order. If the initial value is not
beaten by any input, or is different from all inputs, then after every input `MovExt` returns an element whose
key is the smallest among the last `min(n, NUM)` inputs. -/
theorem C05_movext (k : α → K) (NUM : Nat) (hN : 0 < NUM) (eq comp : α → α → Bool)
    (heq : ∀ a b, eq a b = decide (k a = k b)) (hcomp : ∀ a b, comp a b = decide (k a < k b))
    (junk1 junk2 : List α) (h1 : junk1.length = NUM) (h2 : junk2.length = NUM) (i : α) (xs : List α)
    (hinit : (∀ x ∈ xs, k x ≤ k i) ∨ (∀ x ∈ xs, k x ≠ k i)) :
    ∃ m ys, MovExt.init NUM eq comp junk1 junk2 i = .ok m ∧ trace MovExt.call m xs = (ys, none) ∧
      ys.length = xs.length ∧
      ∀ n, n < xs.length → ∃ y, ys[n]? = some y ∧ Spec.IsMinimum k y (Spec.lastN NUM (xs.take (n + 1))) := by
  obtain rfl : eq = fun a b => decide (k a = k b) := by funext a b; exact heq a b
  obtain rfl : comp = fun a b => decide (k a < k b) := by funext a b; exact hcomp a b
  obtain ⟨m, em, hm⟩ := MovExt.init_ok hN (fun a b => decide (k a = k b)) (fun a b => decide (k a < k b)) h1 h2 i
  let A : Prop := ∀ x ∈ xs, k x ≤ k i
  have hgood : ∀ x ∈ xs, (A → k x ≤ k i) ∧ (¬ A → k x ≠ k i) := by
    intro x hx
    refine ⟨fun hA => hA x hx, fun hA => ?_⟩
    rcases hinit with h | h
    · exact absurd h hA
    · exact h x hx
  have hI0 : MovExt.Inv k NUM (fun a b => decide (k a = k b)) (fun a b => decide (k a < k b)) i A m [] := by
    obtain ⟨n, rfl⟩ : ∃ n, NUM = n + 1 := ⟨NUM - 1, by omega⟩
    refine ⟨_, List.replicate n i, [i], [], hm, ⟨List.replicate (n + 1) i, [], ?_, ?_, ?_, ?_, ?_, ?_⟩, ?_, ?_, ?_, ?_⟩
    · simp
    · simp
    · simp
    · simp [List.replicate_succ]
    · simp
    · simp
    · refine ⟨?_, by simp, by simp [smin], by simp [smin], ?_, by simp⟩
      · simp [List.replicate_succ']
      · intro z hz; rw [List.eq_of_mem_replicate hz]
    · simp [Spec.lastN]
    · intro _ z hz; simp at hz; rw [hz]
    · intro _; exact .inl ⟨rfl, rfl, rfl⟩
  have hstep : ∀ s h x, MovExt.Inv k NUM (fun a b => decide (k a = k b)) (fun a b => decide (k a < k b)) i A s h →
      ((A → k x ≤ k i) ∧ (¬ A → k x ≠ k i)) →
      ∃ s' y, MovExt.call s x = .ok (s', y) ∧
        MovExt.Inv k NUM (fun a b => decide (k a = k b)) (fun a b => decide (k a < k b)) i A s' (h ++ [x]) ∧
        (∃ g x', h ++ [x] = g ++ [x'] ∧ (x' ∈ Spec.lastN NUM (h ++ [x]) →
         (∀ z ∈ Spec.lastN NUM (h ++ [x]), (A → k z ≤ k i) ∧ (¬ A → k z ≠ k i)) →
          Spec.IsMinimum k y (Spec.lastN NUM (h ++ [x])))) := by
    intro s h x hI hx
    obtain ⟨a, P, O, N, hrep, hsafe, hcorr, hw, hA, hB⟩ := hI
    obtain ⟨o, w, d, D, ew, eD, hR⟩ := hsafe.cases
    obtain ⟨aw, aD, aR, ap⟩ := a
    simp only at ew eD
    subst ew eD
    obtain ⟨s', es, hrep'⟩ := call_ok hrep x hR
    have hcl : Class k i O N := by
      by_cases hAA : A
      · exact .inl (hA hAA)
      · rcases hB hAA with ⟨-, rfl, rfl⟩ | hB'
        · exact .inl (by simp)
        · exact .inr hB'
    obtain ⟨P', O', N', hcorr', hsub, hxin, hfirst, hymem, hymin⟩ := hcorr.step k hcl x
    have hsafe' := hsafe.step (comp := fun a b => decide (k a < k b)) (eq := fun a b => decide (k a = k b)) (by simp) x
    have hw' : (absStep (fun a b => decide (k a = k b)) (fun a b => decide (k a < k b)) o w d D aR ap x).1.w =
        Spec.lastN NUM (List.replicate NUM i ++ (h ++ [x])) := by
      rw [← List.append_assoc, lastN_append NUM hN _ x o w hw.symm (by rw [← hw]; exact hcorr.len)]
      unfold absStep
      simp only
      split <;> rfl
    generalize absStep (fun a b => decide (k a = k b)) (fun a b => decide (k a < k b)) o w d D aR ap x = r at *
    have hA' : A → ∀ z ∈ O' ++ N', k z ≤ k i := by
      intro hAA z hz
      rcases hsub z hz with rfl | h'
      · exact hx.1 hAA
      · exact hA hAA z h'
    have hB' : ¬ A → ∀ z ∈ O' ++ N', k z ≠ k i := by
      intro hAA z hz
      rcases hB hAA with ⟨-, rfl, rfl⟩ | hBB
      · rw [hfirst (by simp) rfl rfl] at hz
        rw [List.mem_singleton.1 hz]; exact hx.2 hAA
      · rcases hsub z hz with rfl | h'
        · exact hx.2 hAA
        · exact hBB z h'
    refine ⟨s', _, es, ⟨_, P', O', N', hrep', ?_, hcorr', hw', hA', fun h => .inr (hB' h)⟩, ?_⟩
    · rw [List.length_append]; exact hsafe'
    · refine ⟨h, x, rfl, ?_⟩
      intro hxW hgW
      have hmem : ∀ z, z ∈ P' ∨ z ∈ O' ++ N' ↔ z ∈ Spec.lastN NUM (List.replicate NUM i ++ (h ++ [x])) := by
        intro z
        rw [← hw', hcorr'.w]
        simp only [List.mem_append, or_assoc]
      obtain ⟨f, hf, hfe⟩ := lastN_sub NUM i (h ++ [x])
      rw [hfe] at hmem
      have hyle : ∀ z ∈ Spec.lastN NUM (h ++ [x]),
          k r.2 ≤ k z := by
        intro z hz
        rcases (hmem z).2 (List.mem_append_right _ hz) with h' | h'
        · rw [hcorr'.P z h']
          by_cases hAA : A
          · exact hA' hAA _ hymem
          · exact absurd (hcorr'.P z h') ((hgW z hz).2 hAA)
        · exact hymin z h'
      refine ⟨?_, hyle⟩
      rcases List.mem_append.1 ((hmem _).1 (.inr hymem)) with h' | h'
      · have hyi := hf _ h'
        have hAA : A := by
          by_contra hAA
          exact hB' hAA _ hymem (by rw [hyi])
        refine ⟨x, hxW, le_antisymm ?_ (hyle x hxW)⟩
        rw [hyi]
        exact (hgW x hxW).1 hAA
      · exact ⟨_, h', rfl⟩
  obtain ⟨m', ys, -, et, -, hl, hpost⟩ := run_of_inv _ (fun l y => ∃ g x', l = g ++ [x'] ∧ (x' ∈ Spec.lastN NUM l →
         (∀ z ∈ Spec.lastN NUM l, (A → k z ≤ k i) ∧ (¬ A → k z ≠ k i)) →
          Spec.IsMinimum k y (Spec.lastN NUM l))) _ hstep hI0 xs hgood
  refine ⟨m, ys, em, et, hl, ?_⟩
  intro n hn
  obtain ⟨y, ey, hy⟩ := hpost n hn
  refine ⟨y, ey, ?_⟩
  simp only [List.nil_append] at hy
  obtain ⟨g', x', e', hy⟩ := hy
  have hsub : ∀ z ∈ Spec.lastN NUM (xs.take (n + 1)), z ∈ xs := fun z hz =>
    List.mem_of_mem_take (List.mem_of_mem_drop hz)
  refine hy ?_ fun z hz => hgood z (hsub z hz)
  rw [e']
  unfold Spec.lastN
  rw [List.drop_append_of_le_length (by simp; omega)]
  simp

/-- `y` is the least element of the list. -/
def Spec.IsLeastOf {β : Type} [LinearOrder β] (y : β) (W : List β) : Prop := y ∈ W ∧ ∀ x ∈ W, y ≤ x

/-- `y` is the greatest element of the list. -/
def Spec.IsGreatestOf {β : Type} [LinearOrder β] (y : β) (W : List β) : Prop := y ∈ W ∧ ∀ x ∈ W, x ≤ y

/-- **C05** for `MovMin`: if `numeric_limits::max()` is the greatest value of the type (integers; floats without
infinity), every output is the minimum of the last `min(n, NUM)` inputs. -/
theorem C05_movmin {V : Type} [LinearOrder V] (top : V) (htop : ∀ x, x ≤ top) (NUM : Nat) (hN : 0 < NUM)
    (junk1 junk2 : List V) (h1 : junk1.length = NUM) (h2 : junk2.length = NUM) (xs : List V) :
    ∃ m ys, MovMin.init NUM (fun a b => decide (a = b)) (fun a b => decide (a < b)) top junk1 junk2 = .ok m ∧
      trace MovExt.call m xs = (ys, none) ∧ ys.length = xs.length ∧
      ∀ n, n < xs.length → ∃ y, ys[n]? = some y ∧ Spec.IsLeastOf y (Spec.lastN NUM (xs.take (n + 1))) := by
  obtain ⟨m, ys, e1, e2, e3, e4⟩ := C05_movext (id : V → V) NUM hN _ _ (fun _ _ => rfl) (fun _ _ => rfl) junk1 junk2
    h1 h2 top xs (.inl fun x _ => htop x)
  refine ⟨m, ys, e1, e2, e3, fun n hn => ?_⟩
  obtain ⟨y, ey, ⟨x, hx, hxy⟩, h⟩ := e4 n hn
  exact ⟨y, ey, by rw [← (show x = y from hxy)]; exact hx, h⟩

example : (MovMin.init 3 (fun a b => decide (a = b)) (fun a b => decide (a < b)) 9 [0, 0, 0] [0, 0, 0]).map
    (fun m => trace MovExt.call m [9, 9, 5, 7, 7, 6, 9, 9]) = .ok ([9, 9, 5, 5, 5, 6, 6, 6], none) := by decide +kernel

/-- **C05** for `MovMax`: if `numeric_limits::min()` is the least value of the type (integers), every output is the
maximum of the last `min(n, NUM)` inputs. -/
theorem C05_movmax {V : Type} [LinearOrder V] (bot : V) (hbot : ∀ x, bot ≤ x) (NUM : Nat) (hN : 0 < NUM)
    (junk1 junk2 : List V) (h1 : junk1.length = NUM) (h2 : junk2.length = NUM) (xs : List V) :
    ∃ m ys, MovMax.init NUM (fun a b => decide (a = b)) (fun a b => decide (a < b)) bot junk1 junk2 = .ok m ∧
      trace MovExt.call m xs = (ys, none) ∧ ys.length = xs.length ∧
      ∀ n, n < xs.length → ∃ y, ys[n]? = some y ∧ Spec.IsGreatestOf y (Spec.lastN NUM (xs.take (n + 1))) := by
  obtain ⟨m, ys, e1, e2, e3, e4⟩ := C05_movext (OrderDual.toDual : V → Vᵒᵈ) NUM hN (fun a b => decide (a = b))
    (fun a b => decide (b < a)) (fun _ _ => by simp) (fun _ _ => by simp) junk1 junk2
    h1 h2 bot xs (.inl fun x _ => hbot x)
  refine ⟨m, ys, e1, e2, e3, fun n hn => ?_⟩
  obtain ⟨y, ey, ⟨x, hx, hxy⟩, h⟩ := e4 n hn
  exact ⟨y, ey, by rw [← (show x = y from hxy)]; exact hx, h⟩

example : (MovMax.init 2 (fun a b => decide (a = b)) (fun a b => decide (a < b)) (-128) [0, 0] [0, 0]).map
    (fun m => trace MovExt.call m [-128, -3, 5, 4, 4, -128, -128]) =
    .ok ([-128, -3, 5, 5, 4, 4, -128], none) := by decide +kernel

/-- The initial value is *not* harmless in general: fed with the initial value itself and then with something worse,
the output forgets the first input although it is still in the window. -/
theorem C05_init_collision (eq comp : α → α → Bool) (hrefl : ∀ a, eq a a = true) (i a : α) :
    ∃ m, MovExt.init 2 eq comp [i, i] [i, i] i = .ok m ∧ trace MovExt.call m [i, a] = ([i, a], none) := by
  refine ⟨_, rfl, ?_⟩
  simp [trace, MovExt.call, Delay.call, Delay.init, Stack.init, Stack.push, Stack.top, Stack.pop, Stack.empty,
    MovExt.popLoop, MovExt.moveLoop, M.ite, hrefl, rd, wr, bind, Except.bind, pure, Except.pure, List.set]

/-- `MovMax<float>` starts with `numeric_limits<float>::min()`, which is `2^-126` and not the least value: the stream
`2^-126, -1` yields `-1` although `2^-126` is in the window of two. -/
theorem C05_movmax_float_wrong :
    ∃ m ys, MovMax.init 2 (fun a b : ℚ => decide (a = b)) (fun a b => decide (a < b)) (1 / 2 ^ 126)
        [1 / 2 ^ 126, 1 / 2 ^ 126] [1 / 2 ^ 126, 1 / 2 ^ 126] = .ok m ∧
      trace MovExt.call m [1 / 2 ^ 126, -1] = (ys, none) ∧
      ∃ y, ys[(1 : ℕ)]? = some y ∧ ¬ Spec.IsGreatestOf y (Spec.lastN 2 ([1 / 2 ^ 126, -1].take 2)) := by
  obtain ⟨m, e1, e2⟩ := C05_init_collision (fun a b : ℚ => decide (a = b)) (fun a b => decide (b < a)) (by simp)
    (1 / 2 ^ 126) (-1)
  refine ⟨m, _, e1, e2, -1, rfl, ?_⟩
  rintro ⟨-, h⟩
  have := h (1 / 2 ^ 126) (by simp [Spec.lastN])
  norm_num at this

open MovExt in
/-- **C06.** For every comparison, every reflexive equality, every initial value and every input stream: no assertion
fails, no access is out of bounds, no loop exceeds its bound, and `n` calls perform at most `2n+1` pushes. -/
theorem C06_movext_safe (NUM : Nat) (hN : 0 < NUM) (eq comp : α → α → Bool) (hrefl : ∀ a, eq a a = true)
    (junk1 junk2 : List α) (h1 : junk1.length = NUM) (h2 : junk2.length = NUM) (i : α) (xs : List α) :
    ∃ m m' ys, MovExt.init NUM eq comp junk1 junk2 i = .ok m ∧ run MovExt.call m xs = .ok (m', ys) ∧
      m'.pushes ≤ 2 * xs.length + 1 := by
  obtain ⟨m, em, hm⟩ := MovExt.init_ok hN eq comp h1 h2 i
  obtain ⟨m', ys, er, -, ⟨a, hr, A, B, -, -, -, -, -, -, hp⟩, -⟩ := run_of_inv (step := MovExt.call)
    (fun s h => ∃ a, Rep NUM eq comp s a ∧ Safe NUM a h.length) (fun _ _ => True) (fun _ => True) (by
      rintro s h x ⟨a, hrep, hsafe⟩ -
      obtain ⟨o, w, d, D, ew, eD, hR⟩ := hsafe.cases
      obtain ⟨aw, aD, aR, ap⟩ := a
      simp only at ew eD
      subst ew eD
      obtain ⟨s', es, hrep'⟩ := call_ok hrep x hR
      exact ⟨s', _, es, ⟨_, hrep', by rw [List.length_append]; exact hsafe.step hrefl x⟩, trivial⟩)
    (s := m) (h := []) ⟨_, hm, List.replicate NUM i, [], by simp, by simp, by simp,
      List.singleton_sublist.2 (by simp; omega), by simp, by simp, by simp⟩ xs (fun _ _ => trivial)
  exact ⟨m, m', ys, em, er, by rw [hr.pushes]; simpa using hp⟩

example : ((MovExt.init 2 (fun a b => decide (a = b)) (fun a b => decide (a < b)) [0, 0] [0, 0] 5).bind
    (fun m => run MovExt.call m [1, 2, 3, 3])).map (fun r => (r.1.pushes, r.2)) = .ok (8, [1, 1, 2, 3]) := by
  decide +kernel

/-- A value that does not equal itself (a NaN) wedges the dispenser: three inputs make an assertion fail.
`none` plays the NaN, `==` and `<` are those of partial floats. -/
theorem C06_nan_asserts :
    (MovMin.init 1 (fun a b : Option Nat => match a, b with | some a, some b => a == b | _, _ => false)
        (fun a b => match a, b with | some a, some b => decide (a < b) | _, _ => false) (some 100) [none] [none]).map
      (fun m => trace MovExt.call m [none, some 1, some 2]) = .ok ([none, some 1], some .assertion) := by decide +kernel

end DSP
