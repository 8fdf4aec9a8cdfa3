import Verif.Lemmas.SWA
import Verif.Lemmas.Window

/-! Properties C07 and C08: the sliding window accelerator. -/

namespace DSP
variable {α : Type}
open Spec (window lastN)

namespace SWA

/-- Invariant of a run: the leaves hold the window and the write position is known. -/
def Inv (op : α → α → α) (NUM : Nat) (e : α) (s : SWA α) (h : List α) : Prop :=
  Rep op NUM s (window NUM e h) ∧ s.leaf = NUM + h.length % NUM

theorem Inv.init {op : α → α → α} {NUM : Nat} (hN : 0 < NUM) {e : α} (he : op e e = e) :
    Inv op NUM e (SWA.init NUM e) [] := by
  refine ⟨?_, by simp [SWA.init]⟩
  rw [Spec.window_nil]; exact Rep.init hN e he

theorem mod_step {NUM n : Nat} (hN : 0 < NUM) :
    (if NUM + n % NUM + 1 ≥ 2 * NUM then NUM else NUM + n % NUM + 1) = NUM + (n + 1) % NUM := by
  have h := Nat.mod_lt n hN
  have e := Nat.add_mod n 1 NUM
  by_cases hh : n % NUM + 1 < NUM
  · have h1 : 1 % NUM = 1 := Nat.mod_eq_of_lt (by omega)
    rw [h1, Nat.mod_eq_of_lt hh] at e
    split <;> omega
  · by_cases h1 : NUM = 1
    · subst h1; simp; omega
    · rw [Nat.mod_eq_of_lt (show 1 < NUM by omega), show n % NUM + 1 = NUM by omega, Nat.mod_self] at e
      split <;> omega

theorem Inv.step {op : α → α → α} (hc : ∀ a b, op a b = op b a) {NUM : Nat} (hN : 0 < NUM) {e : α} {s : SWA α}
    {h : List α} (hI : Inv op NUM e s h) (x : α) :
    ∃ s' f, s.call op x = .ok (s', eval op NUM f 1) ∧ Inv op NUM e s' (h ++ [x]) ∧ Holds (2 * NUM) s'.tree f := by
  obtain ⟨hr, hl⟩ := hI
  obtain ⟨s', f, e1, hr', hf, hl'⟩ := hr.call hc hN x
  refine ⟨s', f, e1, ⟨?_, ?_⟩, hf⟩
  · rw [Spec.window_append NUM hN]; exact hr'
  · rw [hl', hl, mod_step hN]; simp

end SWA

open SWA in
/-- **C07.** For an associative and commutative operation with identity, every output of `SWA` is the reduction of the
last `min(n, NUM)` inputs; no access is out of bounds. -/
theorem C07_swa (op : α → α → α) (e : α) (hc : ∀ a b, op a b = op b a) (ha : ∀ a b c, op (op a b) c = op a (op b c))
    (he : ∀ a, op e a = a) (NUM : Nat) (hN : 0 < NUM) (xs : List α) :
    trace (SWA.call op) (SWA.init NUM e) xs =
      ((List.range xs.length).map (fun n => (lastN NUM (xs.take (n + 1))).foldr op e), none) := by
  let inst : CommMonoid α :=
    { mul := op, one := e, mul_assoc := ha, one_mul := he, 
      mul_one := fun a => (hc a e).trans (he a), mul_comm := hc }
  obtain ⟨s', ys, -, et, -, hl, hp⟩ := run_of_inv (step := SWA.call op) (SWA.Inv op NUM e)
    (fun h y => y = (lastN NUM h).foldr op e) (fun _ => True) (by
      intro s h x hI _
      obtain ⟨s', f, e1, hI', hf⟩ := hI.step hc hN x
      refine ⟨s', _, e1, hI', ?_⟩
      have := SWA.eval_eq_prod (α := α) hN hI'.1 hf
      refine Eq.trans this ?_
      rw [Spec.window_eq, List.prod_append, List.prod_replicate]
      exact (congrArg (· * _) (one_pow _)).trans (one_mul _))
    (SWA.Inv.init hN (he e)) xs (fun _ _ => trivial)
  rw [et]
  congr 1
  apply List.ext_getElem?
  intro n
  by_cases hn : n < xs.length
  · obtain ⟨y, h1, h2⟩ := hp n hn
    rw [h1, h2]
    simp [hn]
  · rw [List.getElem?_eq_none (by omega), List.getElem?_eq_none (by simp; omega)]

example : trace (SWA.call (· + ·)) (SWA.init 3 0) [1, 10, 100, 1000, 10000] =
    ([1, 11, 111, 1110, 11100], none) := by decide +kernel

open SWA in
/-- **C08.** For a merely commutative operation (such as rounded addition) with `op ident ident = ident`, the answer
after any history is a function of the last `NUM` inputs and the history length modulo `NUM`: nothing older matters. -/
theorem C08_swa_no_drift (op : α → α → α) (e : α) (hc : ∀ a b, op a b = op b a) (he : op e e = e) (NUM : Nat)
    (hN : 0 < NUM) (h1 h2 : List α) (hw : window NUM e h1 = window NUM e h2)
    (hm : h1.length % NUM = h2.length % NUM) (x : α) :
    ∃ s1 o1 s2 o2 t1 t2 y, run (SWA.call op) (SWA.init NUM e) h1 = .ok (s1, o1) ∧ SWA.call op s1 x = .ok (t1, y) ∧
      run (SWA.call op) (SWA.init NUM e) h2 = .ok (s2, o2) ∧ SWA.call op s2 x = .ok (t2, y) := by
  have hrun : ∀ h : List α, ∃ s o, run (SWA.call op) (SWA.init NUM e) h = .ok (s, o) ∧ SWA.Inv op NUM e s h := by
    intro h
    obtain ⟨s', ys, er, -, hI, -⟩ := run_of_inv (step := SWA.call op) (SWA.Inv op NUM e)
      (fun _ _ => True) (fun _ => True) (by
        intro s h x hI _
        obtain ⟨s', f, e1, hI', hf⟩ := hI.step hc hN x
        exact ⟨s', _, e1, hI', trivial⟩) (SWA.Inv.init hN he) h (fun _ _ => trivial)
    exact ⟨s', ys, er, by simpa using hI⟩
  obtain ⟨s1, o1, r1, I1⟩ := hrun h1
  obtain ⟨s2, o2, r2, I2⟩ := hrun h2
  obtain ⟨t1, f1, c1, J1, H1⟩ := I1.step hc hN x
  obtain ⟨t2, f2, c2, J2, H2⟩ := I2.step hc hN x
  refine ⟨s1, o1, s2, o2, t1, t2, _, r1, c1, r2, ?_⟩
  rw [c2]
  congr 2
  apply SWA.eval_congr _ 1 (le_refl _) (by omega)
  intro i hi hi'
  have hwin : window NUM e (h2 ++ [x]) = window NUM e (h1 ++ [x]) := by
    rw [Spec.window_append NUM hN, Spec.window_append NUM hN, hw]
  have hleaf : t2.leaf = t1.leaf := by
    rw [J1.2, J2.2, List.length_append, List.length_append, Nat.add_mod, ← hm, ← Nat.add_mod]
  have key : ∀ (t : SWA α) (f : Nat → α) (h : List α), SWA.Inv op NUM e t h → Holds (2 * NUM) t.tree f →
      ∀ j, j < NUM → (i = t.leaf + j ∨ i + NUM = t.leaf + j) → some (f i) = (window NUM e h)[j]? := by
    intro t f h hI hf j hj hij
    have := hI.1.leaves.cells j (i - NUM) hj (by omega) (by simp only [ring, hI.1.num]; omega)
    rw [← this]
    simp only [ring, hI.1.num, List.getElem?_drop]
    rw [show NUM + (i - NUM) = i by omega, hf.2 i hi']
  have hL1 := J1.2
  have hlt := Nat.mod_lt (h1 ++ [x]).length hN
  obtain ⟨j, hj, hij⟩ : ∃ j, j < NUM ∧ (i = t1.leaf + j ∨ i + NUM = t1.leaf + j) := by
    by_cases hh : t1.leaf ≤ i
    · exact ⟨i - t1.leaf, by omega, by omega⟩
    · exact ⟨i + NUM - t1.leaf, by omega, by omega⟩
  have k1 := key t1 f1 _ J1 H1 j hj hij
  have k2 := key t2 f2 _ J2 H2 j hj (by rw [hleaf]; exact hij)
  rw [hwin, ← k1] at k2
  exact Option.some.inj k2

/-- Two histories with a common window under an operation that is commutative but not associative. -/
example : let op := fun a b : Int => (a + b) / 2 * 2
    window 3 0 [7, 1, 2, 3] = window 3 0 [100, 1, 2, 3] ∧ op (op 1 1) 0 ≠ op 1 (op 1 0) ∧
    trace (SWA.call op) (SWA.init 3 0) [7, 1, 2, 3, 4] = ([6, 6, 8, 4, 8], none) ∧
    trace (SWA.call op) (SWA.init 3 0) [100, 1, 2, 3, 4] = ([100, 100, 102, 4, 8], none) := by decide +kernel

end DSP
