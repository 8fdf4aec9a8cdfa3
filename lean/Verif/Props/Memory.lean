import Verif.Spec.Memory
import Verif.Lemmas.Ieee
import Verif.Lemmas.SMA
import Verif.Lemmas.SWA
import Verif.Lemmas.Window
import Verif.Model.Calculus
import Verif.Model.DemodRounded
import Verif.Props.HilbertError
import Verif.Props.CDCError

/-!
# Filters that forget infinities and NaN (C96)

The other moving averages, the Hilbert transformer, the digital down converter and the differentiator recover from any input: once it left the window the outputs are as if it had never
been there. That holds whatever the arithmetic is.
-/

namespace DSP
namespace Spec

theorem memory_of_inv {σ ι ω : Type} (step : σ → ι → M (σ × ω)) (s : σ) (N : ℕ) (e : ι) (Inv : σ → List ι → Prop) (g : List ι → ω) (h0 : Inv s [])
    (hs : ∀ s h x, Inv s h → ∃ s', step s x = .ok (s', g (h ++ [x])) ∧ Inv s' (h ++ [x]))
    (hg : ∀ h h' : List ι, h.length = h'.length → window N e h = window N e h' → g h = g h') : Memory step s N := by
  have key : ∀ x : ℕ → ι, ∀ T, ∃ t, run step s ((List.range T).map x) = .ok (t, (List.range T).map fun n => g ((List.range (n + 1)).map x)) := by
    intro x T
    obtain ⟨t, ys, h1, -, -, h2, h3⟩ := run_of_inv (step := step) Inv (fun h y => y = g h) (fun _ => True)
      (fun s h x hI _ => by obtain ⟨s', e1, hI'⟩ := hs s h x hI; exact ⟨s', _, e1, hI', rfl⟩) h0 ((List.range T).map x) (fun _ _ => trivial)
    refine ⟨t, ?_⟩
    rw [h1]
    congr 2
    apply List.ext_getElem?
    intro n
    by_cases hn : n < T
    · obtain ⟨y, hy, rfl⟩ := h3 n (by simpa using hn)
      rw [hy, List.getElem?_map, List.getElem?_range hn, List.nil_append, ← List.map_take, List.take_range, min_eq_left (by omega)]
      rfl
    · rw [List.getElem?_eq_none (by rw [h2]; simp; omega), List.getElem?_eq_none (by simp; omega)]
  intro x x'
  refine ⟨_, _, key x, key x', fun n hn => hg _ _ (by simp) ?_⟩
  unfold window lastN
  have hl : ∀ x : ℕ → ι, (List.replicate N e ++ (List.range (n + 1)).map x).length - N = n + 1 := fun x => by simp
  rw [hl, hl]
  apply List.ext_getElem?
  intro i
  rw [List.getElem?_drop, List.getElem?_drop, List.getElem?_append, List.getElem?_append]
  simp only [List.length_replicate]
  split_ifs with hi
  · rfl
  · rw [List.getElem?_map, List.getElem?_map]
    by_cases hj : n + 1 + i - N < n + 1
    · rw [List.getElem?_range hj, Option.map_some, Option.map_some, hn _ (by omega) (by omega)]
    · rw [List.getElem?_eq_none (by simp; omega)]
      rfl

/-- Filters that are known for every input. -/
theorem memory_of_known {σ ι ω : Type} (step : σ → ι → M (σ × ω)) (s : σ) (N : ℕ) (st : (ℕ → ι) → ℕ → σ) (y : (ℕ → ι) → ℕ → ω) (h0 : ∀ x, st x 0 = s) (h : ∀ x t, step (st x t) (x t) = .ok (st x (t + 1), y x t))
    (hy : ∀ x x' n, (∀ j, j ≤ n → n < j + N → x j = x' j) → y x n = y x' n) : Memory step s N := by
  intro x x'
  have := fun x T => run_known step x (st x) (y x) (h x) T
  simp only [h0] at this
  exact ⟨y x, y x', fun T => ⟨_, this x T⟩, fun T => ⟨_, this x' T⟩, fun n hn => hy x x' n hn⟩

end Spec

open Spec

/-- The contents of a ring after `n` inputs. -/
def ringOf {α : Type} (NUM n : ℕ) (w : List α) : List α := w.rotate (NUM - n % NUM)

theorem Delay.Rep.buf_eq {α : Type} {NUM n : ℕ} {d : Delay α} {w : List α} (h : Delay.Rep NUM d w) (hn : d.pos = (n % NUM : ℕ)) : d.buf = ringOf NUM n w := by
  have hN : 0 < NUM := by have := h.pos0; have := h.pos1; omega
  have hlt := Nat.mod_lt n hN
  rw [ringOf, h.rotate, hn, Int.toNat_natCast, List.rotate_rotate, Nat.add_sub_cancel' hlt.le, ← h.len, List.rotate_length]

theorem ring_next (NUM n : ℕ) (hN : 0 < NUM) (i : ℤ) (hi : i = (n % NUM : ℕ)) : (if i + 1 ≥ (NUM : ℤ) then 0 else i + 1) = (((n + 1) % NUM : ℕ) : ℤ) := by
  have hlt := Nat.mod_lt n hN
  have e : (n + 1) % NUM = if n % NUM + 1 = NUM then 0 else n % NUM + 1 := by
    rw [Nat.add_mod]
    rcases Nat.lt_or_ge 1 NUM with h1 | h1
    · rw [Nat.mod_eq_of_lt h1]
      split_ifs with h
      · rw [h, Nat.mod_self]
      · rw [Nat.mod_eq_of_lt (by omega)]
    · have : NUM = 1 := by omega
      subst this
      simp [Nat.mod_one]
  rw [e]
  subst hi
  split_ifs <;> omega

namespace SMA1

/-- The sum of the first loop. -/
def sumAll {α : Type} [Add α] [Zero α] : List α → α
  | [] => 0
  | x :: xs => xs.foldl (· + ·) x

theorem sumLoop_foldl {α : Type} [Add α] (a : List α) (n i : ℕ) (s : α) (h : i + n = a.length) : sumLoop id a n i s = .ok ((a.drop i).foldl (· + ·) s) := by
  induction n generalizing i s with
  | zero => rw [List.drop_eq_nil_of_le (by omega)]; rfl
  | succ n ih =>
    have hi : i < a.length := by omega
    unfold sumLoop
    rw [rd_nat hi, List.drop_eq_getElem_cons hi, List.foldl_cons]
    have := ih (i + 1) (s + id a[i]) (by omega)
    push_cast at this
    exact this

/-- The ring after the inputs `h`. -/
def After {α : Type} [Zero α] (NUM : ℕ) (s : SMA1 α) (h : List α) : Prop := Delay.Rep NUM s.ring (window NUM 0 h) ∧ s.histPos = (h.length % NUM : ℕ)

theorem after_init {α : Type} [Zero α] (NUM : ℕ) (hN : 0 < NUM) : After NUM (SMA1.init NUM : SMA1 α) [] := ⟨by rw [window_nil]; exact Delay.Rep.init hN 0, by simp [SMA1.init]⟩

theorem after_call {α : Type} [Add α] [Zero α] (divN : α → α) (NUM : ℕ) (hN : 0 < NUM) (s : SMA1 α) (h : List α) (x : α) (hs : After NUM s h) :
    ∃ s', s.call divN x = .ok (s', divN (sumAll (ringOf NUM (h ++ [x]).length (window NUM 0 (h ++ [x]))))) ∧ After NUM s' (h ++ [x]) := by
  obtain ⟨hr, hp⟩ := hs
  obtain ⟨d', y, e1, h1, -, -⟩ := hr.step hN x
  obtain ⟨buf, ew, rfl⟩ := Delay.call_inv e1
  have hnum : s.num = NUM := hr.num
  have hpos : (if s.histPos + 1 ≥ (s.num : ℤ) then 0 else s.histPos + 1) = (((h ++ [x]).length % NUM : ℕ) : ℤ) := by
    rw [hnum, List.length_append]; exact ring_next NUM h.length hN _ hp
  have hbuf : buf = ringOf NUM (h ++ [x]).length (window NUM 0 (h ++ [x])) := h1.buf_eq hpos
  simp only [ring] at ew h1
  have hlen : buf.length = NUM := h1.len
  obtain ⟨v, b, rfl⟩ : ∃ v b, buf = v :: b := by
    cases buf with
    | nil => simp at hlen; omega
    | cons v b => exact ⟨v, b, rfl⟩
  have h0 : rd (v :: b) 0 = .ok v := rfl
  have hall := sumLoop_foldl (v :: b) (NUM - 1) 1 v (by simp at hlen ⊢; omega)
  rw [← hbuf]
  refine ⟨SMA1.mk s.num (v :: b) (divN (sumAll (v :: b))) (if s.histPos + 1 ≥ (s.num : ℤ) then 0 else s.histPos + 1), ?_, h1, hpos⟩
  push_cast at hall
  simp only [SMA1.call, ew, bind, Except.bind, h0, hnum, hall, pure, Except.pure]
  rfl

/-- **C96** The moving average that sums its window anew for every output. -/
theorem C96_sma1 {α : Type} [Add α] [Zero α] (divN : α → α) (NUM : ℕ) (hN : 0 < NUM) : Memory (SMA1.call divN) (SMA1.init NUM) NUM :=
  memory_of_inv _ _ NUM 0 (After NUM) (fun h => divN (sumAll (ringOf NUM h.length (window NUM 0 h)))) (after_init NUM hN) (fun s h x hs => after_call divN NUM hN s h x hs)
    fun h h' hl hw => by rw [hl, hw]

end SMA1

namespace SMA4

/-- The tree after the inputs `h`. -/
def After {α : Type} [Add α] [Zero α] (NUM : ℕ) (s : SWA α) (h : List α) : Prop := SWA.Rep (· + ·) NUM s (window NUM 0 h) ∧ s.leaf = NUM + h.length % NUM

/-- The sum of the tree with the leaves `b`. -/
def sumTree {α : Type} [Add α] [Zero α] (NUM : ℕ) (b : List α) : α := SWA.eval (· + ·) NUM (fun i => b.getD (i - NUM) 0) 1

theorem after_call {α : Type} [Add α] [Zero α] (hc : ∀ a b : α, a + b = b + a) (norm : Bool) (divN : α → α) (NUM : ℕ) (hN : 0 < NUM) (s : SWA α) (h : List α) (x : α) (hs : After NUM s h) :
    ∃ s', SMA4.call norm divN s x = .ok (s', let y := sumTree NUM (ringOf NUM (h ++ [x]).length (window NUM 0 (h ++ [x]))); if norm then divN y else y) ∧ After NUM s' (h ++ [x]) := by
  obtain ⟨hr, hp⟩ := hs
  obtain ⟨s', f, e, hr', hf, hl⟩ := hr.call hc hN x
  rw [← window_append NUM hN] at hr'
  have hleaf : s'.leaf = NUM + (h ++ [x]).length % NUM := by
    have := ring_next NUM h.length hN _ rfl
    rw [List.length_append, List.length_singleton, hl, hp]
    split_ifs with h1
    · rw [if_pos (by omega)] at this; omega
    · rw [if_neg (by omega)] at this; omega
  refine ⟨s', ?_, hr', hleaf⟩
  have hbuf : s'.tree.drop NUM = ringOf NUM (h ++ [x]).length (window NUM 0 (h ++ [x])) := by
    have := hr'.leaves.buf_eq (n := (h ++ [x]).length) (by simp only [SWA.ring, hr'.num, hleaf]; push_cast; ring)
    rw [← this]
    simp only [SWA.ring, hr'.num]
  have he : SWA.eval (· + ·) NUM f 1 = sumTree NUM (ringOf NUM (h ++ [x]).length (window NUM 0 (h ++ [x]))) := by
    refine SWA.eval_congr (fun i h1 h2 => ?_) 1 le_rfl (by omega)
    rw [← hbuf, List.getD_eq_getElem?_getD, List.getElem?_drop, show NUM + (i - NUM) = i by omega, hf.2 i h2]
    rfl
  simp only [SMA4.call, e, bind, Except.bind, pure, Except.pure, he]

theorem after_init {α : Type} [Add α] [Zero α] (h00 : (0 : α) + 0 = 0) (NUM : ℕ) (hN : 0 < NUM) : After NUM (SMA4.init NUM : SWA α) [] :=
  ⟨by rw [window_nil]; exact SWA.Rep.init hN 0 h00, by simp [SMA4.init, SWA.init]⟩

/-- **C96** The moving average with a tree of sums, for commutative additions. -/
theorem C96_sma4 {α : Type} [Add α] [Zero α] (hc : ∀ a b : α, a + b = b + a) (h00 : (0 : α) + 0 = 0) (norm : Bool) (divN : α → α) (NUM : ℕ) (hN : 0 < NUM) :
    Memory (SMA4.call norm divN) (SMA4.init NUM) NUM :=
  memory_of_inv _ _ NUM 0 (After NUM) (fun h => let y := sumTree NUM (ringOf NUM h.length (window NUM 0 h)); if norm then divN y else y) (after_init h00 NUM hN)
    (fun s h x hs => after_call hc norm divN NUM hN s h x hs) fun h h' hl hw => by simp only [hl, hw]

end SMA4

theorem Ieee.add_comm {F : Format} (a b : Ieee F) : a + b = b + a := by
  cases a with
  | nan => cases b <;> rfl
  | inf s =>
    cases b with
    | nan => rfl
    | inf t =>
      show (if s = t then inf s else nan : Ieee F) = (if t = s then inf t else nan : Ieee F)
      by_cases h : s = t
      · rw [if_pos h, if_pos h.symm, h]
      · rw [if_neg h, if_neg (Ne.symm h)]
    | num t b => rfl
  | num s a =>
    cases b with
    | nan => rfl
    | inf t => rfl
    | num t b =>
      show (let x := signed s a + signed t b; if x = 0 then num (s && t) 0 else pack (decide (x < 0)) x : Ieee F) = (let x := signed t b + signed s a; if x = 0 then num (t && s) 0 else pack (decide (x < 0)) x : Ieee F)
      simp only []
      rw [_root_.add_comm (signed t b), Bool.and_comm]

theorem Ieee.zero_add_zero {F : Format} : (0 : Ieee F) + 0 = 0 := by
  show (let x := signed false 0 + signed false 0; if x = 0 then num (false && false) 0 else pack (decide (x < 0)) x : Ieee F) = num false 0
  simp [signed]

/-- **C96** The latter in IEEE arithmetic, where the former spoils all outputs of the running sums (C95). -/
theorem Ieee.C96_sma4 (F : Format) (norm : Bool) (NUM : ℕ) (hN : 0 < NUM) : Memory (SMA4.call norm fun s => s / ((NUM : ℤ) : Ieee F)) (SMA4.init NUM) NUM :=
  SMA4.C96_sma4 Ieee.add_comm Ieee.zero_add_zero norm _ NUM hN

/-- Four outputs behind a NaN the average over four samples is that of a signal that never had it. -/
example (x x' : ℕ → Ieee Format.single) (hx : x 0 = .nan) (hx' : x' 0 = 0) (h : ∀ j, 1 ≤ j → x j = x' j) : ∃ y y' : ℕ → Ieee Format.single,
    (∀ T, ∃ t, run (SMA4.call true fun s => s / (((4 : ℕ) : ℤ) : Ieee Format.single)) (SMA4.init 4) ((List.range T).map x) = .ok (t, (List.range T).map y)) ∧
    (∀ T, ∃ t, run (SMA4.call true fun s => s / (((4 : ℕ) : ℤ) : Ieee Format.single)) (SMA4.init 4) ((List.range T).map x') = .ok (t, (List.range T).map y')) ∧ x 0 ≠ x' 0 ∧ ∀ n, 4 ≤ n → y n = y' n := by
  obtain ⟨y, y', h1, h2, h3⟩ := Ieee.C96_sma4 Format.single true 4 (by norm_num) x x'
  exact ⟨y, y', h1, h2, by rw [hx, hx']; exact nofun, fun n hn => h3 n fun j _ hj => h j (by omega)⟩

theorem leftSum_congr {V : Type} [Add V] {f g : ℕ → V} {m : ℕ} (hm : 1 ≤ m) (h : ∀ i < m, f i = g i) : leftSum f m = leftSum g m := by
  have : ∀ k, k < m → leftSum f (k + 1) = leftSum g (k + 1) := by
    intro k
    induction k with
    | zero => intro hk; exact h 0 hk
    | succ k ih =>
      intro hk
      have := ih (by omega)
      simp only [leftSum, Nat.add_sub_cancel, List.range_succ, List.foldl_append, List.foldl_cons, List.foldl_nil] at this ⊢
      rw [this, h (k + 1) hk]
  have := this (m - 1) (by omega)
  rwa [Nat.sub_add_cancel hm] at this

theorem past_start {V : Type} [Zero V] (x : ℕ → V) (n : ℕ) : ((List.range n).map fun (j : ℕ) => past x (((0 : ℕ) : ℤ) - n + j)) = List.replicate n 0 := by
  apply List.ext_getElem
  · simp
  · intro i h1 h2
    rw [List.getElem_map, List.getElem_range, List.getElem_replicate, past, if_neg]
    simp at h2
    omega

theorem past_congr {V : Type} [Zero V] {x x' : ℕ → V} {j : ℤ} (h : 0 ≤ j → x j.toNat = x' j.toNat) : past x j = past x' j := by
  unfold past
  split_ifs with h0
  · exact h h0
  · rfl

namespace Hilbert

/-- **C96** The Hilbert transformer with any coefficients. -/
theorem C96_hilbert {V : Type} [Zero V] [Add V] [Sub V] [Mul V] [Neg V] (m : ℕ) (hm : 1 ≤ m) (c : ℕ → V) (one : V) :
    Memory (Rounded.call (4 * m + 1)) ⟨List.replicate (4 * m + 1) 0, (List.range m).map c, one⟩ (4 * m + 1) := by
  refine memory_of_known _ _ _ (Rounded.state m c one) _ (fun x => ?_) (fun x t => Rounded.call_ok hm c one x t) ?_
  · simp only [Rounded.state, past_start]
  · intro x x' n h
    have hp : ∀ j : ℤ, j ≤ n → (n : ℤ) < j + (4 * m + 1 : ℕ) → past x j = past x' j := fun j h1 h2 => past_congr fun _ => h j.toNat (by omega) (by omega)
    have ht : ∀ i < m, Rounded.terms m c x n i = Rounded.terms m c x' n i := by
      intro i hi
      unfold Rounded.terms
      rw [hp _ (by omega) (by omega), hp _ (by omega) (by omega)]
    rw [hp _ (by omega) (by omega), leftSum_congr hm ht]

end Hilbert

namespace CDC

/-- **C96** The digital down converter with any coefficients. -/
theorem C96_cdc {V : Type} [Zero V] [Add V] [Sub V] [Mul V] [Neg V] (m : ℕ) (hm : 1 ≤ m) (c : ℕ → V) (half : V) :
    Memory (Rounded.call (4 * m + 1)) ⟨List.replicate m 0, List.replicate (2 * m) 0, (List.range m).map c, half, false⟩ (2 * m) := by
  refine memory_of_known _ _ _ (fun x => Rounded.state m c half fun n => if n % 2 = 0 then (x (n / 2)).1 else (x (n / 2)).2)
    (fun x t => (half * past (Rounded.alt fun n => if (2 * n + 1) % 2 = 0 then (x ((2 * n + 1) / 2)).1 else (x ((2 * n + 1) / 2)).2) ((t : ℤ) - m),
      leftSum (Rounded.terms m c (fun n => if n % 2 = 0 then (x (n / 2)).1 else (x (n / 2)).2) t) m)) (fun x => ?_) (fun x t => ?_) ?_
  · simp only [Rounded.state]
    congr 1
    · exact past_start _ m
    · exact past_start _ (2 * m)
  · have := Rounded.call_ok hm c half (fun n => if n % 2 = 0 then (x (n / 2)).1 else (x (n / 2)).2) t
    have e1 : (if 2 * t % 2 = 0 then (x (2 * t / 2)).1 else (x (2 * t / 2)).2) = (x t).1 := by rw [if_pos (by omega), Nat.mul_div_cancel_left t two_pos]
    have e2 : (if (2 * t + 1) % 2 = 0 then (x ((2 * t + 1) / 2)).1 else (x ((2 * t + 1) / 2)).2) = (x t).2 := by rw [if_neg (by omega), show (2 * t + 1) / 2 = t by omega]
    simp only [e1, e2] at this
    exact this
  · intro x x' n h
    have h1 : ∀ j : ℤ, j ≤ n → (n : ℤ) < j + (2 * m : ℕ) → past (Rounded.alt fun n => if 2 * n % 2 = 0 then (x (2 * n / 2)).1 else (x (2 * n / 2)).2) j = past (Rounded.alt fun n => if 2 * n % 2 = 0 then (x' (2 * n / 2)).1 else (x' (2 * n / 2)).2) j := by
      intro j h1 h2
      refine past_congr fun h0 => ?_
      simp only [Rounded.alt, Nat.mul_mod_right, if_true, Nat.mul_div_cancel_left _ two_pos]
      rw [h j.toNat (by omega) (by omega)]
    have h2 : ∀ j : ℤ, j ≤ n → (n : ℤ) < j + (2 * m : ℕ) → past (Rounded.alt fun n => if (2 * n + 1) % 2 = 0 then (x ((2 * n + 1) / 2)).1 else (x ((2 * n + 1) / 2)).2) j = past (Rounded.alt fun n => if (2 * n + 1) % 2 = 0 then (x' ((2 * n + 1) / 2)).1 else (x' ((2 * n + 1) / 2)).2) j := by
      intro j h1 h2
      refine past_congr fun h0 => ?_
      simp only [Rounded.alt, show ∀ n, (2 * n + 1) / 2 = n from fun n => by omega]
      rw [h j.toNat (by omega) (by omega)]
    have ht : ∀ i < m, Rounded.terms m c (fun n => if n % 2 = 0 then (x (n / 2)).1 else (x (n / 2)).2) n i = Rounded.terms m c (fun n => if n % 2 = 0 then (x' (n / 2)).1 else (x' (n / 2)).2) n i := by
      intro i hi
      unfold Rounded.terms
      rw [h1 _ (by omega) (by omega), h1 _ (by omega) (by omega)]
    rw [h2 _ (by omega) (by omega), leftSum_congr hm ht]

end CDC

/-- **C96** The differentiator. -/
theorem C96_differentiator {V : Type} [Sub V] (prev : V) : Memory (fun s x => .ok (differentiator s x)) prev 2 := by
  refine memory_of_known _ _ 2 (fun x t => if t = 0 then prev else x (t - 1)) (fun x t => x t - if t = 0 then prev else x (t - 1)) (fun x => if_pos rfl) (fun x t => ?_) ?_
  · simp [differentiator]
  · intro x x' n h
    simp only [h n le_rfl (by omega)]
    split_ifs
    · rfl
    · rw [h (n - 1) (by omega) (by omega)]

/-- A Hilbert transformer with nine taps forgets an infinity with the ninth output behind it. -/
example (c : ℕ → Ieee Format.single) (one : Ieee Format.single) (x x' : ℕ → Ieee Format.single) (hx : x 0 = .inf true) (hx' : x' 0 = 0) (h : ∀ j, 1 ≤ j → x j = x' j) : ∃ y y' : ℕ → Ieee Format.single × Ieee Format.single,
    (∀ T, ∃ t, run (Hilbert.Rounded.call (4 * 2 + 1)) ⟨List.replicate (4 * 2 + 1) 0, (List.range 2).map c, one⟩ ((List.range T).map x) = .ok (t, (List.range T).map y)) ∧
    (∀ T, ∃ t, run (Hilbert.Rounded.call (4 * 2 + 1)) ⟨List.replicate (4 * 2 + 1) 0, (List.range 2).map c, one⟩ ((List.range T).map x') = .ok (t, (List.range T).map y')) ∧ x 0 ≠ x' 0 ∧ ∀ n, 9 ≤ n → y n = y' n := by
  obtain ⟨y, y', h1, h2, h3⟩ := Hilbert.C96_hilbert 2 (by norm_num) c one x x'
  exact ⟨y, y', h1, h2, by rw [hx, hx']; exact nofun, fun n hn => h3 n fun j _ hj => h j (by omega)⟩

end DSP
