import Verif.Props.SMA
import Verif.Props.KahanError
import Verif.Lemmas.BinaryRounded
import Mathlib.Data.Nat.Log

/-!
# C71: moving averages in rounded arithmetic
-/

namespace DSP

open Spec (window lastN Rounded RoundedField)

namespace Spec

/-- A division by `n` with a relative error of at most `u`. -/
def RoundedDivN {α : Type} (val : α → ℝ) (u : ℝ) (n : ℕ) (f : α → α) : Prop := ∀ a, |val (f a) - val a / n| ≤ u * |val a / n|

/-- The sum of the last `NUM` of the first `n + 1` inputs. -/
def windowSum {α : Type} (val : α → ℝ) (NUM : ℕ) (xs : List α) (n : ℕ) : ℝ := ((lastN NUM (xs.take (n + 1))).map val).sum

/-- The sum over all of the first `n + 1` inputs. -/
def totalSum {α : Type} (val : α → ℝ) (xs : List α) (n : ℕ) : ℝ := ((xs.take (n + 1)).map val).sum

/-- The mean over `NUM`, or just the sum. -/
noncomputable def mean (norm : Bool) (NUM : ℕ) (s : ℝ) : ℝ := if norm then s / NUM else s

end Spec

open Spec

set_option linter.unusedSectionVars false

namespace SMAError

section

variable {V : Type} [Zero V] [Add V] [Sub V] {val : V → ℝ} {u : ℝ} (hR : Rounded V val u) (hu0 : 0 ≤ u)

theorem abs_sum_map_le (xs : List V) : |(xs.map val).sum| ≤ (xs.map fun x => |val x|).sum := by
  induction xs with
  | nil => simp
  | cons x xs ih =>
    simp only [List.map_cons, List.sum_cons]
    exact (abs_add_le _ _).trans (by linarith)

theorem sum_abs_nonneg (xs : List V) : 0 ≤ (xs.map fun x => |val x|).sum := (abs_nonneg _).trans (abs_sum_map_le xs)

include hu0 in
/-- The last division adds one rounding. -/
theorem mean_error {NUM : ℕ} {divN : V → V} (hd : RoundedDivN val u NUM divN) (norm : Bool) (s : V) (S B W C : ℝ) (h : |val s - S| ≤ B) (hW : |S| ≤ W)
    (hC : (1 + u) * B + u * W ≤ C) : |val (if norm then divN s else s) - mean norm NUM S| ≤ mean norm NUM C := by
  have hB : 0 ≤ B := (abs_nonneg _).trans h
  have hW0 : 0 ≤ W := (abs_nonneg _).trans hW
  have hs : |val s| ≤ W + B := by
    calc |val s| = |(val s - S) + S| := by congr 1; ring
      _ ≤ _ := abs_add_le _ _
      _ ≤ _ := by linarith
  cases norm with
  | false =>
    simp only [mean, Bool.false_eq_true, if_false]
    nlinarith [mul_nonneg hu0 hB, mul_nonneg hu0 hW0]
  | true =>
    simp only [mean, if_true]
    have n0 : (0 : ℝ) ≤ NUM := Nat.cast_nonneg _
    have e := hd s
    rw [abs_div, abs_of_nonneg n0] at e
    calc |val (divN s) - S / NUM| = |(val (divN s) - val s / NUM) + (val s - S) / NUM| := by congr 1; ring
      _ ≤ _ := abs_add_le _ _
      _ ≤ u * ((W + B) / NUM) + B / NUM := by
        refine add_le_add (e.trans (by gcongr)) ?_
        rw [abs_div, abs_of_nonneg n0]
        gcongr
      _ = ((1 + u) * B + u * W) / NUM := by ring
      _ ≤ _ := by gcongr

/-! ### SMA1 -/

include hR hu0 in
theorem sumLoop_error (a : List V) (n : ℕ) : ∀ (i : ℕ) (s : V), i + n = a.length → ∃ r, SMA1.sumLoop id a n i s = .ok r ∧
    |val r - (val s + ((a.drop i).map val).sum)| ≤ ((1 + u) ^ n - 1) * (|val s| + ((a.drop i).map fun x => |val x|).sum) := by
  induction n with
  | zero =>
    intro i s h
    rw [List.drop_eq_nil_of_le (by omega)]
    exact ⟨s, by simp [SMA1.sumLoop, pure, Except.pure], by simp⟩
  | succ n ih =>
    intro i s h
    have h1 : rd a (i : Int) = .ok a[i] := rd_nat (by omega)
    obtain ⟨r, e, hr⟩ := ih (i + 1) (s + a[i]) (by omega)
    push_cast at e
    refine ⟨r, by simp only [SMA1.sumLoop, h1, bind, Except.bind, id_eq, e], ?_⟩
    rw [List.drop_eq_getElem_cons (show i < a.length by omega), List.map_cons, List.map_cons, List.sum_cons, List.sum_cons]
    set A := ((a.drop (i + 1)).map fun x => |val x|).sum with hA
    set S := ((a.drop (i + 1)).map val).sum
    have hA0 : 0 ≤ A := sum_abs_nonneg _
    have hadd := hR.add s a[i]
    have hs : |val s + val a[i]| ≤ |val s| + |val a[i]| := abs_add_le _ _
    have hv : |val (s + a[i])| ≤ (1 + u) * (|val s| + |val a[i]|) := by
      calc |val (s + a[i])| = |(val (s + a[i]) - (val s + val a[i])) + (val s + val a[i])| := by congr 1; ring
        _ ≤ _ := abs_add_le _ _
        _ ≤ u * |val s + val a[i]| + |val s + val a[i]| := add_le_add hadd le_rfl
        _ = (1 + u) * |val s + val a[i]| := by ring
        _ ≤ _ := by gcongr
    have hp : 1 ≤ (1 + u) ^ n := one_le_pow₀ (by linarith)
    calc |val r - (val s + (val a[i] + S))| = |(val r - (val (s + a[i]) + S)) + (val (s + a[i]) - (val s + val a[i]))| := by congr 1; ring
      _ ≤ _ := abs_add_le _ _
      _ ≤ ((1 + u) ^ n - 1) * ((1 + u) * (|val s| + |val a[i]|) + A) + u * (|val s| + |val a[i]|) := by
        refine add_le_add (hr.trans ?_) (hadd.trans (by gcongr))
        gcongr
      _ = ((1 + u) ^ (n + 1) - 1) * (|val s| + |val a[i]|) + ((1 + u) ^ n - 1) * A := by ring
      _ ≤ ((1 + u) ^ (n + 1) - 1) * (|val s| + |val a[i]|) + ((1 + u) ^ (n + 1) - 1) * A := by
        gcongr
        · linarith
        · omega
      _ = _ := by ring

theorem window_map (g : V → ℝ) (hg : g 0 = 0) (NUM : ℕ) (h : List V) : ((window NUM 0 h).map g).sum = ((lastN NUM h).map g).sum := by
  rw [Spec.window_eq, List.map_append, List.sum_append, List.map_replicate, hg]
  simp

include hR hu0 in
theorem sma1_call {NUM : ℕ} (hN : 0 < NUM) {divN : V → V} {s : SMA1 V} {h : List V} (hr : Delay.Rep NUM s.ring (window NUM 0 h)) (x : V) :
    ∃ s' t, s.call divN x = .ok (s', divN t) ∧ Delay.Rep NUM s'.ring (window NUM 0 (h ++ [x])) ∧
      |val t - ((lastN NUM (h ++ [x])).map val).sum| ≤ ((1 + u) ^ (NUM - 1) - 1) * ((lastN NUM (h ++ [x])).map fun x => |val x|).sum := by
  obtain ⟨d', y, e1, h1, -, -⟩ := hr.step hN x
  obtain ⟨buf, ew, rfl⟩ := Delay.call_inv e1
  simp only [SMA1.ring] at ew h1
  have hlen : buf.length = NUM := h1.len
  have hnum : s.num = NUM := hr.num
  have h0 : rd buf 0 = .ok buf[0] := rd_nat (i := 0) (by omega)
  obtain ⟨t, et, ht⟩ := sumLoop_error hR hu0 buf (NUM - 1) 1 buf[0] (by omega)
  refine ⟨SMA1.mk s.num buf (divN t) (if s.histPos + 1 ≥ (s.num : Int) then 0 else s.histPos + 1), t, ?_, h1, ?_⟩
  · simp only [Nat.cast_one] at et
    simp only [SMA1.call, ew, bind, Except.bind, h0, hnum, et, pure, Except.pure]
  · have e2 : ∀ g : V → ℝ, g buf[0] + ((buf.drop 1).map g).sum = (buf.map g).sum := by
      intro g
      conv_rhs => rw [← List.drop_zero (l := buf), List.drop_eq_getElem_cons (show 0 < buf.length by omega)]
      simp
    rw [e2 val, e2 fun x => |val x|] at ht
    have e3 : ∀ g : V → ℝ, g 0 = 0 → (buf.map g).sum = ((lastN NUM (h ++ [x])).map g).sum := fun g hg => by
      rw [← window_map g hg]; exact ((h1.perm.map g).sum_eq).symm
    rwa [e3 val hR.zero, e3 (fun x => |val x|) (by rw [hR.zero, abs_zero])] at ht

include hR hu0 in
/-- **C71** for `SMA1`: one rounding per addition and one for the division, whatever came before the window. -/
theorem C71_sma1 (NUM : ℕ) (hN : 0 < NUM) {divN : V → V} (hd : RoundedDivN val u NUM divN) (xs : List V) :
    ∃ ys, trace (SMA1.call divN) (SMA1.init NUM) xs = (ys, none) ∧ ys.length = xs.length ∧ ∀ n, n < xs.length → ∃ y, ys[n]? = some y ∧
      |val y - windowSum val NUM xs n / NUM| ≤ ((1 + u) ^ NUM - 1) * windowSum (fun x => |val x|) NUM xs n / NUM := by
  obtain ⟨s', ys, -, et, -, hl, hp⟩ := run_of_inv (step := SMA1.call divN) (fun s h => Delay.Rep NUM s.ring (window NUM 0 h))
    (fun h y => |val y - ((lastN NUM h).map val).sum / NUM| ≤ ((1 + u) ^ NUM - 1) * ((lastN NUM h).map fun x => |val x|).sum / NUM) (fun _ => True) (by
      intro s h x hr _
      obtain ⟨s', t, e1, h1, h2⟩ := sma1_call hR hu0 hN hr x
      refine ⟨s', _, e1, h1, ?_⟩
      have := mean_error hu0 hd true t _ _ _ (((1 + u) ^ NUM - 1) * ((lastN NUM (h ++ [x])).map fun x => |val x|).sum) h2 (abs_sum_map_le _) (by
        apply le_of_eq
        rw [show (1 + u) ^ NUM = (1 + u) ^ (NUM - 1) * (1 + u) by rw [← pow_succ, Nat.sub_add_cancel hN]]
        ring)
      simpa [mean] using this)
    (s := SMA1.init NUM) (h := []) (by rw [Spec.window_nil]; exact Delay.Rep.init hN 0) xs (fun _ _ => trivial)
  exact ⟨ys, et, hl, by simpa [windowSum] using hp⟩

/-! ### SMA4 -/

include hR hu0 in
theorem eval_error (NUM : ℕ) (f : ℕ → V) (d : ℕ) : ∀ i, 1 ≤ i → NUM ≤ i * 2 ^ d →
    |val (SWA.eval (· + ·) NUM f i) - SWA.eval (· + ·) NUM (fun j => val (f j)) i| ≤ ((1 + u) ^ d - 1) * SWA.eval (· + ·) NUM (fun j => |val (f j)|) i ∧
      |SWA.eval (· + ·) NUM (fun j => val (f j)) i| ≤ SWA.eval (· + ·) NUM (fun j => |val (f j)|) i := by
  induction d with
  | zero =>
    intro i _ h
    rw [pow_zero, mul_one] at h
    rw [SWA.eval_leaf _ _ _ _ h, SWA.eval_leaf _ _ _ _ h, SWA.eval_leaf _ _ _ _ h]
    simp
  | succ d ih =>
    intro i hi h
    by_cases hl : NUM ≤ i
    · rw [SWA.eval_leaf _ _ _ _ hl, SWA.eval_leaf _ _ _ _ hl, SWA.eval_leaf _ _ _ _ hl]
      have hp : 1 ≤ (1 + u) ^ (d + 1) := one_le_pow₀ (by linarith)
      refine ⟨?_, le_rfl⟩
      rw [sub_self, abs_zero]
      exact mul_nonneg (by linarith) (abs_nonneg _)
    · rw [SWA.eval_node _ _ _ _ hi (by omega), SWA.eval_node _ _ _ _ hi (by omega), SWA.eval_node _ _ _ _ hi (by omega)]
      have hpow : i * 2 ^ (d + 1) = 2 * i * 2 ^ d := by ring
      obtain ⟨a1, a2⟩ := ih (2 * i) (by omega) (by omega)
      obtain ⟨b1, b2⟩ := ih (2 * i + 1) (by omega) (by rw [hpow] at h; exact h.trans (Nat.mul_le_mul_right _ (by omega)))
      have hadd := hR.add (SWA.eval (· + ·) NUM f (2 * i)) (SWA.eval (· + ·) NUM f (2 * i + 1))
      generalize SWA.eval (· + ·) NUM f (2 * i) = a at *
      generalize SWA.eval (· + ·) NUM f (2 * i + 1) = b at *
      generalize SWA.eval (· + ·) NUM (fun j => val (f j)) (2 * i) = A at *
      generalize SWA.eval (· + ·) NUM (fun j => val (f j)) (2 * i + 1) = B at *
      generalize SWA.eval (· + ·) NUM (fun j => |val (f j)|) (2 * i) = A' at *
      generalize SWA.eval (· + ·) NUM (fun j => |val (f j)|) (2 * i + 1) = B' at *
      refine ⟨?_, (abs_add_le _ _).trans (by linarith)⟩
      have hab : |(val a + val b) - (A + B)| ≤ ((1 + u) ^ d - 1) * (A' + B') := by
        calc _ = |(val a - A) + (val b - B)| := by congr 1; ring
          _ ≤ _ := abs_add_le _ _
          _ ≤ _ := by linarith
      have hs : |val a + val b| ≤ (1 + u) ^ d * (A' + B') := by
        calc _ = |((val a + val b) - (A + B)) + (A + B)| := by congr 1; ring
          _ ≤ _ := abs_add_le _ _
          _ ≤ ((1 + u) ^ d - 1) * (A' + B') + (A' + B') := add_le_add hab ((abs_add_le _ _).trans (by linarith))
          _ = _ := by ring
      calc |val (a + b) - (A + B)| = |(val (a + b) - (val a + val b)) + ((val a + val b) - (A + B))| := by congr 1; ring
        _ ≤ _ := abs_add_le _ _
        _ ≤ u * ((1 + u) ^ d * (A' + B')) + ((1 + u) ^ d - 1) * (A' + B') := add_le_add (hadd.trans (by gcongr)) hab
        _ = _ := by ring

theorem eval_sum (g : V → ℝ) {NUM : ℕ} (hN : 0 < NUM) {s : SWA V} {w : List V} {f : ℕ → V} (h : SWA.Rep (· + ·) NUM s w) (hf : SWA.Holds (2 * NUM) s.tree f) :
    SWA.eval (· + ·) NUM (fun j => g (f j)) 1 = (w.map g).sum := by
  have e := SWA.eval_prod (α := Multiplicative ℝ) (NUM := NUM) (f := fun j => Multiplicative.ofAdd (g (f j))) NUM hN le_rfl
  have e' : SWA.eval (· + ·) NUM (fun j => g (f j)) 1 = ∑ i ∈ Finset.Ico NUM (2 * NUM), SWA.eval (· + ·) NUM (fun j => g (f j)) i := e
  rw [e', ((h.leaves.perm).map g).sum_eq]
  have hb : s.ring.buf = (List.range NUM).map (fun i => f (NUM + i)) := by
    apply List.ext_getElem?
    intro j
    simp only [SWA.ring, h.num, List.getElem?_drop, List.getElem?_map]
    by_cases hj : j < NUM
    · rw [hf.2 _ (by omega), List.getElem?_range hj]; rfl
    · rw [List.getElem?_eq_none (by rw [hf.1]; omega), List.getElem?_eq_none (by simp; omega)]; rfl
  rw [hb, List.map_map, show ((List.range NUM).map (g ∘ fun i => f (NUM + i))).sum = ∑ i ∈ Finset.range NUM, g (f (NUM + i)) from rfl]
  rw [Finset.sum_Ico_eq_sum_range, show 2 * NUM - NUM = NUM by omega]
  exact Finset.sum_congr rfl fun i _ => SWA.eval_leaf _ _ _ _ (by omega)

include hR hu0 in
/-- **C71** for `SMA4`: one rounding per level of the tree and one for the division, whatever came before the window. -/
theorem C71_sma4 (hc : ∀ a b : V, a + b = b + a) (h0 : (0 : V) + 0 = 0) (NUM : ℕ) (hN : 0 < NUM) {divN : V → V} (hd : RoundedDivN val u NUM divN) (norm : Bool) (xs : List V) :
    ∃ ys, trace (SMA4.call norm divN) (SMA4.init NUM) xs = (ys, none) ∧ ys.length = xs.length ∧ ∀ n, n < xs.length → ∃ y, ys[n]? = some y ∧
      |val y - mean norm NUM (windowSum val NUM xs n)| ≤ mean norm NUM (((1 + u) ^ (Nat.clog 2 NUM + 1) - 1) * windowSum (fun x => |val x|) NUM xs n) := by
  obtain ⟨s', ys, -, et, -, hl, hp⟩ := run_of_inv (step := SMA4.call norm divN) (SWA.Inv (· + ·) NUM (0 : V))
    (fun h y => |val y - mean norm NUM ((lastN NUM h).map val).sum| ≤
      mean norm NUM (((1 + u) ^ (Nat.clog 2 NUM + 1) - 1) * ((lastN NUM h).map fun x => |val x|).sum)) (fun _ => True) (by
      intro s h x hI _
      obtain ⟨s', f, e1, hI', hf⟩ := hI.step hc hN x
      refine ⟨s', _, by simp only [SMA4.call, e1, bind, Except.bind, pure, Except.pure]; rfl, hI', ?_⟩
      have hE := (eval_error hR hu0 NUM f (Nat.clog 2 NUM) 1 le_rfl (by rw [one_mul]; exact Nat.le_pow_clog (by norm_num) NUM)).1
      rw [eval_sum val hN hI'.1 hf, eval_sum (fun x => |val x|) hN hI'.1 hf, window_map val hR.zero, window_map (fun x => |val x|) (by rw [hR.zero, abs_zero])] at hE
      exact mean_error hu0 hd norm _ _ _ _ _ hE (abs_sum_map_le _) (le_of_eq (by ring)))
    (SWA.Inv.init hN h0) xs (fun _ _ => trivial)
  exact ⟨ys, et, hl, by simpa [windowSum] using hp⟩

/-! ### SMA2 -/

/-- Each element of the window still counts as often as its position says. -/
def weigh : ℕ → List ℝ → ℝ
  | _, [] => 0
  | i, a :: l => (i + 1) * a + weigh (i + 1) l

theorem weigh_shift (l : List ℝ) : ∀ i, weigh (i + 1) l = weigh i l + l.sum := by
  induction l with
  | nil => intro i; simp [weigh]
  | cons a l ih => intro i; simp only [weigh, ih (i + 1), List.sum_cons]; push_cast; ring

theorem weigh_append (l : List ℝ) (x : ℝ) : ∀ i, weigh i (l ++ [x]) = weigh i l + (i + l.length + 1) * x := by
  induction l with
  | nil => intro i; simp [weigh]
  | cons a l ih => intro i; simp only [List.cons_append, weigh, ih (i + 1), List.length_cons]; push_cast; ring

theorem weigh_nonneg (l : List ℝ) (h : ∀ x ∈ l, 0 ≤ x) : ∀ i, 0 ≤ weigh i l := by
  induction l with
  | nil => intro i; exact le_rfl
  | cons a l ih =>
    intro i
    have h1 := h a (by simp)
    have h2 := ih (fun x hx => h x (by simp [hx])) (i + 1)
    have : (0 : ℝ) ≤ (i + 1) * a := by positivity
    simp only [weigh]
    linarith

theorem lastN_le (NUM : ℕ) (h : List V) : ((lastN NUM h).map fun x => |val x|).sum ≤ (h.map fun x => |val x|).sum := by
  unfold lastN
  conv_rhs => rw [← List.take_append_drop (h.length - NUM) h, List.map_append, List.sum_append]
  have : 0 ≤ ((h.take (h.length - NUM)).map fun x => |val x|).sum := sum_abs_nonneg _
  linarith

include hu0 in
theorem sma2_step (s S Φ x o S' W' d s' : ℝ) (n : ℕ) (h : |s - S| ≤ (1 + u) ^ (n + 1) * u * Φ) (hS : S' = S + (x - o)) (hW : |S'| ≤ W') (hd : |d - (x - o)| ≤ u * |x - o|)
    (hs : |s' - (s + d)| ≤ u * |s + d|) : |s' - S'| ≤ (1 + u) ^ (n + 1 + 1) * u * (Φ + (|x| + |o| + W')) := by
  have hxo : |x - o| ≤ |x| + |o| := abs_sub _ _
  have hW0 : 0 ≤ W' := (abs_nonneg _).trans hW
  have hp : 1 + u ≤ (1 + u) ^ (n + 1 + 1) := le_self_pow₀ (by linarith) (by omega)
  have h1 : |(s + d) - S'| ≤ (1 + u) ^ (n + 1) * u * Φ + u * (|x| + |o|) := by
    calc _ = |(s - S) + (d - (x - o))| := by rw [hS]; congr 1; ring
      _ ≤ _ := abs_add_le _ _
      _ ≤ _ := add_le_add h (hd.trans (by gcongr))
  have h2 : |s + d| ≤ (1 + u) ^ (n + 1) * u * Φ + u * (|x| + |o|) + W' := by
    calc _ = |((s + d) - S') + S'| := by congr 1; ring
      _ ≤ _ := abs_add_le _ _
      _ ≤ _ := add_le_add h1 hW
  calc |s' - S'| = |(s' - (s + d)) + ((s + d) - S')| := by congr 1; ring
    _ ≤ _ := abs_add_le _ _
    _ ≤ u * ((1 + u) ^ (n + 1) * u * Φ + u * (|x| + |o|) + W') + ((1 + u) ^ (n + 1) * u * Φ + u * (|x| + |o|)) := add_le_add (hs.trans (by gcongr)) h1
    _ = (1 + u) ^ (n + 1 + 1) * u * Φ + (1 + u) * (u * (|x| + |o|)) + u * W' := by ring
    _ ≤ (1 + u) ^ (n + 1 + 1) * u * Φ + (1 + u) ^ (n + 1 + 1) * (u * (|x| + |o|)) + (1 + u) ^ (n + 1 + 1) * (u * W') := by
      have : u * W' ≤ (1 + u) ^ (n + 1 + 1) * (u * W') := le_mul_of_one_le_left (by positivity) (by linarith)
      have : (1 + u) * (u * (|x| + |o|)) ≤ (1 + u) ^ (n + 1 + 1) * (u * (|x| + |o|)) := by gcongr
      linarith
    _ = _ := by ring

include hR hu0 in
/-- **C71** for `SMA2`: the error may grow with every input there ever was, `NUM + 3` roundings for each. -/
theorem C71_sma2 (NUM : ℕ) (hN : 0 < NUM) {divN : V → V} (hd : RoundedDivN val u NUM divN) (norm : Bool) (xs : List V) :
    ∃ ys, trace (SMA2.call (fun a b => .ok (a + b)) (fun a b => .ok (a - b)) norm divN) (SMA2.init NUM) xs = (ys, none) ∧ ys.length = xs.length ∧ ∀ n, n < xs.length → ∃ y, ys[n]? = some y ∧
      |val y - mean norm NUM (windowSum val NUM xs n)| ≤ mean norm NUM ((1 + u) ^ (n + 3) * u * ((NUM + 3) * totalSum (fun x => |val x|) xs n)) := by
  obtain ⟨s', ys, -, et, -, hl, hp⟩ := run_of_inv (step := SMA2.call (fun a b => .ok (a + b)) (fun a b => .ok (a - b)) norm divN)
    (fun s h => Delay.Rep NUM s.delay (window NUM 0 h) ∧ ∃ Φ : ℝ, Φ + weigh 0 ((window NUM 0 h).map fun x => |val x|) = (NUM + 2) * (h.map fun x => |val x|).sum ∧
      |val s.sum - ((window NUM 0 h).map val).sum| ≤ (1 + u) ^ (h.length + 1) * u * Φ)
    (fun h y => |val y - mean norm NUM ((lastN NUM h).map val).sum| ≤ mean norm NUM ((1 + u) ^ (h.length + 2) * u * ((NUM + 3) * (h.map fun x => |val x|).sum))) (fun _ => True) (by
      rintro s h x ⟨hr, Φ, hΦ, he⟩ _
      obtain ⟨d', o, e1, h1, h2, h3⟩ := hr.step hN x
      have hlen := Spec.window_length NUM 0 h
      generalize hw : (window NUM 0 h).tail = t at h2 h3
      have ht : t.length + 1 = NUM := by rw [← hlen, h2]; simp
      have hn : (NUM : ℝ) = t.length + 1 := by rw [← ht]; push_cast; ring
      have hS : ((window NUM 0 (h ++ [x])).map val).sum = ((window NUM 0 h).map val).sum + (val x - val o) := by
        rw [h3, h2]; simp; ring
      have step := sma2_step hu0 (val s.sum) _ Φ (val x) (val o) _ _ (val (x - o)) (val (s.sum + (x - o))) h.length he hS
        (abs_sum_map_le (val := val) (window NUM 0 (h ++ [x]))) (hR.sub _ _) (hR.add _ _)
      have hΦ' : Φ + (|val x| + |val o| + ((window NUM 0 (h ++ [x])).map fun x => |val x|).sum) + weigh 0 ((window NUM 0 (h ++ [x])).map fun x => |val x|) =
          (NUM + 2) * ((h ++ [x]).map fun x => |val x|).sum := by
        rw [h3, List.map_append, List.map_append, List.map_singleton, weigh_append]
        rw [h2, List.map_cons, weigh, weigh_shift] at hΦ
        simp only [List.sum_append, List.sum_singleton, List.length_map]
        rw [mul_add, ← hΦ, hn]
        push_cast
        ring
      refine ⟨_, _, by simp only [SMA2.call, e1, bind, Except.bind, pure, Except.pure]; rfl, ⟨h1, _, hΦ', by simpa using step⟩, ?_⟩
      have hpos : 0 ≤ weigh 0 ((window NUM 0 (h ++ [x])).map fun x => |val x|) := weigh_nonneg _ (by
        intro y hy
        obtain ⟨z, -, rfl⟩ := List.mem_map.mp hy
        exact abs_nonneg _) 0
      have hA : (0 : ℝ) ≤ ((h ++ [x]).map fun x => |val x|).sum := sum_abs_nonneg _
      rw [window_map val hR.zero] at step
      refine mean_error hu0 hd norm _ _ ((1 + u) ^ (h.length + 1 + 1) * u * ((NUM + 2) * ((h ++ [x]).map fun x => |val x|).sum)) _ _ (step.trans ?_)
        ((abs_sum_map_le _).trans (lastN_le (val := val) NUM (h ++ [x]))) ?_
      · gcongr
        linarith
      · rw [List.length_append, List.length_singleton]
        have hp1 : 1 ≤ (1 + u) ^ (h.length + 1 + 2) := one_le_pow₀ (by linarith)
        have : u * ((h ++ [x]).map fun x => |val x|).sum ≤ (1 + u) ^ (h.length + 1 + 2) * (u * ((h ++ [x]).map fun x => |val x|).sum) := le_mul_of_one_le_left (by positivity) hp1
        calc _ ≤ (1 + u) * ((1 + u) ^ (h.length + 1 + 1) * u * ((NUM + 2) * ((h ++ [x]).map fun x => |val x|).sum)) +
              (1 + u) ^ (h.length + 1 + 2) * (u * ((h ++ [x]).map fun x => |val x|).sum) := by linarith
          _ = _ := by ring)
    (s := SMA2.init NUM) (h := []) ⟨by rw [Spec.window_nil]; exact Delay.Rep.init hN 0, 0, by
      rw [Spec.window_nil, List.map_replicate, hR.zero, abs_zero]
      have : ∀ k i, weigh i (List.replicate k 0) = 0 := by
        intro k
        induction k with
        | zero => intro i; rfl
        | succ k ih => intro i; simp [List.replicate_succ, weigh, ih]
      rw [this]
      simp, by
      rw [Spec.window_nil, List.map_replicate, hR.zero]
      simp [SMA2.init, hR.zero]⟩ xs (fun _ _ => trivial)
  refine ⟨ys, et, hl, fun n hn => ?_⟩
  obtain ⟨y, hy, h⟩ := hp n hn
  refine ⟨y, hy, ?_⟩
  rw [List.nil_append, List.length_take, min_eq_left (by omega)] at h
  exact h

/-! ### SMA3 -/

theorem feed_append (l l' : List V) : ∀ k : Kahan V, k.feed (l ++ l') = (k.feed l).feed l' := by
  induction l with
  | nil => intro k; rfl
  | cons a l ih => intro k; simp only [List.cons_append, Kahan.feed, ih]

include hR hu0 in
/-- **C71** for `SMA3`: the error may still grow with every input there ever was, but only by eight roundings for each, whatever the length of the window. -/
theorem C71_sma3 [Neg V] (hneg : ∀ a, val (-a) = -val a) (hu : u ≤ 1 / 64) (NUM : ℕ) (hN : 0 < NUM) {divN : V → V} (hd : RoundedDivN val u NUM divN) (norm : Bool) (xs : List V)
    (hn : 704 * xs.length * u ^ 2 ≤ 1) :
    ∃ ys, trace (SMA3.call norm divN) (SMA3.init NUM) xs = (ys, none) ∧ ys.length = xs.length ∧ ∀ n, n < xs.length → ∃ y, ys[n]? = some y ∧
      |val y - mean norm NUM (windowSum val NUM xs n)| ≤ mean norm NUM ((8 * u + 49 * (n + 1) * u ^ 2) * totalSum (fun x => |val x|) xs n) := by
  obtain ⟨s', ys, -, et, -, hl, hp⟩ := run_of_inv (step := SMA3.call norm divN)
    (fun s h => Delay.Rep NUM s.delay (window NUM 0 h) ∧ ∃ L : List V, s.sum = (Kahan.init 0).feed L ∧ L.length = 2 * h.length ∧ (L.map val).sum = ((window NUM 0 h).map val).sum ∧
      (L.map fun x => |val x|).sum + ((window NUM 0 h).map fun x => |val x|).sum = 2 * (h.map fun x => |val x|).sum)
    (fun h y => ∃ L : List V, y = (if norm then divN (Kahan.sum L 0) else Kahan.sum L 0) ∧ L.length = 2 * h.length ∧ (L.map val).sum = ((lastN NUM h).map val).sum ∧
      (L.map fun x => |val x|).sum ≤ 2 * (h.map fun x => |val x|).sum) (fun _ => True) (by
      rintro s h x ⟨hr, L, eL, hL, hS, hA⟩ _
      obtain ⟨d', o, e1, h1, h2, h3⟩ := hr.step hN x
      generalize hw : (window NUM 0 h).tail = t at h2 h3
      have hS' : ((L ++ [-o, x]).map val).sum = ((window NUM 0 (h ++ [x])).map val).sum := by
        rw [List.map_append, List.sum_append, hS, h3, h2]
        simp [hneg]
        ring
      have hA' : ((L ++ [-o, x]).map fun x => |val x|).sum + ((window NUM 0 (h ++ [x])).map fun x => |val x|).sum = 2 * ((h ++ [x]).map fun x => |val x|).sum := by
        rw [h2, List.map_cons, List.sum_cons] at hA
        rw [h3]
        simp only [List.map_append, List.sum_append, List.map_cons, List.map_nil, List.sum_cons, List.sum_nil, hneg, abs_neg]
        linarith
      refine ⟨_, _, by simp only [SMA3.call, e1, bind, Except.bind, pure, Except.pure]; rfl, ⟨h1, L ++ [-o, x], ?_, by simp [hL]; ring, hS', hA'⟩,
        L ++ [-o, x], ?_, by simp [hL]; ring, by rw [hS', window_map val hR.zero], ?_⟩
      · rw [feed_append, ← eL]; rfl
      · rw [Kahan.sum, feed_append, ← eL]; rfl
      · have : 0 ≤ ((window NUM 0 (h ++ [x])).map fun x => |val x|).sum := sum_abs_nonneg _
        linarith)
    (s := SMA3.init NUM) (h := []) ⟨by rw [Spec.window_nil]; exact Delay.Rep.init hN 0, [], rfl, rfl, by
      rw [Spec.window_nil, List.map_replicate, hR.zero]; simp, by
      rw [Spec.window_nil, List.map_replicate, hR.zero]; simp⟩ xs (fun _ _ => trivial)
  refine ⟨ys, et, hl, fun n hn' => ?_⟩
  obtain ⟨y, hy, L, rfl, hL, hS, hA⟩ := hp n hn'
  refine ⟨_, hy, ?_⟩
  rw [List.nil_append] at hL hS hA
  rw [List.length_take, min_eq_left (by omega)] at hL
  have hLl : (L.length : ℝ) = 2 * (n + 1) := by rw [hL]; push_cast; ring
  have hnn : ((n : ℝ) + 1) ≤ xs.length := by exact_mod_cast hn'
  have u2 : 0 ≤ u ^ 2 := sq_nonneg u
  have K := Kahan.C15_standard_model val u hR hu0 hu 0 L (by rw [hLl]; nlinarith)
  rw [hR.zero, zero_add, abs_zero, zero_add, hS, hLl] at K
  have hA0 : (0 : ℝ) ≤ ((xs.take (n + 1)).map fun x => |val x|).sum := sum_abs_nonneg _
  have hAL : (0 : ℝ) ≤ (L.map fun x => |val x|).sum := sum_abs_nonneg _
  refine mean_error hu0 hd norm _ _ ((3 * u + 12 * (2 * (n + 1)) * u ^ 2) * (2 * ((xs.take (n + 1)).map fun x => |val x|).sum)) _ _ (K.trans (by gcongr))
    ((abs_sum_map_le _).trans (lastN_le (val := val) NUM (xs.take (n + 1)))) ?_
  unfold totalSum
  generalize ((xs.take (n + 1)).map fun x => |val x|).sum = A at *
  have q1 : 0 ≤ u * A := by positivity
  have q2 : 0 ≤ (n + 1) * (u ^ 2 * A) := by positivity
  have q3 : u * (u * A) ≤ 1 / 64 * (u * A) := by gcongr
  have q4 : u * ((n + 1) * (u ^ 2 * A)) ≤ 1 / 64 * ((n + 1) * (u ^ 2 * A)) := by gcongr
  nlinarith

end

end SMAError
end DSP
