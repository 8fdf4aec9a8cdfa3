import Verif.Lemmas.SMA
import Verif.Props.SWA

/-! Properties C09 and C10: simple moving averages. -/

namespace DSP
variable {α : Type}
open Spec (window lastN)

/-- What all averages should return: the sum of the window, divided by `NUM` if `norm` is set. -/
def Spec.average [AddCommMonoid α] (NUM : Nat) (norm : Bool) (divN : α → α) (xs : List α) : List α :=
  (List.range xs.length).map (fun n =>
    let sum := (lastN NUM (xs.take (n + 1))).sum
    if norm then divN sum else sum)

theorem Spec.window_sum [AddCommMonoid α] (NUM : Nat) (h : List α) : (window NUM 0 h).sum = (lastN NUM h).sum := by
  rw [Spec.window_eq]; simp

/-- From pointwise to lists. -/
theorem trace_eq_map {σ ι ω : Type} {step : σ → ι → M (σ × ω)} {s : σ} {xs : List ι} {ys : List ω} (g : List ι → ω)
    (et : trace step s xs = (ys, none)) (hl : ys.length = xs.length)
    (hp : ∀ n, n < xs.length → ∃ y, ys[n]? = some y ∧ y = g (xs.take (n + 1))) :
    trace step s xs = ((List.range xs.length).map (fun n => g (xs.take (n + 1))), none) := by
  rw [et]
  congr 1
  apply List.ext_getElem?
  intro n
  by_cases hn : n < xs.length
  · obtain ⟨y, h1, h2⟩ := hp n hn
    rw [h1, h2]
    simp [hn]
  · rw [List.getElem?_eq_none (by omega), List.getElem?_eq_none (by simp; omega)]

/-- The invariant of `SMA1`. -/
theorem SMA1.run_inv [AddCommGroup α] (NUM : Nat) (hN : 0 < NUM) (divN : α → α) (hd : divN 0 = 0) (xs : List α) :
    ∃ s ys, run (SMA1.call divN) (SMA1.init NUM) xs = .ok (s, ys) ∧ trace (SMA1.call divN) (SMA1.init NUM) xs = (ys, none) ∧
      (Delay.Rep NUM s.ring (window NUM 0 xs) ∧ s.histAvg = divN (window NUM 0 xs).sum) ∧ ys.length = xs.length ∧
      ∀ n, n < xs.length → ∃ y, ys[n]? = some y ∧ y = divN (lastN NUM (xs.take (n + 1))).sum := by
  have := run_of_inv (step := SMA1.call divN)
    (fun s h => Delay.Rep NUM s.ring (window NUM 0 h) ∧ s.histAvg = divN (window NUM 0 h).sum)
    (fun h y => y = divN (lastN NUM h).sum) (fun _ => True) (by
      rintro s h x ⟨hr, -⟩ _
      obtain ⟨s', e1, h1, h2⟩ := SMA1.call_ok hN divN hr x
      exact ⟨s', _, e1, ⟨h1, h2⟩, by rw [Spec.window_sum]⟩)
    (s := SMA1.init NUM) (h := []) ⟨by rw [Spec.window_nil]; exact Delay.Rep.init hN 0, by
      rw [Spec.window_sum]; simp [SMA1.init, lastN, hd]⟩ xs (fun _ _ => trivial)
  simpa using this

/-- **C09** for `SMA1` (which always normalises). -/
theorem C09_sma1 [AddCommGroup α] (NUM : Nat) (hN : 0 < NUM) (divN : α → α) (hd : divN 0 = 0) (xs : List α) :
    trace (SMA1.call divN) (SMA1.init NUM) xs = (Spec.average NUM true divN xs, none) := by
  obtain ⟨s, ys, -, et, -, hl, hp⟩ := SMA1.run_inv NUM hN divN hd xs
  exact trace_eq_map (fun h => divN (lastN NUM h).sum) et hl hp

/-- **C09**: `abs_dev()` is the mean absolute deviation of the window (zeros before the start included) around its mean,
at any time. -/
theorem C09_abs_dev [AddCommGroup α] {β : Type} [AddCommMonoid β] (NUM : Nat) (hN : 0 < NUM) (divN : α → α)
    (hd : divN 0 = 0) (abs : α → β) (divN' : β → β) (xs : List α) :
    ∃ s ys, run (SMA1.call divN) (SMA1.init NUM) xs = .ok (s, ys) ∧
      s.absDev abs divN' = .ok (divN' ((window NUM 0 xs).map (fun x => abs (x - divN (window NUM 0 xs).sum))).sum) := by
  obtain ⟨s, ys, er, -, ⟨hr, ha⟩, -⟩ := SMA1.run_inv NUM hN divN hd xs
  refine ⟨s, ys, er, ?_⟩
  have hlen : s.histInp.length = NUM := hr.len
  have hnum : s.num = NUM := hr.num
  obtain ⟨v, h0⟩ : ∃ v, rd s.histInp 0 = .ok v := ⟨s.histInp[0], rd_nat (i := 0) (by omega)⟩
  have hall := SMA1.sum_all (fun x => abs (x - s.histAvg)) s.histInp _ h0
  rw [hlen] at hall
  simp only [SMA1.absDev, h0, hnum, bind, Except.bind, hall, pure, Except.pure]
  rw [← ha]
  congr 2
  exact (hr.perm.map _).sum_eq.symm

/-- **C09** for `SMA2`. -/
theorem C09_sma2 [AddCommGroup α] (NUM : Nat) (hN : 0 < NUM) (norm : Bool) (divN : α → α) (xs : List α) :
    trace (SMA2.call (fun a b => .ok (a + b)) (fun a b => .ok (a - b)) norm divN) (SMA2.init NUM) xs =
      (Spec.average NUM norm divN xs, none) := by
  obtain ⟨s', ys, -, et, -, hl, hp⟩ := run_of_inv
    (step := SMA2.call (fun a b => .ok (a + b)) (fun a b => .ok (a - b)) norm divN)
    (fun s h => Delay.Rep NUM s.delay (window NUM 0 h) ∧ s.sum = (window NUM 0 h).sum)
    (fun h y => y = if norm then divN (lastN NUM h).sum else (lastN NUM h).sum) (fun _ => True) (by
      rintro s h x ⟨hr, hs⟩ _
      obtain ⟨d', y, e1, h1, h2, h3⟩ := hr.step hN x
      have hsum : s.sum + (x - y) = (window NUM 0 (h ++ [x])).sum := by rw [h3, window_sum_step h2, hs]
      refine ⟨_, _, by simp only [SMA2.call, e1, bind, Except.bind, pure, Except.pure]; rfl, ⟨h1, hsum⟩, ?_⟩
      rw [hsum, Spec.window_sum])
    (s := SMA2.init NUM) (h := []) ⟨by rw [Spec.window_nil]; exact Delay.Rep.init hN 0, by
      rw [Spec.window_sum]; simp [SMA2.init, lastN]⟩ xs (fun _ _ => trivial)
  exact trace_eq_map (fun h => if norm then divN (lastN NUM h).sum else (lastN NUM h).sum) et hl (by simpa using hp)

/-- **C09** for `SMA3`. -/
theorem C09_sma3 [AddCommGroup α] (NUM : Nat) (hN : 0 < NUM) (norm : Bool) (divN : α → α) (xs : List α) :
    trace (SMA3.call norm divN) (SMA3.init NUM) xs = (Spec.average NUM norm divN xs, none) := by
  obtain ⟨s', ys, -, et, -, hl, hp⟩ := run_of_inv
    (step := SMA3.call norm divN)
    (fun s h => Delay.Rep NUM s.delay (window NUM 0 h) ∧ s.sum = ⟨(window NUM 0 h).sum, 0⟩)
    (fun h y => y = if norm then divN (lastN NUM h).sum else (lastN NUM h).sum) (fun _ => True) (by
      rintro s h x ⟨hr, hs⟩ _
      obtain ⟨d', y, e1, h1, h2, h3⟩ := hr.step hN x
      have hsum : (window NUM 0 h).sum + -y + x = (window NUM 0 (h ++ [x])).sum := by
        rw [h3, window_sum_step h2]; abel
      refine ⟨_, _, by
        simp only [SMA3.call, e1, bind, Except.bind, pure, Except.pure, hs, Kahan.call_exact ⟨_, 0⟩ rfl]; rfl, ⟨h1, ?_⟩, ?_⟩
      · simp only [hsum]
      · rw [hsum, Spec.window_sum])
    (s := SMA3.init NUM) (h := []) ⟨by rw [Spec.window_nil]; exact Delay.Rep.init hN 0, by
      rw [Spec.window_sum]; simp [SMA3.init, lastN, Kahan.init]⟩ xs (fun _ _ => trivial)
  exact trace_eq_map (fun h => if norm then divN (lastN NUM h).sum else (lastN NUM h).sum) et hl (by simpa using hp)

/-- **C09** for `SMA4`. -/
theorem C09_sma4 [AddCommGroup α] (NUM : Nat) (hN : 0 < NUM) (norm : Bool) (divN : α → α) (xs : List α) :
    trace (SMA4.call norm divN) (SMA4.init NUM) xs = (Spec.average NUM norm divN xs, none) := by
  have h := C07_swa (fun a b : α => a + b) 0 add_comm add_assoc zero_add NUM hN xs
  suffices hh : ∀ (s : SWA α) (ys : List α), trace (SWA.call (fun a b : α => a + b)) s xs = (ys, none) →
      trace (SMA4.call norm divN) s xs = (ys.map (fun y => if norm then divN y else y), none) by
    rw [SMA4.init, hh _ _ h, Spec.average, List.map_map]; rfl
  clear h
  induction xs with
  | nil =>
    intro s ys h
    simp only [trace, Prod.mk.injEq, and_true] at h ⊢
    subst h; rfl
  | cons x xs ih =>
    intro s ys h
    unfold trace at h ⊢
    cases hs : SWA.call (fun a b : α => a + b) s x with
    | error f => rw [hs] at h; simp at h
    | ok p =>
      obtain ⟨s1, o⟩ := p
      rw [hs] at h
      simp only [Prod.mk.injEq] at h
      obtain ⟨h1, h2⟩ := h
      subst h1
      have := ih s1 (trace (SWA.call (fun a b : α => a + b)) s1 xs).1 (by rw [← h2])
      simp only [SMA4.call, hs, bind, Except.bind, pure, Except.pure]
      rw [this]; rfl

example : trace (SMA1.call (· / 4)) (SMA1.init 4) [4, 8, -12, 16, 32] = ([1, 3, 0, 4, 11], none) ∧
    trace (SMA2.call (fun a b => .ok (a + b)) (fun a b => .ok (a - b)) true (· / 4)) (SMA2.init 4) [4, 8, -12, 16, 32] =
      ([1, 3, 0, 4, 11], none) ∧
    trace (SMA3.call false (· / 4)) (SMA3.init 4) [4, 8, -12, 16, 32] = ([4, 12, 0, 16, 44], none) ∧
    trace (SMA4.call true (· / 4)) (SMA4.init 4) [4, 8, -12, 16, 32] = ([1, 3, 0, 4, 11], none) := by decide +kernel

/-- Signed 32-bit addition with overflow as a fault. -/
def Int32.add (a b : Int) : M Int := if -2 ^ 31 ≤ a + b ∧ a + b < 2 ^ 31 then .ok (a + b) else .error .overflow

/-- Signed 32-bit subtraction with overflow as a fault. -/
def Int32.sub (a b : Int) : M Int := if -2 ^ 31 ≤ a - b ∧ a - b < 2 ^ 31 then .ok (a - b) else .error .overflow

theorem abs_sum_le (M : Int) (w : List Int) (h : ∀ x ∈ w, -M ≤ x ∧ x ≤ M) :
    -(w.length * M) ≤ w.sum ∧ w.sum ≤ w.length * M := by
  induction w with
  | nil => simp
  | cons x w ih =>
    obtain ⟨h1, h2⟩ := h x (by simp)
    obtain ⟨h3, h4⟩ := ih fun y hy => h y (by simp [hy])
    simp only [List.sum_cons, List.length_cons]
    push_cast
    rw [add_mul]
    constructor <;> omega

/-- **C10.** With 32-bit integers of magnitude at most `B`, where `2*B` and `NUM*B` are representable, `SMA2` never
overflows and its sum is exact forever. -/
theorem C10_sma2_int (NUM : Nat) (hN : 0 < NUM) (B : Int) (h2 : 2 * B < 2 ^ 31) (hB : NUM * B < 2 ^ 31) (xs : List Int)
    (hx : ∀ x ∈ xs, -B ≤ x ∧ x ≤ B) :
    trace (SMA2.call Int32.add Int32.sub false id) (SMA2.init NUM) xs = (Spec.average NUM false id xs, none) := by
  by_cases hxs : xs = []
  · subst hxs; rfl
  have hB0 : 0 ≤ B := by
    obtain ⟨x, hx'⟩ := List.exists_mem_of_ne_nil xs hxs
    have := hx x hx'; omega
  obtain ⟨s', ys, -, et, -, hl, hp⟩ := run_of_inv
    (step := SMA2.call Int32.add Int32.sub false id)
    (fun s h => Delay.Rep NUM s.delay (window NUM 0 h) ∧ s.sum = (window NUM 0 h).sum ∧
      ∀ x ∈ window NUM 0 h, -B ≤ x ∧ x ≤ B)
    (fun h y => y = (lastN NUM h).sum) (fun x => -B ≤ x ∧ x ≤ B) (by
      rintro s h x ⟨hr, hs, hb⟩ hxB
      obtain ⟨d', y, e1, h1, h2', h3⟩ := hr.step hN x
      have hsum : s.sum + (x - y) = (window NUM 0 (h ++ [x])).sum := by rw [h3, window_sum_step h2', hs]
      have hyB : -B ≤ y ∧ y ≤ B := hb y (by rw [h2']; simp)
      have hb' : ∀ z ∈ window NUM 0 (h ++ [x]), -B ≤ z ∧ z ≤ B := by
        intro z hz
        rw [h3, List.mem_append, List.mem_singleton] at hz
        rcases hz with hz | rfl
        · exact hb z (List.mem_of_mem_tail hz)
        · exact hxB
      have hle := abs_sum_le B _ hb'
      rw [Spec.window_length] at hle
      have e2 : Int32.sub x y = .ok (x - y) := by rw [Int32.sub, if_pos (by omega)]
      have e3 : Int32.add s.sum (x - y) = .ok (s.sum + (x - y)) := by rw [Int32.add, if_pos (by rw [hsum]; omega)]
      refine ⟨_, _, by simp only [SMA2.call, e1, bind, Except.bind, pure, Except.pure, e2, e3]; rfl, ⟨h1, hsum, hb'⟩, ?_⟩
      simp only [Bool.false_eq_true, if_false]
      rw [hsum, Spec.window_sum])
    (s := SMA2.init NUM) (h := []) ⟨by rw [Spec.window_nil]; exact Delay.Rep.init hN 0, by
      rw [Spec.window_sum]; simp [SMA2.init, lastN], by
      intro x hx; rw [Spec.window_nil] at hx; rw [List.eq_of_mem_replicate hx]; omega⟩ xs hx
  exact trace_eq_map (fun h => (lastN NUM h).sum) et hl (by simpa using hp)

example : (2 : Int) * 700000000 < 2 ^ 31 ∧ ((3 : Nat) : Int) * 700000000 < 2 ^ 31 ∧
    trace (SMA2.call Int32.add Int32.sub false id) (SMA2.init 3)
      [700000000, 700000000, 700000000, -700000000, -700000000, -700000000] =
    ([700000000, 1400000000, 2100000000, 700000000, -700000000, -2100000000], none) := by decide +kernel

/-- Without the bound the running sum does overflow. -/
example : trace (SMA2.call Int32.add Int32.sub false id) (SMA2.init 2) [2000000000, 2000000000] =
    ([2000000000], some .overflow) := by decide +kernel

end DSP
