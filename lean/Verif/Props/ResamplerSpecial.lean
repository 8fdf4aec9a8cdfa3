import Verif.Model.ResamplerIeee
import Verif.Props.SplineSpecial
import Verif.Props.PixelsSpecial
import Verif.Lemmas.Shift

/-!
# C139: the streaming resampler with infinities and NaN
-/

namespace DSP.Resampler2.Machine

open Ieee Spec FFT Bridge SplineSpecial

variable {F : Format}

/-! ### The sum -/

/-- The sum of the products, from the oldest sample on. -/
def total (v b : ℕ → Ieee F) : ℕ → Ieee F
  | 0 => 0
  | n + 1 => total v b n + v n * b n

theorem total_bad (v b : ℕ → Ieee F) (n j : ℕ) (hj : j < n) (h : ¬(b j).Finite) : ¬(total v b n).Finite := by
  induction n with
  | zero => omega
  | succ n ih =>
    rw [total]
    by_cases c : j = n
    · subst c
      exact add_bad_right _ _ (mul_bad_right _ _ h)
    · exact add_bad_left _ _ (ih (by omega))

theorem total_same (v : ℕ → Ieee F) {b b' : ℕ → Ieee F} (n : ℕ) (h : ∀ j < n, b j = b' j) : total v b n = total v b' n := by
  induction n with
  | zero => rfl
  | succ n ih => rw [total, total, ih fun j hj => h j (by omega), h n (by omega)]

/-- The value of the filter, if there is one. -/
def value (lpf : NaturalSpline.Rounded (Ieee F)) (K : ℕ) (x : Ieee F) : Ieee F := (lpf.call Ieee.trunc K x).toOption.getD 0

theorem sum_ok (r : Machine F) (TAPS OVER : ℕ) (b : ℕ → Ieee F) (hb : r.buf = (List.range TAPS).map b)
    (hv : ∀ s : ℕ, s < TAPS → ∃ v, r.lpf.call Ieee.trunc (TAPS * OVER) (((s : ℤ) : Ieee F) + r.dpos) = .ok v) :
    r.sum TAPS OVER = .ok (total (fun s => value r.lpf (TAPS * OVER) (((s : ℤ) : Ieee F) + r.dpos)) b TAPS) := by
  obtain ⟨y, e, hy⟩ := foldlM_inv (fun n y => y = total (fun s => value r.lpf (TAPS * OVER) (((s : ℤ) : Ieee F) + r.dpos)) b n) (fun sum (s : ℕ) => do
      let k := ((s : ℤ) : Ieee F) + r.dpos
      let v ← r.lpf.call Ieee.trunc (TAPS * OVER) k
      let u ← rd r.buf s
      return sum + v * u) TAPS 0 rfl (by
    rintro s hs y rfl
    obtain ⟨v, e⟩ := hv s hs
    have e' : value r.lpf (TAPS * OVER) (((s : ℤ) : Ieee F) + r.dpos) = v := by rw [value, e]; rfl
    refine ⟨_, ?_, rfl⟩
    simp only [e, bind, Except.bind, pure, Except.pure, hb, rd_map_range b TAPS s s rfl hs, total, e'])
  rw [sum, e, hy]

/-! ### What is asked of the filter -/

/-- The tables of the filter are complete, it starts at zero, and all of its points are in reach of an `int`. -/
structure Ready (lpf : NaturalSpline.Rounded (Ieee F)) (TAPS OVER : ℕ) : Prop where
  taps : 1 ≤ TAPS
  most : TAPS ≤ 65534
  points : 2 ≤ TAPS * OVER
  A : lpf.A.length = TAPS * OVER - 1
  B : lpf.B.length = TAPS * OVER - 1
  C : lpf.C.length = TAPS * OVER - 1
  D : lpf.D.length = TAPS * OVER - 1
  start : GoodIeee lpf.x0 ∧ lpf.x0.val = 0
  dist : GoodIeee lpf.dx ∧ 0 < lpf.dx.val
  reach : (TAPS : ℝ) + 1 ≤ 2 ^ 30 * lpf.dx.val

/-- The tables can be read wherever the position fits an `int`. -/
theorem read_ok {lpf : NaturalSpline.Rounded (Ieee F)} {TAPS OVER : ℕ} (R : Ready lpf TAPS OVER) (x : Ieee F) (hf : ((x - lpf.x0) / lpf.dx).Finite) (hs : |((x - lpf.x0) / lpf.dx).val| < 2147483648) :
    ∃ v, lpf.call Ieee.trunc (TAPS * OVER) x = .ok v := by
  have t := (SplineSpecial.trunc_ok _ hf hs).1
  have l := NaturalSpline.Any.locate_ok (TAPS * OVER) R.points ((x - lpf.x0) / lpf.dx) ((x - lpf.x0) / lpf.dx).trunc
  obtain ⟨l1, l2⟩ := l
  simp only [NaturalSpline.Rounded.call, fdiv_finite _ _ hf, t, l1, bind, Except.bind, pure, Except.pure]
  rw [rd_nat (by have := R.A; omega), rd_nat (by have := R.B; omega), rd_nat (by have := R.C; omega), rd_nat (by have := R.D; omega)]
  exact ⟨_, rfl⟩

variable [NeZero F.p] (D : UnitCircle.Deep F)

section
include D

theorem tap (s : ℕ) (hs : s ≤ 65535) : GoodIeee ((s : ℤ) : Ieee F) ∧ (((s : ℤ) : Ieee F).val : ℝ) = s := by
  have sm := UnitCircle.same_int D s (by rw [abs_le]; omega)
  refine ⟨⟨sm.1, sm.2.1⟩, ?_⟩
  rw [sm.2.2, WavBinary.cast_val s ?_]
  · norm_cast
  · have := pow_le_pow_right₀ (by norm_num : (1 : ℤ) ≤ 2) D.wide.p
    norm_num at this
    rw [abs_lt]
    omega

omit [NeZero F.p] in
/-- The filter has a value not far from its taps. -/
theorem reach_ok {lpf : NaturalSpline.Rounded (Ieee F)} {TAPS OVER : ℕ} (R : Ready lpf TAPS OVER) (k : Ieee F) (gk : GoodIeee k) (b1 : |(k.val : ℝ)| ≤ TAPS + 0.1) :
    ∃ v, lpf.call Ieee.trunc (TAPS * OVER) k = .ok v := by
  have U := NCO.usual_of_wide D.wide
  have t1 : (TAPS : ℝ) ≤ 65534 := by exact_mod_cast R.most
  obtain ⟨gx, hx⟩ := R.start
  obtain ⟨gx', hx'⟩ := R.dist
  have v0 : (lpf.x0.val : ℝ) = 0 := by rw [hx]; norm_num
  obtain ⟨gy, hy⟩ := good_sub U k lpf.x0 gk gx (PixelsIeee.room D (by rw [v0, sub_zero]; norm_num at b1; linarith))
  have hy := PixelsIeee.close D hy
  rw [v0, sub_zero] at hy
  refine read_ok R k ?_ ?_
  all_goals
    generalize k - lpf.x0 = y at *
    have b2 : |(y.val : ℝ)| ≤ TAPS + 1 := by
      have := abs_sub_abs_le_abs_sub (y.val : ℝ) k.val
      norm_num at b1
      linarith
    have dp : (0 : ℝ) < lpf.dx.val := by exact_mod_cast hx'
    have b3 : |(y.val : ℝ) / lpf.dx.val| ≤ 2 ^ 30 := by
      rw [abs_div, abs_of_pos dp, div_le_iff₀ dp]
      exact b2.trans R.reach
    obtain ⟨gq, hq⟩ := FMDRounded.good_div U y lpf.dx gy gx' hx'.ne' (b3.trans (by
      have := D.high
      calc (2 : ℝ) ^ 30 = 2 ^ (30 : ℤ) := by norm_num
        _ ≤ _ := zpow_le_zpow_right₀ (by norm_num) (by omega)))
  · exact gq.1
  · have hq := PixelsIeee.close D hq
    have b4 : |((y / lpf.dx).val : ℝ)| < 2147483648 := by
      have := abs_sub_abs_le_abs_sub ((y / lpf.dx).val : ℝ) (y.val / lpf.dx.val)
      norm_num at b3 ⊢
      linarith
    have b5 : ((|(y / lpf.dx).val| : ℚ) : ℝ) < ((2147483648 : ℚ) : ℝ) := by push_cast; exact b4
    exact_mod_cast b5

/-- The filter has a value at every tap, if the offset is between minus one and one. -/
theorem taps_ok {lpf : NaturalSpline.Rounded (Ieee F)} {TAPS OVER : ℕ} (R : Ready lpf TAPS OVER) (d : Ieee F) (gd : GoodIeee d) (h0 : -1 ≤ d.val) (h1 : d.val ≤ 1) (s : ℕ) (hs : s < TAPS) :
    ∃ v, lpf.call Ieee.trunc (TAPS * OVER) (((s : ℤ) : Ieee F) + d) = .ok v := by
  have U := NCO.usual_of_wide D.wide
  obtain ⟨gs, vs⟩ := tap D s (by have := R.most; omega)
  have h0' : (-1 : ℝ) ≤ d.val := by exact_mod_cast h0
  have h1' : (d.val : ℝ) ≤ 1 := by exact_mod_cast h1
  have s0 : (0 : ℝ) ≤ s := by positivity
  have s1 : (s : ℝ) + 1 ≤ TAPS := by exact_mod_cast hs
  have t1 : (TAPS : ℝ) ≤ 65534 := by exact_mod_cast R.most
  have b0 : |(s : ℝ) + d.val| ≤ TAPS := by rw [abs_le]; constructor <;> linarith
  obtain ⟨gk, hk⟩ := good_add U _ d gs gd (PixelsIeee.room D (by rw [vs]; linarith))
  have hk := PixelsIeee.close D hk
  rw [vs] at hk
  generalize ((s : ℤ) : Ieee F) + d = k at *
  have b1 : |(k.val : ℝ)| ≤ TAPS + 0.1 := by
    have := abs_sub_abs_le_abs_sub (k.val : ℝ) (s + d.val)
    norm_num
    linarith
  exact reach_ok D R k gk b1

/-! ### The clock -/

omit [NeZero F.p] in
/-- A sum between numbers of the format stays between them. -/
theorem add_between {lo hi : ℚ} (hl : Fits F lo) (hh : Fits F hi) (l1 : -1 ≤ lo) (h1 : hi ≤ 1) {a b : Ieee F} (ga : GoodIeee a) (gb : GoodIeee b) (h : lo ≤ a.val + b.val) (h' : a.val + b.val ≤ hi) :
    GoodIeee (a + b) ∧ lo ≤ (a + b).val ∧ (a + b).val ≤ hi := by
  have U := NCO.usual_of_wide D.wide
  have hp : 0 < F.p := by have := U.p; omega
  have f : (a + b).Finite := by
    have l1' : ((-1 : ℚ) : ℝ) ≤ ((a.val + b.val : ℚ) : ℝ) := by exact_mod_cast l1.trans h
    have h1' : ((a.val + b.val : ℚ) : ℝ) ≤ ((1 : ℚ) : ℝ) := by exact_mod_cast h'.trans h1
    push_cast at l1' h1'
    exact (good_add U a b ga gb (PixelsIeee.room D (by rw [abs_le]; constructor <;> linarith))).1.1
  refine ⟨⟨f, add_valid hp _ _⟩, ?_, ?_⟩ <;> rw [add_val hp a b ga.1 gb.1 f]
  · have := roundTo_mono hp _ _ h
    rwa [roundTo_of_fits hp _ hl] at this
  · exact roundTo_le hp _ _ hh h'

end

/-- Where samples are computed in a call, and the offset after it, for a step of `delta`. -/
def tick (d delta : Ieee F) : Ieee F × List (Ieee F) :=
  if d < -half then (d + 1, []) else if half < d + delta then (d + delta - 1 + delta, [d, d + delta - 1]) else (d + delta, [d])

/-- Between minus one and a half. -/
def Inside (d : Ieee F) : Prop := GoodIeee d ∧ -1 ≤ d.val ∧ d.val ≤ 1 / 2

/-- At most a half. -/
def Slow (delta : Ieee F) : Prop := GoodIeee delta ∧ |delta.val| ≤ 1 / 2

omit [NeZero F.p] in
theorem less_half {d : Ieee F} (h : d.Finite) : (half < d ↔ 1 / 2 < d.val) ∧ (d < -half ↔ d.val < -(1 / 2)) := by
  obtain ⟨s, m, rfl⟩ := (finite_iff d).mp h
  have e1 : (half : Ieee F) < num s m ↔ signed false (1 / 2) < signed s m := decide_eq_true_iff
  have e2 : (num s m : Ieee F) < -half ↔ signed s m < signed true (1 / 2) := decide_eq_true_iff
  rw [e1, e2]
  exact ⟨Iff.rfl, Iff.rfl⟩

section
include D

omit [NeZero F.p] in
theorem tick_inside {d delta : Ieee F} (hd : Inside d) (hs : Slow delta) :
    Inside (tick d delta).1 ∧ (∀ e ∈ (tick d delta).2, Inside e) ∧ (d < -half ∨ ∃ e, (tick d delta).2.head? = some e) := by
  have U := NCO.usual_of_wide D.wide
  have hp : 0 < F.p := by have := U.p; omega
  have em := U.emin
  have f1 : Fits F 1 := by
    have := Range.fits_pow (F := F) hp 0 (by omega)
    rwa [zpow_zero] at this
  have fh : Fits F (1 / 2) := by
    have := Range.fits_pow (F := F) hp (-1) (by omega)
    norm_num at this ⊢
    exact this
  have f0 : Fits F 0 := by
    have := roundTo_fits (F := F) hp 0
    rwa [roundTo_zero] at this
  have fm : ∀ x : ℚ, Fits F x → Fits F (-x) := by
    intro x hx
    have := roundTo_fits (F := F) hp (-x)
    rwa [roundTo_neg, roundTo_of_fits hp _ hx] at this
  obtain ⟨g1, v1⟩ := FMDRounded.good_one U
  have v1 : (1 : Ieee F).val = 1 := by exact_mod_cast v1
  obtain ⟨gd, d0, d1⟩ := hd
  obtain ⟨gs, hs⟩ := hs
  obtain ⟨s0, s1⟩ := abs_le.mp hs
  have lh := less_half gd.1
  unfold tick
  by_cases c : d < -half
  · rw [if_pos c]
    have c' := lh.2.mp c
    obtain ⟨a, b1, b2⟩ := add_between D f0 fh (by norm_num) (by norm_num) gd g1 (by rw [v1]; linarith) (by rw [v1]; linarith)
    exact ⟨⟨a, by linarith, b2⟩, by simp, .inl c⟩
  · rw [if_neg c]
    have c' : -(1 / 2) ≤ d.val := not_lt.mp fun h => c (lh.2.mpr h)
    obtain ⟨a, b1, b2⟩ := add_between D (fm _ f1) f1 (by norm_num) (by norm_num) gd gs (by linarith) (by linarith)
    have lk := less_half a.1
    by_cases k : half < d + delta
    · rw [if_pos k]
      have k' := lk.1.mp k
      have gm : GoodIeee (-(1 : Ieee F)) := ⟨neg_finite _ g1.1, neg_valid _ g1.2⟩
      have vm : (-(1 : Ieee F)).val = -1 := by rw [neg_val, v1]
      obtain ⟨a', b1', b2'⟩ := add_between D (fm _ fh) f0 (by norm_num) (by norm_num) a gm (by rw [vm]; linarith) (by rw [vm]; linarith)
      have e : d + delta - 1 = d + delta + -1 := rfl
      rw [e]
      obtain ⟨a'', b1'', b2''⟩ := add_between D (fm _ f1) fh (by norm_num) (by norm_num) a' gs (by linarith) (by linarith)
      refine ⟨⟨a'', b1'', b2''⟩, ?_, .inr ⟨d, rfl⟩⟩
      intro e he
      rcases List.mem_cons.mp he with rfl | he
      · exact ⟨gd, d0, d1⟩
      · obtain rfl := List.mem_singleton.mp he
        exact ⟨a', by linarith, by linarith⟩
    · rw [if_neg k]
      have k' : (d + delta).val ≤ 1 / 2 := not_lt.mp fun h => k (lk.1.mpr h)
      refine ⟨⟨a, b1, k'⟩, ?_, .inr ⟨d, rfl⟩⟩
      intro e he
      obtain rfl := List.mem_singleton.mp he
      exact ⟨gd, d0, d1⟩

end

/-! ### A call -/

/-- The output array after a call. -/
def emit (output ys : List (Ieee F)) : List (Ieee F) := ys ++ output.drop ys.length

/-- The samples of a call. -/
def samples (lpf : NaturalSpline.Rounded (Ieee F)) (TAPS OVER : ℕ) (b : ℕ → Ieee F) (ps : List (Ieee F)) : List (Ieee F) :=
  ps.map fun d => total (fun s => value lpf (TAPS * OVER) (((s : ℤ) : Ieee F) + d)) b TAPS

section
include D

theorem call_ok {TAPS OVER fuel : ℕ} (hf : 2 ≤ fuel) (r : Machine F) (R : Ready r.lpf TAPS OVER) (b : ℕ → Ieee F) (hb : r.buf = (List.range TAPS).map b) (hd : Inside r.dpos)
    (output : List (Ieee F)) (ho : 2 ≤ output.length) (diff : Ieee F) (hs : Slow (diff / r.rate)) :
    call TAPS OVER fuel r output (b TAPS) diff = .ok (⟨r.lpf, r.rate, (tick r.dpos (diff / r.rate)).1, (List.range TAPS).map fun j => b (j + 1)⟩,
      emit output (samples r.lpf TAPS OVER (fun j => b (j + 1)) (tick r.dpos (diff / r.rate)).2), (tick r.dpos (diff / r.rate)).2.length) := by
  obtain ⟨lpf, rate, d, buf⟩ := r
  simp only at hb R hd hs ⊢
  have ht := (tick_inside D hd hs).2.1
  simp only [call, shiftIn_ok b TAPS R.taps buf hb, bind, Except.bind]
  generalize diff / rate = delta at *
  have sm : ∀ e, Inside e → (⟨lpf, rate, e, (List.range TAPS).map fun j => b (j + 1)⟩ : Machine F).sum TAPS OVER =
      .ok (total (fun s => value lpf (TAPS * OVER) (((s : ℤ) : Ieee F) + e)) (fun j => b (j + 1)) TAPS) := fun e he =>
    sum_ok _ TAPS OVER _ rfl fun s hs => taps_ok D R e he.1 he.2.1 (by have := he.2.2; linarith) s hs
  obtain ⟨x, y, rest, rfl⟩ : ∃ x y rest, output = x :: y :: rest := by
    match output, ho with
    | x :: y :: rest, _ => exact ⟨x, y, rest, rfl⟩
  obtain ⟨fuel, rfl⟩ : ∃ n, fuel = n + 2 := ⟨fuel - 2, by omega⟩
  unfold tick at ht ⊢
  by_cases c : d < -half
  · simp only [if_pos c, pure, Except.pure]
    rfl
  · simp only [if_neg c] at ht ⊢
    have w0 : ∀ v : Ieee F, wr (x :: y :: rest) ((0 : ℕ) : ℤ) v = .ok (v :: y :: rest) := fun v => wr_nat (i := 0) (by simp)
    have w1 : ∀ u v : Ieee F, wr (u :: y :: rest) ((0 + 1 : ℕ) : ℤ) v = .ok (u :: v :: rest) := fun u v => wr_nat (i := 1) (by simp)
    by_cases k : half < d + delta
    · simp only [if_pos k] at ht ⊢
      have hi := (tick_inside D hd hs).1
      unfold tick at hi
      rw [if_neg c, if_pos k] at hi
      have k2 : ¬half < d + delta - 1 + delta := fun h => by
        have := (less_half hi.1.1).1.mp h
        exact absurd hi.2.2 (not_le.mpr this)
      simp only [again, sm d (ht d (by simp)), sm _ (ht (d + delta - 1) (by simp)), bind, Except.bind, w0, w1, if_pos k, if_neg k2, pure, Except.pure]
      rfl
    · simp only [if_neg k] at ht ⊢
      simp only [again, sm d (ht d (by simp)), bind, Except.bind, w0, if_neg k, pure, Except.pure]
      rfl

end

/-! ### Calls in a row -/

/-- The offsets before the calls. They do not depend on the samples. -/
def offsets (rate d : Ieee F) (diff : ℕ → Ieee F) : ℕ → Ieee F
  | 0 => d
  | t + 1 => (tick (offsets rate d diff t) (diff t / rate)).1

/-- The samples in the buffer, followed by the inputs. -/
def history (buf : List (Ieee F)) (x : ℕ → Ieee F) (n : ℕ) : Ieee F := if n < buf.length then buf.getD n 0 else x (n - buf.length)

section
include D

omit [NeZero F.p] in
theorem offsets_inside {rate d : Ieee F} (hd : Inside d) {diff : ℕ → Ieee F} (hs : ∀ t, Slow (diff t / rate)) (t : ℕ) : Inside (offsets rate d diff t) := by
  induction t with
  | zero => exact hd
  | succ t ih => exact (tick_inside D ih (hs t)).1

/-- **C139** What the calls give, in every bit: they compute the samples at the offsets of `tick`, each as the sum of the values of the filter times the last `TAPS` samples, from the oldest on. -/
theorem C139_values {TAPS OVER fuel : ℕ} (hf : 2 ≤ fuel) (r : Machine F) (R : Ready r.lpf TAPS OVER) (hb : r.buf.length = TAPS) (hd : Inside r.dpos)
    (outs : ℕ → List (Ieee F)) (ho : ∀ t, 2 ≤ (outs t).length) (x diff : ℕ → Ieee F) (hs : ∀ t, Slow (diff t / r.rate)) (T : ℕ) :
    run (step TAPS OVER fuel) r ((List.range T).map fun t => (outs t, x t, diff t)) =
      .ok (⟨r.lpf, r.rate, offsets r.rate r.dpos diff T, (List.range TAPS).map fun j => history r.buf x (T + j)⟩,
        (List.range T).map fun t => (emit (outs t) (samples r.lpf TAPS OVER (fun j => history r.buf x (t + 1 + j)) (tick (offsets r.rate r.dpos diff t) (diff t / r.rate)).2),
          (tick (offsets r.rate r.dpos diff t) (diff t / r.rate)).2.length)) := by
  have h := run_known (step TAPS OVER fuel) (fun t => (outs t, x t, diff t)) (fun t => (⟨r.lpf, r.rate, offsets r.rate r.dpos diff t, (List.range TAPS).map fun j => history r.buf x (t + j)⟩ : Machine F))
    (fun t => (emit (outs t) (samples r.lpf TAPS OVER (fun j => history r.buf x (t + 1 + j)) (tick (offsets r.rate r.dpos diff t) (diff t / r.rate)).2),
      (tick (offsets r.rate r.dpos diff t) (diff t / r.rate)).2.length)) (by
    intro t
    have hx : x t = history r.buf x (t + TAPS) := by rw [history, if_neg (by omega), hb, Nat.add_sub_cancel]
    have := call_ok D hf ⟨r.lpf, r.rate, offsets r.rate r.dpos diff t, (List.range TAPS).map fun j => history r.buf x (t + j)⟩ R (fun j => history r.buf x (t + j)) rfl
      (offsets_inside D hd hs t) (outs t) (ho t) (diff t) (hs t)
    simp only [step]
    rw [hx]
    have hj : (fun j => history r.buf x (t + (j + 1))) = fun j => history r.buf x (t + 1 + j) := funext fun j => congrArg _ (by omega)
    rw [hj] at this
    exact this) T
  have e : (⟨r.lpf, r.rate, offsets r.rate r.dpos diff 0, (List.range TAPS).map fun j => history r.buf x (0 + j)⟩ : Machine F) = r := by
    obtain ⟨lpf, rate, d, buf⟩ := r
    simp only [offsets, Nat.zero_add, Machine.mk.injEq, true_and]
    apply List.ext_getElem?
    intro i
    rw [List.getElem?_map]
    simp only at hb
    by_cases c : i < TAPS
    · rw [List.getElem?_range c, Option.map_some, history, if_pos (by omega), List.getD_eq_getElem?_getD, List.getElem?_eq_getElem (by omega), Option.getD_some]
    · rw [List.getElem?_eq_none (by simp; omega), List.getElem?_eq_none (by omega)]
      rfl
  exact (congrArg (fun s => run (step TAPS OVER fuel) s ((List.range T).map fun t => (outs t, x t, diff t))) e.symm).trans h

omit [NeZero F.p] D in
theorem ticks {d delta : Ieee F} : (tick d delta).2.length ≤ 2 := by
  unfold tick
  split_ifs <;> simp

/-- **C139** Whatever the samples are, infinities and NaN included: if the differences of the rates are at most half of the rate then no call does anything undefined, each gives at most two samples and leaves the rest of the array alone, and
the offset stays between minus one and a half. While one of the last `TAPS` samples is infinite or NaN, so is everything that comes out. -/
theorem C139_stream {TAPS OVER fuel : ℕ} (hf : 2 ≤ fuel) (r : Machine F) (R : Ready r.lpf TAPS OVER) (hb : r.buf.length = TAPS) (hd : Inside r.dpos)
    (outs : ℕ → List (Ieee F)) (ho : ∀ t, 2 ≤ (outs t).length) (x diff : ℕ → Ieee F) (hs : ∀ t, Slow (diff t / r.rate)) (T : ℕ) :
    ∃ r' zs, run (step TAPS OVER fuel) r ((List.range T).map fun t => (outs t, x t, diff t)) = .ok (r', zs) ∧ zs.length = T ∧ Inside r'.dpos ∧
      ∀ t < T, ∃ out n, zs[t]? = some (out, n) ∧ n ≤ 2 ∧ out.length = (outs t).length ∧ out.drop n = (outs t).drop n ∧
        ∀ j < TAPS, j ≤ t → ¬(x (t - j)).Finite → ∀ i < n, ∃ v, out[i]? = some v ∧ ¬v.Finite := by
  refine ⟨_, _, C139_values D hf r R hb hd outs ho x diff hs T, by simp, offsets_inside D hd hs T, fun t ht => ?_⟩
  refine ⟨_, _, by rw [List.getElem?_map, List.getElem?_range ht, Option.map_some], ticks, ?_, ?_, fun j hj hjt hx i hi => ?_⟩
  · have := ticks (d := offsets r.rate r.dpos diff t) (delta := diff t / r.rate)
    have := ho t
    simp only [emit, samples, List.length_append, List.length_map, List.length_drop]
    omega
  · simp only [emit, samples]
    rw [List.drop_append_of_le_length (by simp), List.drop_of_length_le (by simp), List.nil_append, List.length_map]
  · refine ⟨_, ?_, total_bad (fun s => value r.lpf (TAPS * OVER) (((s : ℤ) : Ieee F) + (tick (offsets r.rate r.dpos diff t) (diff t / r.rate)).2[i])) (fun j => history r.buf x (t + 1 + j)) TAPS (TAPS - 1 - j) (by omega) ?_⟩
    · simp only [emit, samples]
      rw [List.getElem?_append_left (by simpa using hi), List.getElem?_map, List.getElem?_eq_getElem hi, Option.map_some]
    · rw [history, if_neg (by omega), hb, show t + 1 + (TAPS - 1 - j) - TAPS = t - j by omega]
      exact hx

/-- **C139** What comes out depends on nothing but the last `TAPS` samples and the differences of the rates: two resamplers that differ in what they hold, and get samples that differ up to some call, give the same from the call on that
has pushed the last different sample out. The numbers of samples they give are the same from the start. -/
theorem C139_recovers {TAPS OVER fuel : ℕ} (hf : 2 ≤ fuel) (r s : Machine F) (hl : r.lpf = s.lpf) (hr : r.rate = s.rate) (hp : r.dpos = s.dpos) (R : Ready r.lpf TAPS OVER)
    (hb : r.buf.length = TAPS) (hb' : s.buf.length = TAPS) (hd : Inside r.dpos)
    (outs : ℕ → List (Ieee F)) (ho : ∀ t, 2 ≤ (outs t).length) (x y diff : ℕ → Ieee F) (hs : ∀ t, Slow (diff t / r.rate)) (t0 : ℕ) (hxy : ∀ t, t0 ≤ t → x t = y t) (T : ℕ) :
    ∃ r' s' zs ws, run (step TAPS OVER fuel) r ((List.range T).map fun t => (outs t, x t, diff t)) = .ok (r', zs) ∧
      run (step TAPS OVER fuel) s ((List.range T).map fun t => (outs t, y t, diff t)) = .ok (s', ws) ∧
      (∀ t < T, t0 + TAPS ≤ t + 1 → zs[t]? = ws[t]?) ∧ zs.map Prod.snd = ws.map Prod.snd := by
  refine ⟨_, _, _, _, C139_values D hf r R hb hd outs ho x diff hs T, C139_values D hf s (hl ▸ R) hb' (hp ▸ hd) outs ho y diff (hr ▸ hs) T, fun t ht h => ?_, ?_⟩
  · rw [List.getElem?_map, List.getElem?_map, List.getElem?_range ht, Option.map_some, Option.map_some, ← hl, ← hr, ← hp]
    have e : ∀ j < TAPS, history r.buf x (t + 1 + j) = history s.buf y (t + 1 + j) := fun j hj => by
      rw [history, history, if_neg (by omega), if_neg (by omega), hb, hb']
      exact hxy _ (by omega)
    have e2 : ∀ ps, samples r.lpf TAPS OVER (fun j => history r.buf x (t + 1 + j)) ps = samples r.lpf TAPS OVER (fun j => history s.buf y (t + 1 + j)) ps := fun ps =>
      List.map_congr_left fun d _ => total_same _ TAPS e
    rw [e2]
  · rw [← hr, ← hp]
    simp only [List.map_map]
    rfl

end

/-! ### Differences that are infinite or NaN -/

/-- What can be said of a call, if the offset after the first sample is not above a half. -/
theorem once {TAPS OVER fuel : ℕ} (D : UnitCircle.Deep F) (hf : 1 ≤ fuel) (r : Machine F) (R : Ready r.lpf TAPS OVER) (hb : r.buf.length = TAPS) (hd : Inside r.dpos) (hn : ¬r.dpos < -half)
    (output : List (Ieee F)) (ho : 1 ≤ output.length) (input diff : Ieee F) :
    ∃ (buf : List (Ieee F)) (y : Ieee F), buf.length = TAPS ∧
      call TAPS OVER fuel r output input diff = if half < r.dpos + diff / r.rate then again TAPS OVER (diff / r.rate) (fuel - 1) ⟨r.lpf, r.rate, r.dpos + diff / r.rate - 1, buf⟩ (output.set 0 y) 1
        else .ok (⟨r.lpf, r.rate, r.dpos + diff / r.rate, buf⟩, output.set 0 y, 1) := by
  obtain ⟨lpf, rate, d, buf⟩ := r
  simp only at hb R hd hn ⊢
  have hbuf : buf = (List.range TAPS).map (history buf fun _ => input) := by
    apply List.ext_getElem?
    intro i
    rw [List.getElem?_map]
    by_cases c : i < TAPS
    · rw [List.getElem?_range c, Option.map_some, history, if_pos (by omega), List.getD_eq_getElem?_getD, List.getElem?_eq_getElem (by omega), Option.getD_some]
    · rw [List.getElem?_eq_none (by omega), List.getElem?_eq_none (by simp; omega)]
      rfl
  have hi : history buf (fun _ => input) TAPS = input := by rw [history, if_neg (by omega)]
  have hsh := shiftIn_ok (history buf fun _ => input) TAPS R.taps buf hbuf
  rw [hi] at hsh
  obtain ⟨fuel, rfl⟩ : ∃ n, fuel = n + 1 := ⟨fuel - 1, by omega⟩
  have sm := sum_ok ⟨lpf, rate, d, (List.range TAPS).map fun j => history buf (fun _ => input) (j + 1)⟩ TAPS OVER _ rfl fun s hs => taps_ok D R d hd.1 hd.2.1 (by have := hd.2.2; linarith) s hs
  refine ⟨(List.range TAPS).map fun j => history buf (fun _ => input) (j + 1), total (fun s => value lpf (TAPS * OVER) (((s : ℤ) : Ieee F) + d)) (fun j => history buf (fun _ => input) (j + 1)) TAPS, by simp, ?_⟩
  · simp only [call, hsh, bind, Except.bind, if_neg hn, again, sm, pure, Except.pure]
    rw [wr_nat (i := 0) (by omega)]
    rfl

omit [NeZero F.p] in
/-- Nothing can be computed at an offset that is infinite or NaN. -/
theorem sum_undefined {TAPS OVER : ℕ} (r : Machine F) (hT : 1 ≤ TAPS) (hd : ¬r.dpos.Finite) : ∃ e, r.sum TAPS OVER = .error e := by
  obtain ⟨n, rfl⟩ : ∃ n, TAPS = n + 1 := ⟨TAPS - 1, by omega⟩
  obtain ⟨e, he⟩ := NaturalSpline.C128_nowhere r.lpf ((n + 1) * OVER) ((((0 : ℕ) : ℤ) : Ieee F) + r.dpos)
    (div_bad _ _ (sub_bad_left _ _ (add_bad_right _ _ hd)))
  refine ⟨e, ?_⟩
  rw [sum, List.range_succ_eq_map, List.foldlM_cons]
  simp only [he, bind, Except.bind]

section
variable {TAPS OVER fuel : ℕ} (D : UnitCircle.Deep F) (hf : 1 ≤ fuel) (r : Machine F) (R : Ready r.lpf TAPS OVER) (hb : r.buf.length = TAPS) (hd : Inside r.dpos) (hn : ¬r.dpos < -half)
  (output : List (Ieee F)) (ho : 1 ≤ output.length) (input diff : Ieee F)
include D hf R hb hd hn ho

/-- **C139** If the quotient of the difference and the rate is NaN (also if both are zero), the call still gives a sample, but every later one is undefined, whatever it is given. -/
theorem C139_nan (h : diff / r.rate = nan) : ∃ r' out, call TAPS OVER fuel r output input diff = .ok (r', out, 1) ∧ r'.dpos = nan ∧
    ∀ fuel output input diff, ∃ e, call TAPS OVER fuel r' output input diff = .error e := by
  obtain ⟨buf, y, hl, e⟩ := once D hf r R hb hd hn output ho input diff
  have hs : r.dpos + diff / r.rate = nan := by rw [h]; cases r.dpos <;> rfl
  rw [hs, if_neg (show ¬(half : Ieee F) < nan from Bool.false_ne_true)] at e
  refine ⟨_, _, e, rfl, fun fuel output input diff => ?_⟩
  cases hsh : shiftIn buf TAPS input with
  | error e => exact ⟨e, by simp only [call, hsh, bind, Except.bind]⟩
  | ok b =>
    cases fuel with
    | zero => exact ⟨.diverge, by simp only [call, hsh, bind, Except.bind]; rfl⟩
    | succ n =>
      obtain ⟨e, he⟩ := sum_undefined (OVER := OVER) ⟨r.lpf, r.rate, nan, b⟩ R.taps id
      refine ⟨e, ?_⟩
      simp only [call, hsh, bind, Except.bind]
      rw [if_neg (show ¬(nan : Ieee F) < -half from Bool.false_ne_true)]
      simp only [again, he, bind, Except.bind]

/-- **C139** If the quotient is infinite and positive, as for a positive difference and a rate of zero, the call is undefined. -/
theorem C139_infinite (h : diff / r.rate = inf false) : ∃ e, call TAPS OVER fuel r output input diff = .error e := by
  obtain ⟨buf, y, hl, e⟩ := once D hf r R hb hd hn output ho input diff
  have hs : r.dpos + diff / r.rate = inf false := by
    rw [h]
    obtain ⟨s, m, hm⟩ := (finite_iff r.dpos).mp hd.1.1
    rw [hm]
    rfl
  rw [hs, if_pos (show (half : Ieee F) < inf false from rfl)] at e
  rw [e]
  cases fuel - 1 with
  | zero => exact ⟨.diverge, rfl⟩
  | succ n =>
    have hi : (inf false : Ieee F) - 1 = inf false := by
      have U := NCO.usual_of_wide D.wide
      obtain ⟨s, m, hm⟩ := (finite_iff (1 : Ieee F)).mp (FMDRounded.good_one U).1.1
      rw [hm]
      rfl
    obtain ⟨e, he⟩ := sum_undefined (OVER := OVER) ⟨r.lpf, r.rate, (inf false : Ieee F) - 1, buf⟩ R.taps (by rw [hi]; exact id)
    exact ⟨e, by simp only [again, he, bind, Except.bind]⟩

/-- **C139** If the quotient is infinite and negative, the call gives one more sample, and no later call gives any, whatever it is given. -/
theorem C139_never (h : diff / r.rate = inf true) : ∃ r' out, call TAPS OVER fuel r output input diff = .ok (r', out, 1) ∧
    ∀ xs : List (List (Ieee F) × Ieee F × Ieee F), ∃ r'', run (step TAPS OVER fuel) r' xs = .ok (r'', xs.map fun a => (a.1, 0)) := by
  obtain ⟨buf, y, hl, e⟩ := once D hf r R hb hd hn output ho input diff
  have hs : r.dpos + diff / r.rate = inf true := by
    rw [h]
    obtain ⟨s, m, hm⟩ := (finite_iff r.dpos).mp hd.1.1
    rw [hm]
    rfl
  rw [hs, if_neg (show ¬(half : Ieee F) < inf true from Bool.false_ne_true)] at e
  refine ⟨_, _, e, fun xs => ?_⟩
  have U := NCO.usual_of_wide D.wide
  have hi : (inf true : Ieee F) + 1 = inf true := by
    obtain ⟨s, m, hm⟩ := (finite_iff (1 : Ieee F)).mp (FMDRounded.good_one U).1.1
    rw [hm]
    rfl
  clear e
  induction xs generalizing buf with
  | nil => exact ⟨_, rfl⟩
  | cons a xs ih =>
    have hbuf : buf = (List.range TAPS).map (history buf fun _ => a.2.1) := by
      apply List.ext_getElem?
      intro i
      rw [List.getElem?_map]
      by_cases c : i < TAPS
      · rw [List.getElem?_range c, Option.map_some, history, if_pos (by omega), List.getD_eq_getElem?_getD, List.getElem?_eq_getElem (by omega), Option.getD_some]
      · rw [List.getElem?_eq_none (by omega), List.getElem?_eq_none (by simp; omega)]
        rfl
    have hsh := shiftIn_ok (history buf fun _ => a.2.1) TAPS R.taps buf hbuf
    rw [history, if_neg (by omega)] at hsh
    obtain ⟨r'', e''⟩ := ih ((List.range TAPS).map fun j => history buf (fun _ => a.2.1) (j + 1)) (by simp)
    refine ⟨r'', ?_⟩
    rw [run]
    have hc : step TAPS OVER fuel ⟨r.lpf, r.rate, inf true, buf⟩ a = .ok (⟨r.lpf, r.rate, inf true, (List.range TAPS).map fun j => history buf (fun _ => a.2.1) (j + 1)⟩, a.1, 0) := by
      simp only [step, call, hsh, bind, Except.bind]
      rw [if_pos (show (inf true : Ieee F) < -half from rfl)]
      simp only [hi, pure, Except.pure]
    rw [hc]
    simp only [e'', List.map_cons]

end

/-- The simplest filter, that is one everywhere, of two taps in single precision. -/
def flat (rate : Ieee .single) : Machine .single := ⟨⟨[1], [0], [0], [0], 0, 1⟩, rate, 0, [0, 0]⟩

theorem flat_ready (rate : Ieee .single) : Ready (flat rate).lpf 2 1 := by
  have U := NCO.usual_of_wide UnitCircle.deep_single.wide
  obtain ⟨g1, v1⟩ := FMDRounded.good_one U
  refine ⟨by norm_num, by norm_num, by norm_num, rfl, rfl, rfl, rfl, FMDRounded.zero_good, ⟨g1, ?_⟩, ?_⟩
  · have : (1 : Ieee .single).val = 1 := by exact_mod_cast v1
    show 0 < (1 : Ieee .single).val
    rw [this]
    norm_num
  · show ((2 : ℕ) : ℝ) + 1 ≤ 2 ^ 30 * ((1 : Ieee .single).val : ℝ)
    rw [v1]
    norm_num

theorem flat_inside (rate : Ieee .single) : Inside (flat rate).dpos :=
  ⟨FMDRounded.zero_good.1, by show -1 ≤ (0 : Ieee .single).val; rw [FMDRounded.zero_good.2]; norm_num, by show (0 : Ieee .single).val ≤ 1 / 2; rw [FMDRounded.zero_good.2]; norm_num⟩

/-- A NaN among the samples and no difference of the rates. -/
example : ∃ r' zs, run (step 2 1 2) (flat 1) ((List.range 5).map fun t => ([0, 0], if t = 1 then nan else 1, 0)) = .ok (r', zs) ∧ zs.length = 5 := by
  have h0 : (0 : Ieee .single) / 1 = 0 := by decide +kernel
  obtain ⟨r', zs, e, h, -⟩ := C139_stream UnitCircle.deep_single le_rfl (flat 1) (flat_ready 1) rfl (flat_inside 1) (fun _ => [0, 0]) (by simp) (fun t => if t = 1 then nan else 1) (fun _ => 0)
    (fun _ => by show Slow ((0 : Ieee .single) / 1); rw [h0]; exact ⟨FMDRounded.zero_good.1, by rw [FMDRounded.zero_good.2]; norm_num⟩) 5
  exact ⟨r', zs, e, h⟩

/-- A rate of zero, and no difference. -/
example : ∃ r' out, call 2 1 2 (flat 0) [0] 1 0 = .ok (r', out, 1) ∧ r'.dpos = nan ∧ ∀ fuel output input diff, ∃ e, call 2 1 fuel r' output input diff = .error e :=
  C139_nan UnitCircle.deep_single (by norm_num) (flat 0) (flat_ready 0) rfl (flat_inside 0) (by show ¬(0 : Ieee .single) < -half; decide +kernel) [0] le_rfl 1 0 (by show (0 : Ieee .single) / 0 = nan; decide +kernel)

/-- A rate of zero, and a negative difference. -/
example : ∃ r' out, call 2 1 2 (flat 0) [0] 1 (-1) = .ok (r', out, 1) ∧ ∀ xs : List (List (Ieee .single) × Ieee .single × Ieee .single), ∃ r'', run (step 2 1 2) r' xs = .ok (r'', xs.map fun a => (a.1, 0)) :=
  C139_never UnitCircle.deep_single (by norm_num) (flat 0) (flat_ready 0) rfl (flat_inside 0) (by show ¬(0 : Ieee .single) < -half; decide +kernel) [0] le_rfl 1 (-1) (by show (-1 : Ieee .single) / 0 = inf true; decide +kernel)

/-- A rate of zero, and a positive difference. -/
example : ∃ e, call 2 1 2 (flat 0) [0] 1 1 = .error e :=
  C139_infinite UnitCircle.deep_single (by norm_num) (flat 0) (flat_ready 0) rfl (flat_inside 0) (by show ¬(0 : Ieee .single) < -half; decide +kernel) [0] le_rfl 1 1 (by show (1 : Ieee .single) / 0 = inf false; decide +kernel)

end DSP.Resampler2.Machine
