import Verif.Lemmas.Estimators
import Mathlib.Tactic.Ring
import Mathlib.Tactic.FieldSimp
import Mathlib.Tactic.Linarith
import Mathlib.Data.Rat.Defs
import Mathlib.Algebra.Order.Ring.Rat
import Mathlib.Algebra.Field.Rat

/-! Properties C27 and C28: robust line estimators. Arrays `x`, `y` of at least `LEN` cells are given as the first and second
coordinates of `LEN` points, followed by anything. -/

set_option linter.unusedSectionVars false

namespace DSP
open Spec
variable {K : Type} [Field K] [LinearOrder K]

namespace Spec

theorem slopes_length (ps : List (K × K)) : 2 * (slopes ps).length ≤ ps.length * (ps.length - 1) := by
  induction ps with
  | nil => simp [slopes]
  | cons p ps ih =>
    have h : (slopesFrom p ps).length ≤ ps.length := by
      rw [slopesFrom, List.length_map]; exact List.length_filter_le _ _
    simp only [slopes, List.length_append, List.length_cons, Nat.add_sub_cancel]
    cases ps with
    | nil => simp at h ⊢; simp [slopes, h]
    | cons q qs =>
      simp only [List.length_cons, Nat.add_sub_cancel] at *
      ring_nf at *
      omega

/-- A point lies on the line `y = c + m x`. -/
def OnLine (m c : K) (p : K × K) : Prop := p.2 = c + m * p.1

theorem slope_of_onLine {m c : K} {p q : K × K} (hp : OnLine m c p) (hq : OnLine m c q) (h : q.1 ≠ p.1) : slope p q = m := by
  unfold OnLine at *
  have : q.1 - p.1 ≠ 0 := sub_ne_zero.2 h
  rw [slope, hp, hq, div_eq_iff this]; ring

theorem intercept_of_onLine {m c : K} {p q : K × K} (hp : OnLine m c p) (hq : OnLine m c q) (h : q.1 ≠ p.1) : intercept p q = c := by
  rw [intercept, slope_of_onLine hp hq h, hp]; ring

theorem slopes_of_onLine {m c : K} {ps : List (K × K)} (h : ∀ p ∈ ps, OnLine m c p) : ∀ s ∈ slopes ps, s = m := by
  induction ps with
  | nil => simp [slopes]
  | cons p ps ih =>
    intro s hs
    simp only [slopes, List.mem_append, slopesFrom, List.mem_map, List.mem_filter, decide_eq_true_eq] at hs
    rcases hs with ⟨q, ⟨hq, hne⟩, rfl⟩ | hs
    · exact slope_of_onLine (h p (by simp)) (h q (by simp [hq])) hne
    · exact ih (fun p hp => h p (by simp [hp])) s hs

theorem count_slopes {m : K} (P : K × K → Bool) (ps : List (K × K)) :
    (slopes (ps.filter P)).count m ≤ (slopes ps).count m := by
  induction ps with
  | nil => simp
  | cons p ps ih =>
    rw [List.filter_cons]
    split
    · simp only [slopes, List.count_append]
      have : (slopesFrom p (ps.filter P)).count m ≤ (slopesFrom p ps).count m := by
        unfold slopesFrom
        exact ((List.filter_sublist.filter _).map _).count_le _
      omega
    · simp only [slopes, List.count_append]; omega

end Spec

section TheilSen

theorem TheilSen.all'_eq (ps : List (K × K)) : TheilSen.all' (fun a b : K => decide (a ≠ b)) ps = slopes ps := by
  induction ps with
  | nil => rfl
  | cons p ps ih => rw [TheilSen.all', slopes, ih]; rfl

/-- **C27**: the slope is the upper median of all pairwise slopes, the intercept the upper median of the residuals (of the first
residual only if `LEN_MAX = 2`), and `xint` is the zero of the line. -/
theorem C27_theil_sen (LEN_MAX : Nat) (ps : List (K × K)) (xr yr temp : List K) (hlen : ps.length ≤ LEN_MAX)
    (htemp : temp.length = TheilSen.size LEN_MAX) (hs : slopes ps ≠ []) :
    ∃ l, TheilSen.compute (fun a b => decide (a < b)) (fun a b => decide (a ≠ b)) LEN_MAX temp (ps.map Prod.fst ++ xr)
        (ps.map Prod.snd ++ yr) ps.length = .ok l ∧
      IsUpperMedian l.slope (slopes ps) ∧
      IsUpperMedian l.yint ((residuals l.slope ps).take (TheilSen.size LEN_MAX)) ∧
      (3 ≤ LEN_MAX → IsUpperMedian l.yint (residuals l.slope ps)) ∧
      (l.slope ≠ 0 → l.eval l.xint = 0) := by
  have hsl := slopes_length ps
  have hsz : (slopes ps).length ≤ TheilSen.size LEN_MAX := by
    unfold TheilSen.size
    have : ps.length * (ps.length - 1) ≤ (LEN_MAX - 1) * LEN_MAX := by
      rw [Nat.mul_comm]; exact Nat.mul_le_mul (by omega) hlen
    omega
  have hpos : 0 < (slopes ps).length := List.length_pos_of_ne_nil hs
  have hps : ps ≠ [] := by rintro rfl; exact hs rfl
  obtain ⟨t1, c1, e1, h1⟩ := TheilSen.slopeLoop_ok (fun a b : K => decide (a ≠ b)) ps xr yr (TheilSen.size LEN_MAX) ps.length temp [] 0 0 (by omega)
    (by rw [← htemp]; exact .nil)
  rw [List.drop_zero, List.nil_append, TheilSen.all'_eq] at h1
  rw [show ((0 : Nat) : Int) = 0 from rfl] at e1
  obtain ⟨t2, m, e2, h2, hm⟩ := h1.median hs hsz
  obtain ⟨t3, c3, e3, h3⟩ := TheilSen.resLoop_ok m ps xr yr (TheilSen.size LEN_MAX) ps.length t2 [] 0 0 (by omega) (by rw [← h2]; exact .nil)
  rw [List.drop_zero, List.nil_append] at h3
  rw [show ((0 : Nat) : Int) = 0 from rfl] at e3
  have h3' : Fill (TheilSen.size LEN_MAX) t3 c3 ((residuals m ps).take (TheilSen.size LEN_MAX)) := by
    refine ⟨h3.len, ?_, ?_⟩
    · rw [h3.count, List.length_take]; simp [residuals]
    · have := h3.cells
      rw [List.take_take, min_self, List.length_take]
      simpa [residuals] using this
  obtain ⟨t4, c, e4, h4, hc⟩ := h3'.median (by
      have : 0 < ps.length := List.length_pos_of_ne_nil hps
      apply List.ne_nil_of_length_pos
      rw [List.length_take, residuals, List.length_map]; omega) (by rw [List.length_take]; omega)
  refine ⟨⟨(-c) / m, c, m⟩, ?_, hm, hc, ?_, ?_⟩
  · simp only [TheilSen.compute, Int.toNat_natCast, e1, e2, e3, e4, bind, Except.bind, pure, Except.pure]
  · intro h
    rwa [List.take_of_length_le] at hc
    rw [residuals, List.length_map]
    obtain ⟨k, rfl⟩ : ∃ k, LEN_MAX = k + 3 := ⟨LEN_MAX - 3, by omega⟩
    unfold TheilSen.size
    have : (k + 3 - 1) * (k + 3) = k * k + 5 * k + 6 := by
      rw [show k + 3 - 1 = k + 2 from rfl]; ring
    rw [this]
    have : 2 * (k + 3) ≤ k * k + 5 * k + 6 := by nlinarith
    omega
  · intro h
    simp only [Line.eval]
    rw [mul_div_cancel₀ _ h]; ring

/-- **C27**: a majority of the pairs and of the points on a line decides (in particular data that lies on a line). -/
theorem C27_majority (LEN_MAX : Nat) (h3 : 3 ≤ LEN_MAX) (ps : List (K × K)) (xr yr temp : List K) (hlen : ps.length ≤ LEN_MAX)
    (htemp : temp.length = TheilSen.size LEN_MAX) (m c : K) (good : K × K → Bool) (hgood : ∀ p, good p = true → OnLine m c p)
    (hpairs : (slopes ps).length < 2 * (slopes (ps.filter good)).length) (hpts : ps.length < 2 * (ps.filter good).length) :
    ∃ l, TheilSen.compute (fun a b => decide (a < b)) (fun a b => decide (a ≠ b)) LEN_MAX temp (ps.map Prod.fst ++ xr)
        (ps.map Prod.snd ++ yr) ps.length = .ok l ∧ l.slope = m ∧ l.yint = c := by
  have hall : (slopes (ps.filter good)).count m = (slopes (ps.filter good)).length := by
    rw [List.count_eq_length]
    intro s hs
    exact (slopes_of_onLine (fun p hp => hgood p (List.mem_filter.1 hp).2) s hs).symm
  have hcnt := count_slopes (m := m) good ps
  have hle := List.count_le_length (a := m) (l := slopes ps)
  obtain ⟨l, e, h1, -, h2, -⟩ := C27_theil_sen LEN_MAX ps xr yr temp hlen htemp (by
    apply List.ne_nil_of_length_pos; omega)
  have hm := h1.majority (w := m) (by omega)
  refine ⟨l, e, hm, (h2 h3).majority ?_⟩
  rw [hm]
  have : (ps.filter good).length ≤ (residuals m ps).count c := by
    rw [residuals, List.count_eq_countP, List.countP_map, ← List.countP_eq_length_filter]
    apply List.countP_mono_left
    intro p _ hp
    simp only [Function.comp, beq_iff_eq]
    rw [hgood p hp]; ring
  have hr : (residuals m ps).length = ps.length := by simp [residuals]
  omega

/-- **C27**: collinear data (not all on one vertical) is recovered exactly, for any `LEN_MAX >= 2`. -/
theorem C27_line (LEN_MAX : Nat) (ps : List (K × K)) (xr yr temp : List K) (hlen : ps.length ≤ LEN_MAX)
    (htemp : temp.length = TheilSen.size LEN_MAX) (m c : K) (hline : ∀ p ∈ ps, OnLine m c p) (p q : K × K) (hp : p ∈ ps) (hq : q ∈ ps)
    (hpq : p.1 ≠ q.1) :
    ∃ l, TheilSen.compute (fun a b => decide (a < b)) (fun a b => decide (a ≠ b)) LEN_MAX temp (ps.map Prod.fst ++ xr)
        (ps.map Prod.snd ++ yr) ps.length = .ok l ∧ l.slope = m ∧ l.yint = c := by
  have hs : slopes ps ≠ [] := by
    clear hline hlen
    induction ps with
    | nil => simp at hp
    | cons r ps ih =>
      intro h
      simp only [slopes, List.append_eq_nil_iff, slopesFrom, List.map_eq_nil_iff, List.filter_eq_nil_iff, decide_eq_true_eq, not_not] at h
      obtain ⟨h1, h2⟩ := h
      rcases List.mem_cons.1 hp with e1 | hp'
      · rcases List.mem_cons.1 hq with e2 | hq'
        · exact hpq (by rw [e1, e2])
        · exact hpq (by rw [e1, h1 q hq'])
      · rcases List.mem_cons.1 hq with e2 | hq'
        · exact hpq (by rw [e2, h1 p hp'])
        · exact ih hp' hq' h2
  obtain ⟨l, e, h1, h2, -, -⟩ := C27_theil_sen LEN_MAX ps xr yr temp hlen htemp hs
  have hpos : 0 < (slopes ps).length := List.length_pos_of_ne_nil hs
  have hm := h1.majority (w := m) (by
    rw [List.count_eq_length.2 fun s hs => (slopes_of_onLine hline s hs).symm]; omega)
  refine ⟨l, e, hm, h2.majority (w := c) ?_⟩
  rw [List.count_eq_length.2]
  · obtain ⟨zs, hz, -, hz2⟩ := h2
    have := (List.getElem?_eq_some_iff.1 hz2).1
    rw [hz.length_eq] at this
    omega
  · intro s hs
    have := List.mem_of_mem_take hs
    simp only [residuals, List.mem_map] at this
    obtain ⟨p, hp, rfl⟩ := this
    rw [hm, hline p hp]; ring

/-- **C27**: memory safety for any type, any `!=`, any irreflexive `<` and any length (also beyond `LEN_MAX`): either a result, or
a failed assertion because there was no slope to choose from. -/
theorem C27_safe {α : Type} [Sub α] [Mul α] [Div α] [Neg α] (lt ne : α → α → Bool) (hirr : ∀ x, lt x x = false) (LEN_MAX : Nat)
    (ps : List (α × α)) (xr yr temp : List α) (htemp : temp.length = TheilSen.size LEN_MAX) :
    (∃ l, TheilSen.compute lt ne LEN_MAX temp (ps.map Prod.fst ++ xr) (ps.map Prod.snd ++ yr) ps.length = .ok l) ∨
    (TheilSen.compute lt ne LEN_MAX temp (ps.map Prod.fst ++ xr) (ps.map Prod.snd ++ yr) ps.length = .error .assertion ∧
      (LEN_MAX ≤ 1 ∨ TheilSen.all' ne ps = [])) := by
  obtain ⟨t1, c1, e1, h1⟩ := TheilSen.slopeLoop_ok ne ps xr yr (TheilSen.size LEN_MAX) ps.length temp [] 0 0 (by omega)
    (by rw [← htemp]; exact .nil)
  rw [List.drop_zero, List.nil_append] at h1
  rw [show ((0 : Nat) : Int) = 0 from rfl] at e1
  by_cases hL : (TheilSen.all' ne ps).take (TheilSen.size LEN_MAX) = []
  · right
    refine ⟨?_, ?_⟩
    · simp only [TheilSen.compute, Int.toNat_natCast, e1, h1.median_empty lt hL, bind, Except.bind]
    · rw [List.take_eq_nil_iff] at hL
      refine hL.imp ?_ id
      intro h
      unfold TheilSen.size at h
      by_contra h2
      have : 1 * 2 ≤ (LEN_MAX - 1) * LEN_MAX := Nat.mul_le_mul (by omega) (by omega)
      omega
  · left
    obtain ⟨t2, m, e2, h2⟩ := h1.median_any lt hirr hL
    obtain ⟨t3, c3, e3, h3⟩ := TheilSen.resLoop_ok m ps xr yr (TheilSen.size LEN_MAX) ps.length t2 [] 0 0 (by omega) (by rw [← h2]; exact .nil)
    rw [List.drop_zero, List.nil_append] at h3
    rw [show ((0 : Nat) : Int) = 0 from rfl] at e3
    obtain ⟨t4, c, e4, -⟩ := h3.median_any lt hirr (by
      intro h
      rw [List.take_eq_nil_iff, List.map_eq_nil_iff] at h
      apply hL
      rcases h with h | rfl
      · rw [h]; rfl
      · simp [TheilSen.all'])
    exact ⟨_, by simp only [TheilSen.compute, Int.toNat_natCast, e1, e2, e3, e4, bind, Except.bind, pure, Except.pure]; rfl⟩

/-- Three points on `y = 1 + 2 x` and one outlier. -/
example : let ps : List (ℚ × ℚ) := [(0, 1), (1, 3), (2, 100), (3, 7), (5, 11)]
    let good : ℚ × ℚ → Bool := fun p => decide (p.2 = 1 + 2 * p.1)
    (slopes ps).length < 2 * (slopes (ps.filter good)).length ∧ ps.length < 2 * (ps.filter good).length ∧
    (TheilSen.compute (fun a b => decide (a < b)) (fun a b => decide (a ≠ b)) 5 (List.replicate 10 0) (ps.map Prod.fst)
      (ps.map Prod.snd) 5).map (fun l => (l.slope, l.yint, l.xint)) = .ok (2, 1, -1 / 2) := by decide +kernel

end TheilSen

section RepeatedMedian

theorem RepeatedMedian.from'_slope (p : K × K) (ps : List (K × K)) :
    RepeatedMedian.from' (fun a b : K => decide (a ≠ b)) RepeatedMedian.slopeOf p ps = slopesFrom p ps := rfl

theorem RepeatedMedian.from'_intercept (p : K × K) (ps : List (K × K)) :
    RepeatedMedian.from' (fun a b : K => decide (a ≠ b)) RepeatedMedian.interceptOf p ps = interceptsFrom p ps := by
  unfold RepeatedMedian.from' interceptsFrom
  apply List.map_congr_left
  intro q hq
  have : q.1 - p.1 ≠ 0 := sub_ne_zero.2 (by simpa using (List.mem_filter.1 hq).2)
  simp only [RepeatedMedian.interceptOf, intercept, slope]
  field_simp
  ring

theorem slopesFrom_ne_nil {p : K × K} {ps : List (K × K)} (h : ∃ q ∈ ps, q.1 ≠ p.1) : slopesFrom p ps ≠ [] := by
  obtain ⟨q, hq, hne⟩ := h
  rw [slopesFrom, Ne, List.map_eq_nil_iff, List.filter_eq_nil_iff]
  intro h; exact h q hq (by simpa using hne)

theorem interceptsFrom_ne_nil {p : K × K} {ps : List (K × K)} (h : ∃ q ∈ ps, q.1 ≠ p.1) : interceptsFrom p ps ≠ [] := by
  have := slopesFrom_ne_nil h
  rw [slopesFrom, Ne, List.map_eq_nil_iff] at this
  rw [interceptsFrom, Ne, List.map_eq_nil_iff]
  exact this

/-- **C28**: `RepeatedMedianEstimator` computes the nested medians. `ps` are the points the estimator looks at, that is the first
`min(LEN, SIZE)` ones. -/
theorem C28_nested (SIZE : Nat) (ps : List (K × K)) (xr yr inner outer : List K) (LEN : Int) (hLEN : (ps.length : Int) = min LEN SIZE)
    (hin : inner.length = SIZE - 1) (hout : outer.length = SIZE) (hne : ps ≠ []) (hps : ∀ p ∈ ps, ∃ q ∈ ps, q.1 ≠ p.1) :
    ∃ l ss cs, RepeatedMedian.compute (fun a b => decide (a < b)) (fun a b => decide (a ≠ b)) SIZE inner outer (ps.map Prod.fst ++ xr)
        (ps.map Prod.snd ++ yr) LEN = .ok l ∧
      ss.length = ps.length ∧ (∀ (i : Nat) s p, ss[i]? = some s → ps[i]? = some p → IsUpperMedian s (slopesFrom p ps)) ∧
      IsUpperMedian l.slope ss ∧
      cs.length = ps.length ∧ (∀ (i : Nat) c p, cs[i]? = some c → ps[i]? = some p → IsUpperMedian c (interceptsFrom p ps)) ∧
      IsUpperMedian l.yint cs ∧ (l.slope ≠ 0 → l.eval l.xint = 0) := by
  have hpos : 0 < ps.length := List.length_pos_of_ne_nil hne
  have hL : (if LEN > (SIZE : Int) then (SIZE : Int) else LEN) = ps.length := by split <;> omega
  obtain ⟨in1, ss, e1, h1, l1, m1⟩ := RepeatedMedian.outerLoop_ok (fun a b : K => decide (a ≠ b)) (by simp) RepeatedMedian.slopeOf ps xr yr
    (SIZE - 1) (by omega) (fun p hp => slopesFrom_ne_nil (hps p hp)) ps.length inner [] outer hin (by simp; omega) (by simp) (by simp)
    (by intro i m p h; simp at h)
  obtain ⟨ys1, s, e2, hys1, hs⟩ := select_median ss (outer.drop ps.length) (by apply List.ne_nil_of_length_pos; omega)
  obtain ⟨in2, cs, e3, h3, l3, m3⟩ := RepeatedMedian.outerLoop_ok (fun a b : K => decide (a ≠ b)) (by simp) RepeatedMedian.interceptOf ps xr yr
    (SIZE - 1) (by omega) (fun p hp => by rw [RepeatedMedian.from'_intercept]; exact interceptsFrom_ne_nil (hps p hp)) ps.length in1 []
    (ys1 ++ outer.drop ps.length) h1 (by simp; omega) (by simp) (by simp) (by intro i m p h; simp at h)
  obtain ⟨ys2, c, e4, hys2, hc⟩ := select_median cs ((ys1 ++ outer.drop ps.length).drop ps.length) (by apply List.ne_nil_of_length_pos; omega)
  simp only [List.nil_append, List.length_nil, Nat.sub_zero, Nat.cast_zero] at e1 e3
  rw [l1] at e2
  rw [l3] at e4
  refine ⟨⟨(-c) / s, c, s⟩, ss, cs, ?_, l1, ?_, hs, l3, ?_, hc, ?_⟩
  · simp only [RepeatedMedian.compute, hL, Int.toNat_natCast, e1, e2, e3, e4, bind, Except.bind, pure, Except.pure]
  · intro i m p hm hp; exact m1 i m p hm hp
  · intro i m p hm hp
    rw [← RepeatedMedian.from'_intercept]
    exact m3 i m p hm hp
  · intro h
    simp only [Line.eval]
    rw [mul_div_cancel₀ _ h]; ring

/-- **C28**: `RepeatedMedianEstimator2` computes the nested median of slopes and the median of the residuals. -/
theorem C28_nested2 (SIZE : Nat) (ps : List (K × K)) (xr yr inner outer : List K) (LEN : Int) (hLEN : (ps.length : Int) = min LEN SIZE)
    (hin : inner.length = SIZE - 1) (hout : outer.length = SIZE) (hne : ps ≠ []) (hps : ∀ p ∈ ps, ∃ q ∈ ps, q.1 ≠ p.1) :
    ∃ l ss, RepeatedMedian.compute2 (fun a b => decide (a < b)) (fun a b => decide (a ≠ b)) SIZE inner outer (ps.map Prod.fst ++ xr)
        (ps.map Prod.snd ++ yr) LEN = .ok l ∧
      ss.length = ps.length ∧ (∀ (i : Nat) s p, ss[i]? = some s → ps[i]? = some p → IsUpperMedian s (slopesFrom p ps)) ∧
      IsUpperMedian l.slope ss ∧ IsUpperMedian l.yint (residuals l.slope ps) ∧ (l.slope ≠ 0 → l.eval l.xint = 0) := by
  have hpos : 0 < ps.length := List.length_pos_of_ne_nil hne
  have hL : (if LEN > (SIZE : Int) then (SIZE : Int) else LEN) = ps.length := by split <;> omega
  obtain ⟨in1, ss, e1, h1, l1, m1⟩ := RepeatedMedian.outerLoop_ok (fun a b : K => decide (a ≠ b)) (by simp) RepeatedMedian.slopeOf ps xr yr
    (SIZE - 1) (by omega) (fun p hp => slopesFrom_ne_nil (hps p hp)) ps.length inner [] outer hin (by simp; omega) (by simp) (by simp)
    (by intro i m p h; simp at h)
  obtain ⟨ys1, s, e2, hys1, hs⟩ := select_median ss (outer.drop ps.length) (by apply List.ne_nil_of_length_pos; omega)
  have e3 := RepeatedMedian.resLoop_ok ps xr yr s ps.length 0 (ys1 ++ outer.drop ps.length) (by omega) (by simp; omega) (by omega)
  obtain ⟨ys2, c, e4, hys2, hc⟩ := select_median (residuals s ps) ((ys1 ++ outer.drop ps.length).drop (ps.length - 0))
    (by apply List.ne_nil_of_length_pos; simpa [residuals] using hpos)
  simp only [List.nil_append, List.length_nil, Nat.sub_zero, Nat.cast_zero, List.take_zero, List.map_nil] at e1 e3 e4
  rw [l1] at e2
  rw [show (residuals s ps).length = ps.length by simp [residuals], residuals] at e4
  refine ⟨⟨(-c) / s, c, s⟩, ss, ?_, l1, ?_, hs, hc, ?_⟩
  · simp only [RepeatedMedian.compute2, hL, Int.toNat_natCast, e1, e2, e3, e4, bind, Except.bind, pure, Except.pure]
  · intro i m p hm hp; exact m1 i m p hm hp
  · intro h
    simp only [Line.eval]
    rw [mul_div_cancel₀ _ h]; ring

theorem countP_le_count {β : Type} [DecidableEq β] {γ : Type} (P : γ → Bool) (v : β) (ss : List β) (ps : List γ) (hl : ss.length = ps.length)
    (h : ∀ (i : Nat) s p, ss[i]? = some s → ps[i]? = some p → P p = true → s = v) : ps.countP P ≤ ss.count v := by
  induction ps generalizing ss with
  | nil => simp
  | cons p ps ih =>
    cases ss with
    | nil => simp at hl
    | cons s ss =>
      have := ih ss (by simpa using hl) fun i s' p' h1 h2 => h (i + 1) s' p' (by simpa using h1) (by simpa using h2)
      rw [List.countP_cons, List.count_cons]
      by_cases hp : P p = true
      · rw [h 0 s p (by simp) (by simp) hp]; simp [hp]; omega
      · simp [hp]; omega

/-- Among points with distinct abscissae at most one is above or below `p`. -/
theorem filter_distinct (gs : List (K × K)) (hd : (gs.map Prod.fst).Nodup) (p : K × K) :
    gs.length ≤ (gs.filter (fun q => q.1 ≠ p.1)).length + 1 := by
  have h1 := List.nodup_iff_count_le_one.1 hd p.1
  rw [List.count_eq_countP, List.countP_map] at h1
  have h2 := List.length_eq_countP_add_countP (l := gs) (p := (fun q => decide (q.1 ≠ p.1)))
  rw [← List.countP_eq_length_filter]
  have h3 : List.countP (fun a => decide ¬decide (a.1 ≠ p.1) = true) gs =
      List.countP ((fun x => x == p.1) ∘ Prod.fst) gs := by
    apply List.countP_congr
    intro q _
    simp
  simp only [h3] at h2
  omega

/-- The outliers: how many points may be off the line. -/
theorem robust_aux (ps : List (K × K)) (m c : K) (good : K × K → Bool) (hgood : ∀ p, good p = true → OnLine m c p)
    (hd : ((ps.filter good).map Prod.fst).Nodup) (hb : 2 * (ps.countP (fun p => !good p) + 1) ≤ ps.length) :
    ps ≠ [] ∧ (∀ p ∈ ps, ∃ q ∈ ps, q.1 ≠ p.1) ∧
    (∀ p, p ∈ ps → good p = true → (slopesFrom p ps).length < 2 * (slopesFrom p ps).count m) ∧
    (∀ p, p ∈ ps → good p = true → (interceptsFrom p ps).length < 2 * (interceptsFrom p ps).count c) ∧
    ps.length < 2 * ps.countP good := by
  have hsum : ps.countP good + ps.countP (fun p => !good p) = ps.length := by
    have := List.length_eq_countP_add_countP (l := ps) (p := good)
    simp only [Bool.not_eq_true] at this
    rw [this]; congr 2; funext p; cases good p <;> rfl
  have hg : (ps.filter good).length = ps.countP good := by rw [List.countP_eq_length_filter]
  have hfl : ∀ p, p ∈ ps → (ps.filter (fun q => decide (q.1 ≠ p.1))).length < ps.length := fun p hp => by
    rw [List.length_filter_lt_length_iff_exists]; exact ⟨p, hp, by simp⟩
  have hsub : ∀ p : K × K, ((ps.filter good).filter (fun q => decide (q.1 ≠ p.1))).Sublist (ps.filter (fun q => decide (q.1 ≠ p.1))) :=
    fun p => List.filter_sublist.filter _
  have hmem : ∀ p q : K × K, q ∈ (ps.filter good).filter (fun q => decide (q.1 ≠ p.1)) → good q = true ∧ q.1 ≠ p.1 := fun p q hq => by
    obtain ⟨h1, h2⟩ := List.mem_filter.1 hq
    exact ⟨(List.mem_filter.1 h1).2, by simpa using h2⟩
  refine ⟨?_, ?_, ?_, ?_, by omega⟩
  · rintro rfl; simp at hb
  · intro p hp
    have := filter_distinct _ hd p
    have hpos : 0 < ((ps.filter good).filter (fun q => decide (q.1 ≠ p.1))).length := by omega
    obtain ⟨q, hq⟩ := List.exists_mem_of_length_pos hpos
    exact ⟨q, (hsub p).subset hq |> fun h => (List.mem_filter.1 h).1, (hmem p q hq).2⟩
  · intro p hp hgp
    have h1 := filter_distinct _ hd p
    have h2 : (slopesFrom p (ps.filter good)).count m ≤ (slopesFrom p ps).count m := ((hsub p).map _).count_le _
    have h3 : (slopesFrom p (ps.filter good)).count m = (slopesFrom p (ps.filter good)).length := by
      rw [List.count_eq_length]
      intro s hs
      obtain ⟨q, hq, rfl⟩ := List.mem_map.1 hs
      exact (slope_of_onLine (hgood p hgp) (hgood q (hmem p q hq).1) (hmem p q hq).2).symm
    have h4 : (slopesFrom p (ps.filter good)).length = ((ps.filter good).filter (fun q => decide (q.1 ≠ p.1))).length := by
      rw [slopesFrom, List.length_map]
    have h5 : (slopesFrom p ps).length < ps.length := by rw [slopesFrom, List.length_map]; exact hfl p hp
    omega
  · intro p hp hgp
    have h1 := filter_distinct _ hd p
    have h2 : (interceptsFrom p (ps.filter good)).count c ≤ (interceptsFrom p ps).count c := ((hsub p).map _).count_le _
    have h3 : (interceptsFrom p (ps.filter good)).count c = (interceptsFrom p (ps.filter good)).length := by
      rw [List.count_eq_length]
      intro s hs
      obtain ⟨q, hq, rfl⟩ := List.mem_map.1 hs
      exact (intercept_of_onLine (hgood p hgp) (hgood q (hmem p q hq).1) (hmem p q hq).2).symm
    have h4 : (interceptsFrom p (ps.filter good)).length = ((ps.filter good).filter (fun q => decide (q.1 ≠ p.1))).length := by
      rw [interceptsFrom, List.length_map]
    have h5 : (interceptsFrom p ps).length < ps.length := by rw [interceptsFrom, List.length_map]; exact hfl p hp
    omega

/-- **C28**: with at most `⌊n/2⌋ - 1` outliers among the `n` points (the others on a line, at distinct abscissae) the first
estimator returns the line. -/
theorem C28_robust (SIZE : Nat) (ps : List (K × K)) (xr yr inner outer : List K) (LEN : Int) (hLEN : (ps.length : Int) = min LEN SIZE)
    (hin : inner.length = SIZE - 1) (hout : outer.length = SIZE) (m c : K) (good : K × K → Bool)
    (hgood : ∀ p, good p = true → OnLine m c p) (hd : ((ps.filter good).map Prod.fst).Nodup)
    (hb : 2 * (ps.countP (fun p => !good p) + 1) ≤ ps.length) :
    ∃ l, RepeatedMedian.compute (fun a b => decide (a < b)) (fun a b => decide (a ≠ b)) SIZE inner outer (ps.map Prod.fst ++ xr)
        (ps.map Prod.snd ++ yr) LEN = .ok l ∧ l.slope = m ∧ l.yint = c := by
  obtain ⟨h1, h2, h3, h4, h5⟩ := robust_aux ps m c good hgood hd hb
  obtain ⟨l, ss, cs, e, l1, m1, hs, l2, m2, hc, -⟩ := C28_nested SIZE ps xr yr inner outer LEN hLEN hin hout h1 h2
  refine ⟨l, e, hs.majority ?_, hc.majority ?_⟩
  · have := countP_le_count good m ss ps l1 fun i s p hs hp hg => (m1 i s p hs hp).majority (h3 p (List.mem_of_getElem? hp) hg)
    omega
  · have := countP_le_count good c cs ps l2 fun i s p hs hp hg => (m2 i s p hs hp).majority (h4 p (List.mem_of_getElem? hp) hg)
    omega

/-- **C28** for the second estimator. -/
theorem C28_robust2 (SIZE : Nat) (ps : List (K × K)) (xr yr inner outer : List K) (LEN : Int) (hLEN : (ps.length : Int) = min LEN SIZE)
    (hin : inner.length = SIZE - 1) (hout : outer.length = SIZE) (m c : K) (good : K × K → Bool)
    (hgood : ∀ p, good p = true → OnLine m c p) (hd : ((ps.filter good).map Prod.fst).Nodup)
    (hb : 2 * (ps.countP (fun p => !good p) + 1) ≤ ps.length) :
    ∃ l, RepeatedMedian.compute2 (fun a b => decide (a < b)) (fun a b => decide (a ≠ b)) SIZE inner outer (ps.map Prod.fst ++ xr)
        (ps.map Prod.snd ++ yr) LEN = .ok l ∧ l.slope = m ∧ l.yint = c := by
  obtain ⟨h1, h2, h3, h4, h5⟩ := robust_aux ps m c good hgood hd hb
  obtain ⟨l, ss, e, l1, m1, hs, hc, -⟩ := C28_nested2 SIZE ps xr yr inner outer LEN hLEN hin hout h1 h2
  have hm : l.slope = m := hs.majority (by
    have := countP_le_count good m ss ps l1 fun i s p hs hp hg => (m1 i s p hs hp).majority (h3 p (List.mem_of_getElem? hp) hg)
    omega)
  refine ⟨l, e, hm, hc.majority ?_⟩
  rw [hm]
  have : ps.countP good ≤ (residuals m ps).count c := by
    rw [residuals, List.count_eq_countP, List.countP_map]
    apply List.countP_mono_left
    intro p _ hp
    simp only [Function.comp, beq_iff_eq]
    rw [hgood p hp]; ring
  have hr : (residuals m ps).length = ps.length := by simp [residuals]
  omega

/-- Four points on `y = 1 + 2 x`, two outliers. -/
example : let ps : List (ℚ × ℚ) := [(0, 1), (1, -50), (2, 5), (3, 7), (3, 70), (5, 11)]
    let good : ℚ × ℚ → Bool := fun p => decide (p.2 = 1 + 2 * p.1)
    ((ps.filter good).map Prod.fst).Nodup ∧ 2 * (ps.countP (fun p => !good p) + 1) ≤ ps.length ∧
    (RepeatedMedian.compute (fun a b => decide (a < b)) (fun a b => decide (a ≠ b)) 6 (List.replicate 5 0) (List.replicate 6 0)
      (ps.map Prod.fst) (ps.map Prod.snd) 6).map (fun l => (l.slope, l.yint, l.xint)) = .ok (2, 1, -1 / 2) ∧
    (RepeatedMedian.compute2 (fun a b => decide (a < b)) (fun a b => decide (a ≠ b)) 6 (List.replicate 5 0) (List.replicate 6 0)
      (ps.map Prod.fst) (ps.map Prod.snd) 6).map (fun l => (l.slope, l.yint, l.xint)) = .ok (2, 1, -1 / 2) := by decide +kernel

/-- The bound on the outliers is sharp: one outlier among three points breaks both estimators. -/
theorem C28_sharp :
    (RepeatedMedian.compute (fun a b : ℚ => decide (a < b)) (fun a b => decide (a ≠ b)) 3 [0, 0] [0, 0, 0] [0, 1, 2] [0, 0, 5] 3).map
      (fun l => l.slope) = .ok 5 ∧
    (RepeatedMedian.compute2 (fun a b : ℚ => decide (a < b)) (fun a b => decide (a ≠ b)) 3 [0, 0] [0, 0, 0] [0, 1, 2] [0, 0, 5] 3).map
      (fun l => l.slope) = .ok 5 := by decide +kernel

/-- With abscissae that differ from themselves (all NaN; the type `Unit` stands for NaN alone) the `SIZE`-th value is written behind
the end of `inner_[SIZE-1]`. -/
theorem C28_nan_bounds :
    letI : Sub Unit := ⟨fun _ _ => ()⟩
    letI : Mul Unit := ⟨fun _ _ => ()⟩
    letI : Div Unit := ⟨fun _ _ => ()⟩
    letI : Neg Unit := ⟨fun _ => ()⟩
    (RepeatedMedian.compute (fun _ _ : Unit => false) (fun _ _ => true) 3 [(), ()] [(), (), ()] [(), (), ()] [(), (), ()] 3).map (fun _ => ()) =
      .error .bounds := by decide +kernel

end RepeatedMedian
end DSP
