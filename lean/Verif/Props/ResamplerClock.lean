import Verif.Model.ResamplerClock
import Verif.Lemmas.Base
import Verif.Lemmas.BinaryBounds
import Verif.Lemmas.BinaryRounded
import Verif.Spec.Resample

/-!
# C81: where the resamplers take their samples in floating point
-/

namespace DSP
open Spec

namespace Resampler2

section exact

variable {A : Type} [AddCommGroup A] [Module ℝ A]

theorem again_clock (TAPS OVER : ℕ) (delta : ℝ) (fuel : ℕ) (r : Resampler2 A) (output : List A) (c : ℕ) (r' : Resampler2 A) (out : List A) (n : ℕ)
    (h : again TAPS OVER delta fuel r output c = .ok (r', out, n)) (acc : List ℝ) :
    ∃ ps : List ℝ, Clock.again 1 (1 / 2) delta fuel r.dpos acc = .ok (r'.dpos, acc ++ ps) ∧ n = c + ps.length ∧ r' = { r with dpos := r'.dpos } ∧ (∀ j < c, out[j]? = output[j]?) ∧
      ∀ (j : ℕ) x, ps[j]? = some x → ∃ v, ({ r with dpos := x } : Resampler2 A).sum TAPS OVER = .ok v ∧ out[c + j]? = some v := by
  induction fuel generalizing r output c acc with
  | zero => simp [again] at h
  | succ fuel ih =>
    simp only [again, bind, Except.bind, pure, Except.pure] at h
    cases hs : r.sum TAPS OVER with
    | error e => rw [hs] at h; simp at h
    | ok v =>
      rw [hs] at h
      simp only at h
      cases hw : wr output (c : ℤ) v with
      | error e => rw [hw] at h; simp at h
      | ok o2 =>
        rw [hw] at h
        simp only at h
        have hc : c < output.length ∧ o2 = output.set c v := by
          by_cases hc : c < output.length
          · rw [wr_nat hc] at hw; exact ⟨hc, (Except.ok.inj hw).symm⟩
          · rw [wr_error (by omega)] at hw; simp at hw
        obtain ⟨hc, rfl⟩ := hc
        simp only [Clock.again, pure, Except.pure]
        by_cases cond : r.dpos + delta > 1 / 2
        · rw [if_pos cond] at h
          rw [if_pos cond]
          obtain ⟨ps, e, hn, hr, hold, hnew⟩ := ih _ _ _ h (acc ++ [r.dpos])
          refine ⟨r.dpos :: ps, by rw [e]; simp, by rw [hn, List.length_cons]; ring, ?_, ?_, ?_⟩
          · exact hr
          · intro j hj
            rw [hold j (by omega), List.getElem?_set_ne (by omega)]
          · intro j x hx
            cases j with
            | zero =>
              simp only [List.getElem?_cons_zero, Option.some.injEq] at hx
              subst hx
              exact ⟨v, hs, by rw [add_zero, hold c (by omega), List.getElem?_set_self hc]⟩
            | succ j =>
              rw [List.getElem?_cons_succ] at hx
              obtain ⟨w, h1, h2⟩ := hnew j x hx
              exact ⟨w, h1, by rw [← h2]; congr 1; ring⟩
        · rw [if_neg cond] at h
          rw [if_neg cond]
          simp only [Except.ok.injEq, Prod.mk.injEq] at h
          obtain ⟨rfl, rfl, rfl⟩ := h
          refine ⟨[r.dpos], rfl, rfl, rfl, fun j hj => List.getElem?_set_ne (by omega), ?_⟩
          intro j x hx
          cases j with
          | zero =>
            simp only [List.getElem?_cons_zero, Option.some.injEq] at hx
            subst hx
            exact ⟨v, hs, by rw [add_zero, List.getElem?_set_self hc]⟩
          | succ j => simp at hx

/-- The model of the positions is the one of the whole function without the samples: in exact arithmetic it gives the same position and the same number of outputs, and the outputs are
what the filter gives at the positions in the list. -/
theorem C81_exact (TAPS OVER fuel : ℕ) (r r' : Resampler2 A) (output out : List A) (input : A) (diff : ℝ) (n : ℕ)
    (h : r.call TAPS OVER fuel output input diff = .ok (r', out, n)) :
    ∃ ps : List ℝ, Clock.call 1 (1 / 2) r.rate fuel r.dpos diff = .ok (r'.dpos, ps) ∧ n = ps.length ∧
      ∀ (j : ℕ) x, ps[j]? = some x → ∃ v, ({ r' with dpos := x } : Resampler2 A).sum TAPS OVER = .ok v ∧ out[j]? = some v := by
  simp only [call, bind, Except.bind, pure, Except.pure] at h
  cases hb : shiftIn r.buf TAPS input with
  | error e => rw [hb] at h; simp at h
  | ok b =>
    rw [hb] at h
    simp only at h
    simp only [Clock.call, pure, Except.pure]
    by_cases cond : r.dpos < -1 / 2
    · rw [if_pos cond] at h
      rw [if_pos (by linarith)]
      simp only [Except.ok.injEq, Prod.mk.injEq] at h
      obtain ⟨rfl, rfl, rfl⟩ := h
      exact ⟨[], rfl, rfl, fun j x hx => by simp at hx⟩
    · rw [if_neg cond] at h
      rw [if_neg (by intro h; exact cond (by linarith))]
      by_cases hr : r.rate = 0
      · simp [fdiv, hr] at h
      · simp only [fdiv, if_neg hr] at h
        obtain ⟨ps, e, hn, hr', -, hnew⟩ := again_clock TAPS OVER _ fuel _ _ _ _ _ _ h []
        refine ⟨ps, ?_, by simpa using hn, ?_⟩
        · rw [if_neg hr]; exact e
        · intro j x hx
          obtain ⟨v, h1, h2⟩ := hnew j x hx
          rw [hr']
          exact ⟨v, h1, by simpa using h2⟩

end exact

namespace Clock

variable (p : ℕ) [NeZero p]

theorem one_val : (1 : Binary p).val = 1 := by
  have : ((1 : ℤ) : Binary p).val = 1 := Binary.round_of_representable p _ ⟨1, 0, by rw [abs_one]; exact one_lt_pow₀ (by norm_num) (NeZero.ne p), by simp⟩
  exact this

theorem half_val : (Binary.literal 53 p (1 / 2)).val = 1 / 2 := by
  have h1 : ∀ q : ℕ, q ≠ 0 → Binary.Representable q (1 / 2) := fun q hq => ⟨1, -1, by rw [abs_one]; exact one_lt_pow₀ (by norm_num) hq, by norm_num⟩
  show Binary.round p (Binary.round 53 (1 / 2)) = 1 / 2
  rw [Binary.round_of_representable 53 _ (h1 53 (by norm_num)), Binary.round_of_representable p _ (h1 p (NeZero.ne p))]

variable {p}

theorem add_error (a b : Binary p) : |(a + b).val - (a.val + b.val)| ≤ |a.val + b.val| / 2 ^ p := Binary.round_error p _

theorem div_error (a b : Binary p) : |(a / b).val - a.val / b.val| ≤ |a.val / b.val| / 2 ^ p := Binary.round_error p _

theorem pos_p : 0 < p := Nat.pos_of_ne_zero (NeZero.ne p)

theorem two_le_pow : (2 : ℚ) ≤ 2 ^ p := by
  calc (2 : ℚ) = 2 ^ 1 := by norm_num
    _ ≤ 2 ^ p := pow_le_pow_right₀ (by norm_num) pos_p

theorem add_le_one (a b : Binary p) (h : |a.val + b.val| ≤ 1) : |(a + b).val| ≤ 1 := by
  have := Binary.round_abs_le p pos_p (a.val + b.val) 0 (by simpa using h)
  rw [zpow_zero] at this
  exact this

theorem sub_one_val (a : Binary p) (h0 : 1 / 2 ≤ a.val) (h1 : a.val ≤ 1) : (a - 1).val = a.val - 1 := by
  show Binary.round p (a.val - (1 : Binary p).val) = _
  rw [one_val, Binary.sub_one_exact p pos_p _ a.representable h0 h1]

theorem add_one_val (a : Binary p) (h0 : -1 ≤ a.val) (h1 : a.val ≤ -1 / 2) : (a + 1).val = a.val + 1 := by
  show Binary.round p (a.val + (1 : Binary p).val) = _
  have := Binary.sub_one_exact p pos_p (-a.val) (-a).representable (by linarith) (by linarith)
  rw [one_val, show a.val + 1 = -(-a.val - 1) by ring, Binary.round_neg, this]

/-- One step of the position. -/
theorem step_error (rate diff dpos : Binary p) (h0 : -1 / 2 ≤ dpos.val) (h1 : dpos.val ≤ 1 / 2) (hd : |diff.val / rate.val| ≤ 1 / 2) :
    |(diff / rate).val| ≤ 1 / 2 ∧ |(dpos + diff / rate).val - (dpos.val + diff.val / rate.val)| ≤ (1 + 5 * |diff.val / rate.val|) / 2 / 2 ^ p := by
  have hq : |(diff / rate).val| ≤ 1 / 2 := by
    have := Binary.round_abs_le p pos_p (diff.val / rate.val) (-1) (by norm_num; exact hd)
    norm_num at this
    exact this
  refine ⟨hq, ?_⟩
  have e1 := add_error dpos (diff / rate)
  have e2 := div_error diff rate
  have hp := two_le_pow (p := p)
  have hP : (0 : ℚ) < 2 ^ p := by positivity
  generalize diff.val / rate.val = d at *
  generalize (diff / rate).val = d' at *
  have h3 : |dpos.val + d'| ≤ 1 / 2 + 3 / 2 * |d| := by
    have a1 : |dpos.val| ≤ 1 / 2 := abs_le.mpr ⟨by linarith, h1⟩
    have a2 : |d'| ≤ 3 / 2 * |d| := by
      have : |d| / 2 ^ p ≤ |d| / 2 := by gcongr
      have h := abs_add_le (d' - d) d
      rw [sub_add_cancel] at h
      linarith
    linarith [abs_add_le dpos.val d']
  have h4 : |dpos.val + d'| / 2 ^ p ≤ (1 / 2 + 3 / 2 * |d|) / 2 ^ p := by gcongr
  have h5 := abs_add_le ((dpos + diff / rate).val - (dpos.val + d')) (d' - d)
  rw [show (dpos + diff / rate).val - (dpos.val + d') + (d' - d) = (dpos + diff / rate).val - (dpos.val + d) by ring] at h5
  have : (1 + 5 * |d|) / 2 / 2 ^ p = (1 / 2 + 3 / 2 * |d|) / 2 ^ p + |d| / 2 ^ p := by field_simp; ring
  linarith

/-- One call, at any position and with any difference of at most half of the rate: it gives at most two outputs, at offsets of at most a half, and the
position advances by one and falls back by `1 - diff/rate` for each output, with an error of about half a unit of rounding for each. -/
theorem C81_call (rate : Binary p) (fuel : ℕ) (hf : 2 ≤ fuel) (dpos diff : Binary p) (hr : rate.val ≠ 0) (hd : |diff.val / rate.val| ≤ 1 / 2)
    (h0 : -1 ≤ dpos.val) (h1 : dpos.val ≤ 1 / 2) :
    ∃ dpos' ps, binary p rate fuel dpos diff = .ok (dpos', ps) ∧ ps.length ≤ 2 ∧ -1 ≤ dpos'.val ∧ dpos'.val ≤ 1 / 2 ∧ (∀ x ∈ ps, |x.val| ≤ 1 / 2) ∧
      (∀ (j : ℕ) x, ps[j]? = some x → |x.val - (dpos.val - j * (1 - diff.val / rate.val))| ≤ j * ((1 + 5 * |diff.val / rate.val|) / 2 / 2 ^ p)) ∧
      |dpos'.val - (dpos.val + 1 - ps.length * (1 - diff.val / rate.val))| ≤ ps.length * ((1 + 5 * |diff.val / rate.val|) / 2 / 2 ^ p) := by
  have hlt : ∀ a b : Binary p, a < b ↔ a.val < b.val := fun a b => Iff.rfl
  have hr' : ¬rate = 0 := by rintro rfl; exact hr rfl
  have hneg : (-Binary.literal 53 p (1 / 2)).val = -1 / 2 := by
    show -(Binary.literal 53 p (1 / 2)).val = _
    rw [half_val]; norm_num
  unfold binary call
  by_cases c1 : dpos.val < -1 / 2
  · have e := add_one_val dpos h0 c1.le
    refine ⟨dpos + 1, [], ?_, by simp, by rw [e]; linarith, by rw [e]; linarith, by simp, by simp, ?_⟩
    · rw [if_pos (by rw [hlt, hneg]; exact c1)]; rfl
    · rw [e]; simp
  · push Not at c1
    obtain ⟨hq, e1⟩ := step_error rate diff dpos c1 h1 hd
    obtain ⟨fuel, rfl⟩ : ∃ k, fuel = k + 2 := ⟨fuel - 2, by omega⟩
    rw [if_neg (by rw [hlt, hneg]; exact not_lt.mpr c1), if_neg hr']
    have hb : |(dpos + diff / rate).val| ≤ 1 := add_le_one _ _ (by
      have := abs_le.mp hq
      rw [abs_le]; constructor <;> linarith)
    rw [abs_le] at hb
    simp only [again, pure, Except.pure, List.nil_append]
    by_cases c2 : (dpos + diff / rate).val > 1 / 2
    · rw [if_pos (by rw [gt_iff_lt, hlt, half_val]; exact c2)]
      have e2 := sub_one_val (dpos + diff / rate) c2.le hb.2
      obtain ⟨-, e3⟩ := step_error rate diff (dpos + diff / rate - 1) (by rw [e2]; linarith) (by rw [e2]; linarith) hd
      rw [e2] at e3
      have hc : (dpos + diff / rate - 1 + diff / rate).val ≤ 1 / 2 ∧ -1 ≤ (dpos + diff / rate - 1 + diff / rate).val := by
        have a := abs_le.mp hq
        constructor
        · rcases le_or_gt 0 ((dpos + diff / rate - 1).val + (diff / rate).val) with c | c
          · have := Binary.round_abs_le p pos_p ((dpos + diff / rate - 1).val + (diff / rate).val) (-1) (by
              rw [abs_of_nonneg c, e2]; norm_num; linarith)
            have h := (abs_le.mp this).2
            norm_num at h
            exact h
          · have := add_error (dpos + diff / rate - 1) (diff / rate)
            rw [abs_of_neg c] at this
            have hp := two_le_pow (p := p)
            have h2 : -((dpos + diff / rate - 1).val + (diff / rate).val) / 2 ^ p ≤ -((dpos + diff / rate - 1).val + (diff / rate).val) := div_le_self (by linarith) (by linarith)
            linarith [(abs_le.mp this).2]
        · exact (abs_le.mp (add_le_one _ _ (by rw [e2, abs_le]; constructor <;> linarith))).1
      rw [if_neg (by rw [gt_iff_lt, hlt, half_val]; exact not_lt.mpr hc.1)]
      refine ⟨_, _, rfl, by simp, hc.2, hc.1, ?_, ?_, ?_⟩
      · intro x hx
        simp only [List.cons_append, List.nil_append, List.mem_cons, List.not_mem_nil, or_false] at hx
        rcases hx with rfl | rfl
        · rw [abs_le]; constructor <;> linarith
        · rw [e2, abs_le]; constructor <;> linarith
      · intro j x hx
        match j, hx with
        | 0, hx => simp only [List.cons_append, List.getElem?_cons_zero, Option.some.injEq] at hx; subst hx; simp
        | 1, hx =>
          simp only [List.cons_append, List.nil_append, List.getElem?_cons_succ, List.getElem?_cons_zero, Option.some.injEq] at hx
          subst hx
          rw [e2, Nat.cast_one, one_mul, one_mul, show (dpos + diff / rate).val - 1 - (dpos.val - (1 - diff.val / rate.val)) = (dpos + diff / rate).val - (dpos.val + diff.val / rate.val) by ring]
          exact e1
        | j + 2, hx => simp at hx
      · have := abs_add_le ((dpos + diff / rate - 1 + diff / rate).val - ((dpos + diff / rate).val - 1 + diff.val / rate.val)) ((dpos + diff / rate).val - (dpos.val + diff.val / rate.val))
        simp only [List.cons_append, List.nil_append, List.length_cons, List.length_nil]
        push_cast
        rw [show (dpos + diff / rate - 1 + diff / rate).val - (dpos.val + 1 - 2 * (1 - diff.val / rate.val)) =
          (dpos + diff / rate - 1 + diff / rate).val - ((dpos + diff / rate).val - 1 + diff.val / rate.val) + ((dpos + diff / rate).val - (dpos.val + diff.val / rate.val)) by ring]
        linarith
    · rw [if_neg (by rw [gt_iff_lt, hlt, half_val]; exact c2)]
      push Not at c2
      refine ⟨_, _, rfl, by simp, hb.1, c2, ?_, ?_, ?_⟩
      · intro x hx
        rw [List.mem_singleton] at hx
        subst hx
        rw [abs_le]; constructor <;> linarith
      · intro j x hx
        match j, hx with
        | 0, hx => simp only [List.getElem?_cons_zero, Option.some.injEq] at hx; subst hx; simp
        | j + 1, hx => simp at hx
      · simp only [List.length_cons, List.length_nil]
        norm_num only [Nat.cast_one]
        rw [show (dpos + diff / rate).val - (dpos.val + 1 - 1 * (1 - diff.val / rate.val)) = (dpos + diff / rate).val - (dpos.val + diff.val / rate.val) by ring, one_mul]
        exact e1

theorem places_session (rate : Binary p) (fuel : ℕ) (hf : 2 ≤ fuel) (diff : Binary p) (hr : rate.val ≠ 0) (hd : |diff.val / rate.val| ≤ 1 / 2) (T : ℕ) (dpos : Binary p) (t0 o0 : ℕ)
    (h0 : -1 ≤ dpos.val) (h1 : dpos.val ≤ 1 / 2) (hi : |t0 - dpos.val - o0 * (1 - diff.val / rate.val)| ≤ o0 * ((1 + 5 * |diff.val / rate.val|) / 2 / 2 ^ p)) :
    ∃ dpos' ys, run (binary p rate fuel) dpos (List.replicate T diff) = .ok (dpos', ys) ∧ ys.length = T ∧ (∀ y ∈ ys, y.length ≤ 2 ∧ ∀ x ∈ y, |x.val| ≤ 1 / 2) ∧
      -1 ≤ dpos'.val ∧ dpos'.val ≤ 1 / 2 ∧
      (∀ (o : ℕ) P, (places t0 (ys.map (·.map Binary.val)))[o]? = some P → |P - (o0 + o : ℕ) * (1 - diff.val / rate.val)| ≤ (o0 + o : ℕ) * ((1 + 5 * |diff.val / rate.val|) / 2 / 2 ^ p)) ∧
      |(t0 + T : ℕ) - dpos'.val - (o0 + (places t0 (ys.map (·.map Binary.val))).length : ℕ) * (1 - diff.val / rate.val)| ≤
        (o0 + (places t0 (ys.map (·.map Binary.val))).length : ℕ) * ((1 + 5 * |diff.val / rate.val|) / 2 / 2 ^ p) := by
  induction T generalizing dpos t0 o0 with
  | zero =>
    refine ⟨dpos, [], rfl, rfl, by simp, h0, h1, ?_, ?_⟩
    · intro o P h; simp [places] at h
    · simpa [places] using hi
  | succ T ih =>
    obtain ⟨d1, ps, e, hl, a0, a1, hps, hpos, hnext⟩ := C81_call rate fuel hf dpos diff hr hd h0 h1
    generalize diff.val / rate.val = d at *
    generalize (1 + 5 * |d|) / 2 / 2 ^ p = E at *
    obtain ⟨d2, ys, e', hlen, hys, b0, b1, hpl, hend⟩ := ih d1 (t0 + 1) (o0 + ps.length) a0 a1 (by
      push_cast
      rw [abs_le] at hi hnext ⊢
      constructor <;> linarith [hi.1, hi.2, hnext.1, hnext.2])
    refine ⟨d2, ps :: ys, ?_, by simp [hlen], ?_, b0, b1, ?_, ?_⟩
    · rw [List.replicate_succ, run, e]
      simp only [e']
    · intro y hy
      rcases List.mem_cons.mp hy with rfl | hy
      · exact ⟨hl, hps⟩
      · exact hys y hy
    · intro o P hP
      simp only [List.map_cons, places] at hP
      rcases lt_or_ge o ps.length with ho | ho
      · rw [List.getElem?_append_left (by simpa using ho)] at hP
        rw [List.getElem?_map, List.getElem?_map] at hP
        cases hx : ps[o]? with
        | none => rw [hx] at hP; simp at hP
        | some x =>
          rw [hx] at hP
          simp only [Option.map_some, Option.some.injEq] at hP
          subst hP
          have := hpos o x hx
          push_cast
          rw [abs_le] at hi this ⊢
          constructor <;> linarith [hi.1, hi.2, this.1, this.2]
      · rw [List.getElem?_append_right (by simpa using ho)] at hP
        have := hpl _ P hP
        simp only [List.length_map] at this
        rw [show o0 + ps.length + (o - ps.length) = o0 + o by omega] at this
        exact this
    · simp only [List.map_cons, places, List.length_append, List.length_map]
      rw [show t0 + (T + 1) = t0 + 1 + T by ring, ← add_assoc]
      exact hend

/-- For every precision, rate and constant difference of at most half of the rate, and any number of calls: the output `o` is at the place `o * (1 - diff/rate)` and
the number of outputs is that of the inputs divided by `1 - diff/rate`, up to an error of about half a unit of rounding for each output. -/
theorem C81_places (rate : Binary p) (fuel : ℕ) (hf : 2 ≤ fuel) (diff : Binary p) (hr : rate.val ≠ 0) (hd : |diff.val / rate.val| ≤ 1 / 2) (T : ℕ) :
    ∃ dpos' ys, run (binary p rate fuel) 0 (List.replicate T diff) = .ok (dpos', ys) ∧ ys.length = T ∧ (∀ y ∈ ys, y.length ≤ 2 ∧ ∀ x ∈ y, |x.val| ≤ 1 / 2) ∧
      (∀ (o : ℕ) P, (places 0 (ys.map (·.map Binary.val)))[o]? = some P → |P - o * (1 - diff.val / rate.val)| ≤ o * ((1 + 5 * |diff.val / rate.val|) / 2 / 2 ^ p)) ∧
      |T - (places 0 (ys.map (·.map Binary.val))).length * (1 - diff.val / rate.val)| ≤
        1 + (places 0 (ys.map (·.map Binary.val))).length * ((1 + 5 * |diff.val / rate.val|) / 2 / 2 ^ p) := by
  obtain ⟨d, ys, e, hl, hys, h0, h1, hp, hn⟩ := places_session rate fuel hf diff hr hd T 0 0 0 (by show (-1 : ℚ) ≤ 0; norm_num) (by show (0 : ℚ) ≤ 1 / 2; norm_num)
    (by show |((0 : ℕ) : ℚ) - 0 - _| ≤ _; simp)
  refine ⟨d, ys, e, hl, hys, ?_, ?_⟩
  · simpa only [zero_add] using hp
  · simp only [zero_add] at hn
    generalize (places 0 (ys.map (·.map Binary.val))).length * ((1 + 5 * |diff.val / rate.val|) / 2 / 2 ^ p) = E at *
    generalize ((places 0 (ys.map (·.map Binary.val))).length : ℚ) * (1 - diff.val / rate.val) = N at *
    rw [abs_le] at hn ⊢
    constructor <;> linarith [hn.1, hn.2]

theorem never_session (hp : 2 ≤ p) (rate : Binary p) (fuel : ℕ) (hf : 1 ≤ fuel) (diff : Binary p) (hr : rate.val ≠ 0) (hd : |diff.val / rate.val| ≤ 1 / 2 ^ (p + 2)) (T : ℕ)
    (dpos : Binary p) (h : |dpos.val| ≤ 1 / 4) :
    ∃ dpos' ys, run (binary p rate fuel) dpos (List.replicate T diff) = .ok (dpos', ys) ∧ ys.length = T ∧ ∀ y ∈ ys, ∃ x, y = [x] ∧ |x.val| ≤ 1 / 4 := by
  have hlt : ∀ a b : Binary p, a < b ↔ a.val < b.val := fun a b => Iff.rfl
  have hr' : ¬rate = 0 := by rintro rfl; exact hr rfl
  have hneg : (-Binary.literal 53 p (1 / 2)).val = -1 / 2 := by
    show -(Binary.literal 53 p (1 / 2)).val = _
    rw [half_val]; norm_num
  induction T generalizing dpos with
  | zero => exact ⟨dpos, [], rfl, rfl, by simp⟩
  | succ T ih =>
    have hq : |(diff / rate).val| ≤ 1 / 2 ^ (p + 2) := by
      have := Binary.round_abs_le p pos_p (diff.val / rate.val) (-((p + 2 : ℕ) : ℤ)) (by rw [zpow_neg, zpow_natCast, ← one_div]; exact hd)
      rw [zpow_neg, zpow_natCast, ← one_div] at this
      exact this
    have hn : |(dpos + diff / rate).val| ≤ 1 / 4 := by
      have := Binary.round_abs_le_pow p hp (dpos.val + (diff / rate).val) (-2) (by
        have e : (2 : ℚ) ^ (-2 - (p : ℤ)) = 1 / 2 ^ (p + 2) := by
          rw [show -2 - (p : ℤ) = -((p + 2 : ℕ) : ℤ) by push_cast; ring, zpow_neg, zpow_natCast, one_div]
        rw [e]
        have := abs_add_le dpos.val (diff / rate).val
        norm_num at h ⊢
        norm_num at hq
        linarith)
      norm_num at this ⊢
      exact this
    obtain ⟨d2, ys, e', hlen, hys⟩ := ih _ hn
    refine ⟨d2, [dpos] :: ys, ?_, by simp [hlen], ?_⟩
    · obtain ⟨fuel, rfl⟩ : ∃ k, fuel = k + 1 := ⟨fuel - 1, by omega⟩
      rw [abs_le] at h hn
      have : binary p rate (fuel + 1) dpos diff = .ok (dpos + diff / rate, [dpos]) := by
        unfold binary call
        rw [if_neg (by rw [hlt, hneg]; linarith), if_neg hr']
        simp only [again, pure, Except.pure, List.nil_append]
        rw [if_neg (by rw [gt_iff_lt, hlt, half_val]; linarith)]
      rw [List.replicate_succ, run, this]
      simp only [e']
    · intro y hy
      rcases List.mem_cons.mp hy with rfl | hy
      · exact ⟨dpos, rfl, h⟩
      · exact hys y hy

/-- But a difference of less than a quarter of a unit of rounding has no effect, however long the stream is: every call gives one output, and its offset never exceeds a quarter. -/
theorem C81_never (hp : 2 ≤ p) (rate : Binary p) (fuel : ℕ) (hf : 1 ≤ fuel) (diff : Binary p) (hr : rate.val ≠ 0) (hd : |diff.val / rate.val| ≤ 1 / 2 ^ (p + 2)) (T : ℕ) :
    ∃ dpos' ys, run (binary p rate fuel) 0 (List.replicate T diff) = .ok (dpos', ys) ∧ ys.length = T ∧ ∀ y ∈ ys, ∃ x, y = [x] ∧ |x.val| ≤ 1 / 4 :=
  never_session hp rate fuel hf diff hr hd T 0 (by show |(0 : ℚ)| ≤ 1 / 4; norm_num)

omit [NeZero p] in
theorem places_single (ys : List (List (Binary p))) (h : ∀ y ∈ ys, ∃ x, y = [x] ∧ |x.val| ≤ 1 / 4) (t0 : ℕ) :
    (places t0 (ys.map (·.map Binary.val))).length = ys.length ∧ ∀ (o : ℕ) P, (places t0 (ys.map (·.map Binary.val)))[o]? = some P → |P - (t0 + o : ℕ)| ≤ 1 / 4 := by
  induction ys generalizing t0 with
  | nil => simp [places]
  | cons y ys ih =>
    obtain ⟨x, rfl, hx⟩ := h y (by simp)
    obtain ⟨h1, h2⟩ := ih (fun y hy => h y (by simp [hy])) (t0 + 1)
    simp only [List.map_cons, List.map_nil, places, List.length_append, List.length_cons, List.length_nil]
    refine ⟨by rw [h1]; ring, ?_⟩
    intro o P hP
    cases o with
    | zero =>
      simp only [List.cons_append, List.getElem?_cons_zero, Option.some.injEq] at hP
      subst hP
      rw [add_zero, show (t0 : ℚ) - x.val - t0 = -x.val by ring, abs_neg]
      exact hx
    | succ o =>
      simp only [List.cons_append, List.nil_append, List.getElem?_cons_succ] at hP
      have := h2 o P hP
      rw [show t0 + (o + 1) = t0 + 1 + o by ring]
      exact this

/-- So the places of the outputs run away from where they should be: for every precision and every rate there is a difference in rates, a quarter of a unit of rounding, such
that the output `o` is off by `o/2^(p+2)` up to a quarter, which is half of the bound above. -/
theorem C81_drift (hp : 2 ≤ p) (rate : Binary p) (fuel : ℕ) (hf : 1 ≤ fuel) (hr : rate.val ≠ 0) : ∃ diff : Binary p, diff.val / rate.val = 1 / 2 ^ (p + 2) ∧
    ∀ T, ∃ dpos' ys, run (binary p rate fuel) 0 (List.replicate T diff) = .ok (dpos', ys) ∧ (places 0 (ys.map (·.map Binary.val))).length = T ∧
      ∀ (o : ℕ) P, (places 0 (ys.map (·.map Binary.val)))[o]? = some P → o / 2 ^ (p + 2) - 1 / 4 ≤ P - o * (1 - diff.val / rate.val) := by
  obtain ⟨m, e, hm, he⟩ := rate.representable
  have hq : rate.val * (1 / 2 ^ (p + 2)) / rate.val = 1 / 2 ^ (p + 2) := by field_simp
  refine ⟨⟨rate.val * (1 / 2 ^ (p + 2)), m, e - (p + 2 : ℕ), hm, ?_⟩, hq, fun T => ?_⟩
  · rw [he, zpow_sub₀ (by norm_num), zpow_natCast]; ring
  · obtain ⟨d, ys, e1, hl, hys⟩ := C81_never hp rate fuel hf ⟨rate.val * (1 / 2 ^ (p + 2)), m, e - (p + 2 : ℕ), hm, by rw [he, zpow_sub₀ (by norm_num), zpow_natCast]; ring⟩ hr
      (by show |rate.val * (1 / 2 ^ (p + 2)) / rate.val| ≤ _; rw [hq, abs_of_pos (by positivity)]) T
    obtain ⟨h1, h2⟩ := places_single ys hys 0
    refine ⟨d, ys, e1, h1.trans hl, fun o P hP => ?_⟩
    have := (abs_le.mp (h2 o P hP)).1
    show _ ≤ P - o * (1 - rate.val * (1 / 2 ^ (p + 2)) / rate.val)
    rw [hq]
    rw [zero_add] at this
    rw [mul_sub, mul_one, mul_one_div]
    linarith

/-- The hypotheses of `C81_places` hold for `float` with a rate of 48000 and a difference of 12. -/
example : ∃ rate diff : Binary 24, rate.val ≠ 0 ∧ |diff.val / rate.val| ≤ 1 / 2 ∧ diff.val / rate.val = 1 / 4000 :=
  ⟨⟨48000, 48000, 0, by norm_num, by norm_num⟩, ⟨12, 12, 0, by norm_num, by norm_num⟩, by norm_num, by norm_num [abs_of_pos], by norm_num⟩

/-- Those of `C81_never` hold for `float`, a rate of 48000 and a difference of more than 0.0007: no sample is ever inserted, though it should be one every 24 minutes. -/
example : ∃ rate diff : Binary 24, rate.val = 48000 ∧ rate.val ≠ 0 ∧ |diff.val / rate.val| ≤ 1 / 2 ^ (24 + 2) ∧ 0.0007 < diff.val ∧ rate.val * (24 * 60) * (diff.val / rate.val) > 1 :=
  ⟨⟨48000, 48000, 0, by norm_num, by norm_num⟩, ⟨48000 / 2 ^ 26, 48000, -26, by norm_num, by norm_num [zpow_neg]⟩, by norm_num, by norm_num, by norm_num [abs_of_pos], by norm_num, by norm_num⟩

set_option maxRecDepth 100000 in
/-- With four bits the machine can be run: a difference of a quarter of the rate gives one more output every few calls, one of a 64th gives none. -/
example : ∃ a b : Binary 4, a.val = 1 / 4 ∧ b.val = 1 / 64 ∧
    ((run (binary 4 1 2) 0 (List.replicate 8 a)).toOption.map fun r => r.2.map List.length) = some [1, 1, 2, 1, 1, 2, 1, 1] ∧
    ((run (binary 4 1 2) 0 (List.replicate 50 b)).toOption.map fun r => (r.1.val, r.2.map List.length)) = some (1 / 4, List.replicate 50 1) :=
  ⟨⟨1 / 4, 1, -2, by norm_num, by norm_num⟩, ⟨1 / 64, 1, -6, by norm_num, by norm_num⟩, rfl, rfl, by decide +kernel, by decide +kernel⟩

end Clock
end Resampler2

namespace Resampler

variable {p q : ℕ} [NeZero p] [NeZero q]

omit [NeZero p] in
theorem convert_exact (h : p ≤ q) (x : Binary p) : (Binary.convert q x).val = x.val := by
  obtain ⟨m, e, hm, he⟩ := x.representable
  exact Binary.round_of_representable q _ ⟨m, e, lt_of_lt_of_le hm (pow_le_pow_right₀ (by norm_num) h), he⟩

theorem cast_exact (i : ℤ) (hi : |i| < 2 ^ q) : ((i : ℤ) : Binary q).val = i :=
  Binary.round_of_representable q _ ⟨i, 0, hi, by simp⟩

/-- The block resampler: for every precision, rate and difference the place that belongs to the output `i` has a relative error of about two units of rounding of `TYPE`
and one of `double`, whatever the number of samples is. -/
theorem C81_block (h : p ≤ q) (rate diff : Binary p) (hr : rate.val + diff.val ≠ 0) : ∃ c : Binary q, ratio p q rate diff = .ok c ∧
    ∀ i : ℕ, i < 2 ^ q → |(position q c i).val - i * (rate.val / (rate.val + diff.val))| ≤
      ((1 + 1 / 2 ^ p) * (1 + 1 / 2 ^ q) / (1 - 1 / 2 ^ p) - 1) * |i * (rate.val / (rate.val + diff.val))| := by
  have hs : |(rate + diff).val - (rate.val + diff.val)| ≤ |rate.val + diff.val| / 2 ^ p := Binary.round_error p _
  have hp := Resampler2.Clock.two_le_pow (p := p)
  have hu : (1 : ℚ) / 2 ^ p ≤ 1 / 2 := by gcongr
  have hu0 : (0 : ℚ) < 1 / 2 ^ p := by positivity
  have hv0 : (0 : ℚ) < 1 / 2 ^ q := by positivity
  rw [div_eq_mul_one_div] at hs
  have hS : 0 < |rate.val + diff.val| := abs_pos.mpr hr
  have hne : (rate + diff).val ≠ 0 := by
    intro c
    rw [c, zero_sub, abs_neg] at hs
    nlinarith
  refine ⟨_, if_neg (by intro c; exact hne (by rw [c]; rfl)), fun i hi => ?_⟩
  have e1 : (Binary.convert q (rate / (rate + diff))).val = (rate / (rate + diff)).val := convert_exact h _
  have e2 : |(rate / (rate + diff)).val - rate.val / (rate + diff).val| ≤ |rate.val / (rate + diff).val| * (1 / 2 ^ p) := by
    rw [mul_one_div]; exact Binary.round_error p _
  have e3 : |(position q (Binary.convert q (rate / (rate + diff))) i).val - i * (rate / (rate + diff)).val| ≤ |i * (rate / (rate + diff)).val| / 2 ^ q := by
    have : ((i : ℤ) : Binary q).val = i := by
      rw [cast_exact (i : ℤ) (by rw [Nat.abs_cast]; exact_mod_cast hi)]; norm_cast
    have h := Binary.round_error q (((i : ℤ) : Binary q).val * (Binary.convert q (rate / (rate + diff))).val)
    rw [this, e1] at h
    have hx : (position q (Binary.convert q (rate / (rate + diff))) i).val = Binary.round q (((i : ℤ) : Binary q).val * (Binary.convert q (rate / (rate + diff))).val) := rfl
    rw [hx, this, e1]
    exact h
  rw [div_eq_mul_one_div] at e3
  generalize (position q (Binary.convert q (rate / (rate + diff))) i).val = x at *
  generalize (rate / (rate + diff)).val = c at *
  generalize (rate + diff).val = s at *
  generalize rate.val + diff.val = S at *
  generalize rate.val = R at *
  generalize (1 : ℚ) / 2 ^ p = u at *
  generalize (1 : ℚ) / 2 ^ q = v at *
  generalize (i : ℚ) = I at *
  -- the quotient
  have hsS : |R / s - R / S| ≤ u / (1 - u) * |R / S| := by
    have h1 : (1 - u) * |S| ≤ |s| := by
      have := abs_sub_abs_le_abs_sub S s
      rw [abs_sub_comm] at this
      linarith
    have e : R / s - R / S = R / S * ((S - s) / s) := by field_simp
    rw [e, abs_mul, mul_comm]
    refine mul_le_mul_of_nonneg_right ?_ (abs_nonneg _)
    rw [abs_div, abs_sub_comm, div_le_div_iff₀ (abs_pos.mpr hne) (by linarith)]
    nlinarith [abs_nonneg (s - S)]
  have hcS : |c - R / S| ≤ ((1 + u) / (1 - u) - 1) * |R / S| := by
    have h1 := abs_add_le (c - R / s) (R / s - R / S)
    rw [sub_add_sub_cancel] at h1
    have h2 := abs_add_le (R / s - R / S) (R / S)
    rw [sub_add_cancel] at h2
    have h3 : (1 : ℚ) - u > 0 := by linarith
    have h4 : ((1 + u) / (1 - u) - 1) * |R / S| = (u / (1 - u) + (1 + u / (1 - u)) * u) * |R / S| := by field_simp; ring
    have h5 : |R / s| * u ≤ (u / (1 - u) * |R / S| + |R / S|) * u := mul_le_mul_of_nonneg_right (by linarith) hu0.le
    rw [h4]
    linarith
  have h1 : |I * c - I * (R / S)| ≤ ((1 + u) / (1 - u) - 1) * |I * (R / S)| := by
    rw [← mul_sub, abs_mul, abs_mul]
    nlinarith [abs_nonneg I]
  have h2 := abs_add_le (x - I * c) (I * c - I * (R / S))
  rw [sub_add_sub_cancel] at h2
  have h3 := abs_add_le (I * c - I * (R / S)) (I * (R / S))
  rw [sub_add_cancel] at h3
  have h4 : |I * c| ≤ (1 + u) / (1 - u) * |I * (R / S)| := by linarith
  have h5 : ((1 + u) * (1 + v) / (1 - u) - 1) * |I * (R / S)| = ((1 + u) / (1 - u) - 1) * |I * (R / S)| + (1 + u) / (1 - u) * |I * (R / S)| * v := by ring
  nlinarith

/-- The argument of the filter has a small relative error, too. -/
theorem C81_offset (x : Binary q) (s : ℤ) (hs : |s| < 2 ^ q) : |(offset p q x s).val - (s - x.val)| ≤ ((1 + 1 / 2 ^ p) * (1 + 1 / 2 ^ q) - 1) * |s - x.val| := by
  have e1 : |(((s : ℤ) : Binary q) - x).val - (s - x.val)| ≤ |s - x.val| / 2 ^ q := by
    have := Binary.round_error q (((s : ℤ) : Binary q).val - x.val)
    have hx : (((s : ℤ) : Binary q) - x).val = Binary.round q (((s : ℤ) : Binary q).val - x.val) := rfl
    rw [hx]
    rw [cast_exact s hs] at this ⊢
    exact this
  have e2 : |(offset p q x s).val - (((s : ℤ) : Binary q) - x).val| ≤ |(((s : ℤ) : Binary q) - x).val| / 2 ^ p := Binary.round_error p _
  rw [div_eq_mul_one_div] at e1 e2
  have hu0 : (0 : ℚ) < 1 / 2 ^ p := by positivity
  generalize (offset p q x s).val = k at *
  generalize (((s : ℤ) : Binary q) - x).val = k' at *
  generalize (1 : ℚ) / 2 ^ p = u at *
  generalize (1 : ℚ) / 2 ^ q = v at *
  generalize (s : ℚ) - x.val = K at *
  have h1 := abs_add_le (k - k') (k' - K)
  rw [sub_add_sub_cancel] at h1
  have h2 := abs_add_le (k' - K) K
  rw [sub_add_cancel] at h2
  nlinarith

/-- But a difference of less than half a unit of rounding is ignored: the output `i` is at the place `i` then. -/
theorem C81_ignored (h : p ≤ q) (rate diff : Binary p) (hr : rate.val ≠ 0) (hd : |diff.val| < |rate.val| / 2 ^ (p + 1)) : ∃ c : Binary q, ratio p q rate diff = .ok c ∧
    ∀ i : ℕ, i < 2 ^ q → (position q c i).val = i := by
  have hR : 0 < |rate.val| := abs_pos.mpr hr
  have hP : (0 : ℚ) < 2 ^ p := by positivity
  have hp := Resampler2.Clock.two_le_pow (p := p)
  have hs : (rate + diff).val = rate.val := by
    refine (Binary.representable_gap p (Resampler2.Clock.pos_p) _ _ rate.representable (rate + diff).representable ?_).symm
    have h1 := Binary.round_nearest p (Resampler2.Clock.pos_p) (rate.val + diff.val) rate.val rate.representable
    have h2 : (rate + diff).val = Binary.round p (rate.val + diff.val) := rfl
    rw [← h2, abs_sub_comm rate.val, add_sub_cancel_left] at h1
    have h3 := abs_add_le ((rate + diff).val - (rate.val + diff.val)) diff.val
    rw [show (rate + diff).val - (rate.val + diff.val) + diff.val = (rate + diff).val - rate.val by ring] at h3
    rw [abs_sub_comm, lt_div_iff₀ hP]
    rw [lt_div_iff₀ (by positivity), pow_succ] at hd
    have := mul_le_mul_of_nonneg_right (h3.trans (add_le_add_left h1 _)) hP.le
    linarith
  have hsum : rate + diff = rate := Binary.val_injective p hs
  have hq1 : (rate / rate).val = 1 := by
    show Binary.round p (rate.val / rate.val) = 1
    rw [div_self hr]
    exact Binary.round_of_representable p 1 ⟨1, 0, by rw [abs_one]; exact one_lt_pow₀ (by norm_num) (NeZero.ne p), by simp⟩
  refine ⟨_, if_neg (by rw [hsum]; rintro rfl; exact hr rfl), fun i hi => ?_⟩
  show Binary.round q (((i : ℤ) : Binary q).val * (Binary.convert q (rate / (rate + diff))).val) = i
  rw [convert_exact h, hsum, hq1, mul_one, cast_exact (i : ℤ) (by rw [Nat.abs_cast]; exact_mod_cast hi)]
  exact_mod_cast Binary.round_of_representable q ((i : ℤ) : ℚ) ⟨i, 0, by rw [Nat.abs_cast]; exact_mod_cast hi, by simp⟩

/-- For instance `float` and `double`, a rate of 48000 and a difference of 0.001. -/
example : ∃ rate diff : Binary 24, rate.val ≠ 0 ∧ rate.val + diff.val ≠ 0 ∧ |diff.val| < |rate.val| / 2 ^ (24 + 1) ∧ 0.001 < diff.val :=
  ⟨⟨48000, 48000, 0, by norm_num, by norm_num⟩, ⟨17 / 2 ^ 14, 17, -14, by norm_num, by norm_num [zpow_neg]⟩, by norm_num, by norm_num, by norm_num [abs_of_pos], by norm_num⟩

end Resampler
end DSP
