import Verif.Props.Phasor

/-!
# Amplitude demodulator and normalisers (C52, C53)
-/

namespace DSP
namespace AMD

/-- What a user can do to a demodulator. -/
inductive Op
  | index (modidx : ℝ)
  | agc (attack decay low high : ℝ)
  | input (x : ℂ)

/-- The modulation index is not zero, the limits are positive and in order; attack and decay may be anything. -/
def Op.Good : Op → Prop
  | .index m => m ≠ 0
  | .agc _ _ low high => 0 < low ∧ low ≤ high
  | .input _ => True

/-- The member functions. -/
noncomputable def step (f : AMD) : Op → M (AMD × Option ℝ)
  | .index m => .ok (f.index m, none)
  | .agc a d l h => .ok (f.agc a d l h, none)
  | .input x => do
    let (f, y) ← f.call x
    return (f, some y)

/-- Limits and index in force after a list of operations. -/
noncomputable def settings (ops : List Op) : ℝ × ℝ × ℝ :=
  ops.foldl (fun s o => match o with | .index m => (s.1, s.2.1, m) | .agc _ _ l h => (l, h, s.2.2) | .input _ => s) (0.001, 1, 1)

theorem settings_good (ops : List Op) (hg : ∀ o ∈ ops, o.Good) :
    0 < (settings ops).1 ∧ (settings ops).1 ≤ (settings ops).2.1 ∧ (settings ops).2.2 ≠ 0 := by
  induction ops using List.reverseRecOn with
  | nil => simp [settings]; norm_num
  | append_singleton ops o ih =>
    have h := ih (fun o ho => hg o (by simp [ho]))
    have ho := hg o (by simp)
    simp only [settings, List.foldl_append, List.foldl_cons, List.foldl_nil] at h ⊢
    cases o with
    | index m => exact ⟨h.1, h.2.1, ho⟩
    | agc a d l hh => exact ⟨ho.1, ho.2, h.2.2⟩
    | input x => exact h

theorem call_ok (f : AMD) (x : ℂ) (h0 : 0 < f.lo) (h1 : f.lo ≤ f.hi) (h2 : f.idx ≠ 0) :
    ∃ level, f.lo ≤ level ∧ level ≤ f.hi ∧
      level = min (max (lerp f.avg ‖x‖ (if ‖x‖ < f.avg then f.dec else f.att)) f.lo) f.hi ∧
      f.call x = .ok ({ f with avg := level }, (‖x‖ / level * (1 + f.idx) - 1) / f.idx) := by
  refine ⟨_, le_min (le_max_right _ _) h1, min_le_right _ _, rfl, ?_⟩
  have hl : min (max (lerp f.avg ‖x‖ (if ‖x‖ < f.avg then f.dec else f.att)) f.lo) f.hi ≠ 0 :=
    (lt_of_lt_of_le h0 (le_min (le_max_right _ _) h1)).ne'
  simp only [call, bind, Except.bind, pure, Except.pure]
  rw [fdiv_ok hl]
  simp only []
  rw [fdiv_ok h2]

/-- For every history of samples and settings no division by zero happens, and each output is the magnitude relative to a level
between the limits in force, mapped to the modulating signal. -/
theorem C52_bounded (ops : List Op) (hg : ∀ o ∈ ops, o.Good) (x : ℂ) :
    ∃ f ys f' y, run step init ops = .ok (f, ys) ∧ f.call x = .ok (f', y) ∧
      (settings ops).1 ≤ f'.avg ∧ f'.avg ≤ (settings ops).2.1 ∧
      y = (‖x‖ / f'.avg * (1 + (settings ops).2.2) - 1) / (settings ops).2.2 := by
  obtain ⟨f, ys, e, -, hI, -, -⟩ := run_of_inv (step := step)
    (fun (f : AMD) h => (∀ o ∈ h, o.Good) ∧ (f.lo, f.hi, f.idx) = settings h) (fun _ _ => True) Op.Good
    (fun f h o hI ho => by
      obtain ⟨h1, h2⟩ := hI
      have h4 : ∀ o' ∈ h ++ [o], o'.Good := by
        intro o' ho'
        rcases List.mem_append.mp ho' with h5 | h5
        · exact h1 o' h5
        · rw [List.mem_singleton.mp h5]; exact ho
      have hs := settings_good h h1
      rw [← h2] at hs
      cases o with
      | index m => exact ⟨_, _, rfl, ⟨h4, by simp [settings, List.foldl_append] at h2 ⊢; rw [← h2]; simp [index]⟩, trivial⟩
      | agc a d l hh => exact ⟨_, _, rfl, ⟨h4, by simp [settings, List.foldl_append] at h2 ⊢; rw [← h2]; simp [agc]⟩, trivial⟩
      | input x =>
        obtain ⟨lv, -, -, -, e⟩ := call_ok f x hs.1 hs.2.1 hs.2.2
        have e' : step f (.input x) = .ok ({ f with avg := lv }, some ((‖x‖ / lv * (1 + f.idx) - 1) / f.idx)) := by
          simp only [step, e, bind, Except.bind, pure, Except.pure]
        refine ⟨_, _, e', ⟨h4, ?_⟩, trivial⟩
        simp [settings, List.foldl_append] at h2 ⊢; rw [← h2])
    (s := init) (h := []) ⟨by simp, by simp [settings, init]⟩ ops hg
  rw [List.nil_append] at hI
  obtain ⟨-, h2⟩ := hI
  have hs := settings_good ops hg
  rw [← h2] at hs
  obtain ⟨lv, l1, l2, -, e2⟩ := call_ok f x hs.1 hs.2.1 hs.2.2
  refine ⟨f, ys, _, _, e, e2, ?_⟩
  rw [← h2]
  exact ⟨l1, l2, rfl⟩

/-- When the level is the carrier peak `A (1 + idx)`, the output is the modulating signal `m` of a sample with magnitude
`A (1 + idx m)`. -/
theorem C52_settled (f f' : AMD) (x : ℂ) (y A m : ℝ) (hA : 0 < A) (hi : 0 < f.idx) (hx : ‖x‖ = A * (1 + f.idx * m))
    (e : f.call x = .ok (f', y)) (hl : f'.avg = A * (1 + f.idx)) : y = m := by
  have hl0 : f'.avg ≠ 0 := by rw [hl]; positivity
  simp only [call, bind, Except.bind, pure, Except.pure] at e
  generalize hL : min (max (lerp f.avg ‖x‖ (if ‖x‖ < f.avg then f.dec else f.att)) f.lo) f.hi = L at e
  by_cases c : L = 0
  · simp [fdiv, c] at e
  · rw [fdiv_ok c] at e
    simp only [] at e
    rw [fdiv_ok hi.ne'] at e
    simp only [Except.ok.injEq, Prod.mk.injEq] at e
    obtain ⟨e1, e2⟩ := e
    have e3 : f'.avg = L := by rw [← e1]
    rw [← e3, hl, hx] at e2
    rw [← e2]
    have : (1 + f.idx) ≠ 0 := by positivity
    field_simp
    ring

/-- A peak detector (attack one, decay zero): once a peak of the carrier was seen every output is the modulating signal. -/
theorem C52_peak_hold (A idx lo hi : ℝ) (hA : 0 < A) (hi0 : 0 < idx) (hlo : 0 < lo) (h1 : lo ≤ A * (1 + idx)) (h2 : A * (1 + idx) ≤ hi)
    (m : List ℝ) (hm : ∀ v ∈ m, v ≤ 1) (x : List ℂ) (hx : x.map (fun z => ‖z‖) = m.map (fun v => A * (1 + idx * v)))
    (z : ℂ) (hz : ‖z‖ = A * (1 + idx)) :
    trace call ((init.index idx).agc 1 0 lo hi) (z :: x) = (1 :: m, none) := by
  have hP : 0 < A * (1 + idx) := by positivity
  -- one step from a level below or at the peak
  have one : ∀ (f : AMD) (w : ℂ) (v : ℝ), f.att = 1 → f.dec = 0 → f.lo = lo → f.hi = hi → f.idx = idx → f.avg ≤ A * (1 + idx) →
      (f.avg = A * (1 + idx) ∨ v = 1) → v ≤ 1 → ‖w‖ = A * (1 + idx * v) →
      f.call w = .ok ({ f with avg := A * (1 + idx) }, v) := by
    intro f w v a1 a2 a3 a4 a5 a6 a7 hv hw
    obtain ⟨lv, -, -, e1, e2⟩ := call_ok f w (a3 ▸ hlo) (by rw [a3, a4]; linarith) (by rw [a5]; exact hi0.ne')
    have hle : ‖w‖ ≤ A * (1 + idx) := by
      rw [hw]; exact mul_le_mul_of_nonneg_left (by nlinarith) hA.le
    have hlv : lv = A * (1 + idx) := by
      have : lerp f.avg ‖w‖ (if ‖w‖ < f.avg then f.dec else f.att) = A * (1 + idx) := by
        rcases a7 with a7 | a7
        · rw [a7]
          by_cases c : ‖w‖ < A * (1 + idx)
          · rw [if_pos c, a2]; simp [lerp]
          · rw [if_neg c, a1]; simp [lerp]; linarith
        · rw [a7, mul_one] at hw
          rw [if_neg (by linarith), a1, hw]; simp [lerp]
      rw [e1, this, a3, a4, max_eq_left h1, min_eq_left h2]
    rw [hlv] at e2
    have e3 := C52_settled f _ w _ A v hA (a5 ▸ hi0) (by rw [a5]; exact hw) e2 (by rw [a5])
    rw [e3] at e2
    exact e2
  have rest : ∀ (m : List ℝ) (x : List ℂ) (f : AMD), (∀ v ∈ m, v ≤ 1) → x.map (fun z => ‖z‖) = m.map (fun v => A * (1 + idx * v)) →
      f.att = 1 → f.dec = 0 → f.lo = lo → f.hi = hi → f.idx = idx → f.avg = A * (1 + idx) → trace call f x = (m, none) := by
    intro m
    induction m with
    | nil => intro x f _ hx; rw [List.map_nil, List.map_eq_nil_iff] at hx; subst hx; intros; rfl
    | cons v m ih =>
      intro x f hm hx a1 a2 a3 a4 a5 a6
      cases x with
      | nil => simp at hx
      | cons w x =>
        simp only [List.map_cons, List.cons.injEq] at hx
        have e := one f w v a1 a2 a3 a4 a5 a6.le (Or.inl a6) (hm v (by simp)) hx.1
        simp only [trace, e]
        rw [ih x { f with avg := A * (1 + idx) } (fun v h => hm v (by simp [h])) hx.2 a1 a2 a3 a4 a5 rfl]
  have e := one ((init.index idx).agc 1 0 lo hi) z 1 rfl rfl rfl rfl rfl (by simp [init, index, agc]; exact hP.le) (Or.inr rfl) le_rfl
    (by rw [mul_one]; exact hz)
  simp only [trace, e]
  rw [rest m x { ((init.index idx).agc 1 0 lo hi) with avg := A * (1 + idx) } hm hx rfl rfl rfl rfl rfl rfl]

/-- Carrier 1/4, index 1/2, modulating signal -1, 1, 0 after a peak. -/
example : ([(1 / 8 : ℂ), 3 / 8, 1 / 4].map (fun z => ‖z‖)) = ([-1, 1, 0] : List ℝ).map (fun v => (1 / 4) * (1 + 1 / 2 * v)) ∧
    ‖(3 / 8 : ℂ)‖ = 1 / 4 * (1 + 1 / 2) ∧ (0.001 : ℝ) ≤ 1 / 4 * (1 + 1 / 2) := by
  norm_num

example : ∀ o ∈ ([.index (1 / 2), .agc 2 (-1) 1 3, .input 5] : List Op), o.Good := by
  simp [Op.Good]

end AMD

namespace NormalizeSine

theorem call_ok (f : NormalizeSine) (s : ℤ) (hs : 2 ≤ s) (h1 : 0 < f.lpf.prev) (h2 : f.lpf.alpha = 1 / s) (x : ℝ) :
    ∃ f' y, f.call x = .ok (f', y) ∧ 0 < f'.lpf.prev ∧ f'.lpf.alpha = 1 / s ∧ |y| ≤ Real.sqrt (s / 2) := by
  have hs' : (2 : ℝ) ≤ s := by exact_mod_cast hs
  have ha : 0 < f.lpf.alpha ∧ f.lpf.alpha < 1 := by
    rw [h2]; exact ⟨by positivity, by rw [div_lt_one (by linarith)]; linarith⟩
  set t := (f.hpf.call x).2
  set v := (f.lpf.call (t * t)).2 with hv
  have hv' : v = (1 - f.lpf.alpha) * f.lpf.prev + f.lpf.alpha * (t * t) := rfl
  have hpos : 0 < v := by
    rw [hv']
    have : 0 < (1 - f.lpf.alpha) * f.lpf.prev := mul_pos (by linarith) h1
    have : 0 ≤ f.lpf.alpha * (t * t) := mul_nonneg ha.1.le (mul_self_nonneg t)
    linarith
  have hq : Real.sqrt (2 * v) ≠ 0 := (Real.sqrt_pos.mpr (by linarith)).ne'
  refine ⟨⟨(f.hpf.call x).1, (f.lpf.call (t * t)).1⟩, t / Real.sqrt (2 * v), ?_, hpos, h2, ?_⟩
  · simp only [call, bind, Except.bind, pure, Except.pure]
    rw [fdiv_ok (by exact hq)]
  · rw [abs_div, abs_of_nonneg (Real.sqrt_nonneg _), div_le_iff₀ (Real.sqrt_pos.mpr (by linarith)), ← Real.sqrt_mul (by linarith)]
    apply Real.abs_le_sqrt
    have h3 : (1 : ℝ) / s * (t * t) ≤ v := by
      rw [hv', ← h2]
      have : 0 < (1 - f.lpf.alpha) * f.lpf.prev := mul_pos (by linarith) h1
      linarith
    have h4 : t * t ≤ s * v := by
      have := mul_le_mul_of_nonneg_left h3 (by linarith : (0 : ℝ) ≤ s)
      rwa [← mul_assoc, mul_one_div_cancel (by linarith), one_mul] at this
    nlinarith

/-- For every history the normaliser never divides by zero and its output is at most `sqrt(s / 2)` in magnitude. -/
theorem C53_bounded (s : ℤ) (hs : 2 ≤ s) (xs : List ℝ) :
    ∃ ys, trace call (init.samples s) xs = (ys, none) ∧ ys.length = xs.length ∧ ∀ y ∈ ys, |y| ≤ Real.sqrt (s / 2) := by
  obtain ⟨f, ys, -, e, -, hl, hP⟩ := run_of_inv (step := call)
    (fun (f : NormalizeSine) _ => 0 < f.lpf.prev ∧ f.lpf.alpha = 1 / s) (fun _ y => |y| ≤ Real.sqrt (s / 2)) (fun _ => True)
    (fun f h x hI _ => by
      obtain ⟨f', y, h1, h2, h3, h4⟩ := call_ok f s hs hI.1 hI.2 x
      exact ⟨f', y, h1, ⟨h2, h3⟩, h4⟩)
    (s := init.samples s) (h := []) ⟨by simp [init, samples, EMA.init, EMA.samples]; norm_num, by simp [init, samples, EMA.samples]⟩ xs (by simp)
  refine ⟨ys, e, hl, fun y hy => ?_⟩
  obtain ⟨n, hn, rfl⟩ := List.getElem_of_mem hy
  obtain ⟨y', h1, h2⟩ := hP n (by omega)
  rw [List.getElem?_eq_getElem hn] at h1
  simp only [Option.some.injEq] at h1
  rw [h1]; exact h2

/-- Why `s ≥ 2` is needed: the weight of a new normaliser is one, so is that of `samples(1)`; a zero as first input gives 0/0. -/
theorem C53_default_divides_by_zero : trace call init [0] = ([], some .divZero) ∧ trace call (init.samples 1) [0] = ([], some .divZero) := by
  constructor <;>
    simp [trace, call, init, samples, BlockDC.init, BlockDC.samples, BlockDC.call, EMA.init, EMA.samples, EMA.call, lerp, fdiv,
      bind, Except.bind]

example : (2 : ℤ) ≤ 48 := by decide

end NormalizeSine

namespace NormalizeIQ

/-- The same for both components of complex samples. -/
theorem C53_iq (s : ℤ) (hs : 2 ≤ s) (xs : List ℂ) :
    ∃ ys, trace call (init.samples s) xs = (ys, none) ∧ ys.length = xs.length ∧
      ∀ y ∈ ys, |y.re| ≤ Real.sqrt (s / 2) ∧ |y.im| ≤ Real.sqrt (s / 2) := by
  obtain ⟨f, ys, -, e, -, hl, hP⟩ := run_of_inv (step := call)
    (fun (f : NormalizeIQ) _ => (0 < f.ni.lpf.prev ∧ f.ni.lpf.alpha = 1 / s) ∧ (0 < f.nq.lpf.prev ∧ f.nq.lpf.alpha = 1 / s))
    (fun _ y => |y.re| ≤ Real.sqrt (s / 2) ∧ |y.im| ≤ Real.sqrt (s / 2)) (fun _ => True)
    (fun f h x hI _ => by
      obtain ⟨f1, y1, a1, a2, a3, a4⟩ := NormalizeSine.call_ok f.ni s hs hI.1.1 hI.1.2 x.re
      obtain ⟨f2, y2, b1, b2, b3, b4⟩ := NormalizeSine.call_ok f.nq s hs hI.2.1 hI.2.2 x.im
      refine ⟨⟨f1, f2⟩, ⟨y1, y2⟩, ?_, ⟨⟨a2, a3⟩, b2, b3⟩, a4, b4⟩
      simp only [call, a1, b1, bind, Except.bind, pure, Except.pure])
    (s := init.samples s) (h := [])
    (by simp [init, samples, NormalizeSine.init, NormalizeSine.samples, EMA.init, EMA.samples]; norm_num) xs (by simp)
  refine ⟨ys, e, hl, fun y hy => ?_⟩
  obtain ⟨n, hn, rfl⟩ := List.getElem_of_mem hy
  obtain ⟨y', h1, h2⟩ := hP n (by omega)
  rw [List.getElem?_eq_getElem hn] at h1
  simp only [Option.some.injEq] at h1
  rw [h1]; exact h2

end NormalizeIQ
end DSP
