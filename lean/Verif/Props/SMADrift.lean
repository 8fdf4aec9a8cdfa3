import Verif.Props.SMAError
import Verif.Lemmas.IntRound

/-!
# C71: the drift of SMA2 and SMA3 in binary floating point
-/

namespace DSP

open Spec

namespace SMADrift

variable {p : ℕ} [NeZero p]

/-- The states reached by a list of inputs. -/
def Reach {σ ι ω : Type} (step : σ → ι → M (σ × ω)) (s : σ) (xs : List ι) (s' : σ) : Prop := ∃ ys, run step s xs = .ok (s', ys)

theorem Reach.nil {σ ι ω : Type} {step : σ → ι → M (σ × ω)} {s : σ} : Reach step s [] s := ⟨[], rfl⟩

theorem Reach.cons {σ ι ω : Type} {step : σ → ι → M (σ × ω)} {s s' s'' : σ} {x : ι} {y : ω} {xs : List ι} (h : step s x = .ok (s', y)) (h' : Reach step s' xs s'') : Reach step s (x :: xs) s'' := by
  obtain ⟨ys, e⟩ := h'
  exact ⟨y :: ys, by simp [run, h, e]⟩

theorem Reach.append {σ ι ω : Type} {step : σ → ι → M (σ × ω)} {xs xs' : List ι} : ∀ {s s' s'' : σ}, Reach step s xs s' → Reach step s' xs' s'' → Reach step s (xs ++ xs') s'' := by
  induction xs with
  | nil =>
    rintro s s' s'' ⟨ys, e⟩ h
    simp only [run, Except.ok.injEq, Prod.mk.injEq] at e
    rw [e.1]; exact h
  | cons x xs ih =>
    rintro s s' s'' ⟨ys, e⟩ h
    simp only [run] at e
    split at e
    · simp at e
    · next s1 o h1 =>
      split at e
      · simp at e
      · next s2 os h2 =>
        simp only [Except.ok.injEq, Prod.mk.injEq] at e
        obtain ⟨rfl, -⟩ := e
        exact Reach.cons h1 (ih ⟨os, h2⟩ h)

theorem int_val (hp : 2 ≤ p) (n : ℤ) (h : |n| < 4 * 2 ^ p) (h' : Binary.intRound (2 ^ p) n = n) : ((n : ℤ) : Binary p).val = n := by
  show Binary.round p (n : ℚ) = n
  rw [Binary.round_int p hp n h, h']

theorem add_val (hp : 2 ≤ p) (a b : Binary p) (m n : ℤ) (ha : a.val = m) (hb : b.val = n) (h : |m + n| < 4 * 2 ^ p) : (a + b).val = Binary.intRound (2 ^ p) (m + n) := by
  show Binary.round p (a.val + b.val) = _
  rw [ha, hb, ← Int.cast_add, Binary.round_int p hp _ h]

theorem sub_val (hp : 2 ≤ p) (a b : Binary p) (m n : ℤ) (ha : a.val = m) (hb : b.val = n) (h : |m - n| < 4 * 2 ^ p) : (a - b).val = Binary.intRound (2 ^ p) (m - n) := by
  show Binary.round p (a.val - b.val) = _
  rw [ha, hb, ← Int.cast_sub, Binary.round_int p hp _ h]

/-! ### SMA2 -/

/-- One call of `SMA2` on whole numbers. -/
def Step2 (P s o x s' : ℤ) : Prop := |x - o| < 4 * P ∧ |s + Binary.intRound P (x - o)| < 4 * P ∧ Binary.intRound P (s + Binary.intRound P (x - o)) = s'

/-- The average without division. -/
abbrev call2 : SMA2 (Binary p) → Binary p → M (SMA2 (Binary p) × Binary p) := SMA2.call (fun a b => .ok (a + b)) (fun a b => .ok (a - b)) false id

/-- The delay line holds `w`, the sum is `s`. -/
def At2 (NUM : ℕ) (st : SMA2 (Binary p)) (w : List (Binary p)) (s : ℤ) : Prop := Delay.Rep NUM st.delay w ∧ st.sum.val = s

theorem At2.step (hp : 2 ≤ p) {NUM : ℕ} {st : SMA2 (Binary p)} {a x : Binary p} {t : List (Binary p)} {s o i s' : ℤ} (h : At2 NUM st (a :: t) s) (ha : a.val = o) (hx : x.val = i)
    (hs : Step2 (2 ^ p) s o i s') : ∃ st' y, call2 st x = .ok (st', y) ∧ y.val = s' ∧ At2 NUM st' (t ++ [x]) s' := by
  obtain ⟨hr, hv⟩ := h
  obtain ⟨d', e, hd⟩ := hr.call x
  obtain ⟨b1, b2, e2⟩ := hs
  have v1 := sub_val hp x a i o hx ha b1
  have v2 := add_val hp st.sum (x - a) s _ hv v1 b2
  rw [e2] at v2
  exact ⟨⟨d', st.sum + (x - a)⟩, st.sum + (x - a), by simp only [SMA2.call, e, bind, Except.bind, pure, Except.pure]; rfl, v2, hd, v2⟩

theorem At2.zeros (hp : 2 ≤ p) {NUM : ℕ} {s : ℤ} (hs : Step2 (2 ^ p) s 0 0 s) (m : ℕ) : ∀ {st : SMA2 (Binary p)} {w : List (Binary p)}, At2 NUM st (List.replicate m 0 ++ w) s →
    ∃ st', Reach call2 st (List.replicate m 0) st' ∧ At2 NUM st' (w ++ List.replicate m 0) s := by
  induction m with
  | zero => intro st w h; exact ⟨st, Reach.nil, by simpa using h⟩
  | succ m ih =>
    intro st w h
    rw [List.replicate_succ, List.cons_append] at h
    obtain ⟨st1, y, e, -, h1⟩ := h.step hp (x := 0) (i := 0) (by simp [show (0 : Binary p).val = 0 from rfl]) (by simp [show (0 : Binary p).val = 0 from rfl]) hs
    rw [List.append_assoc] at h1
    obtain ⟨st2, r, h2⟩ := ih h1
    exact ⟨st2, Reach.cons e r, by rw [List.replicate_succ]; simpa using h2⟩

/-- Two inputs and as many zeros as the window is long. -/
theorem At2.block (hp : 2 ≤ p) {N : ℕ} {P : ℤ} (hP : (2 : ℤ) ^ p = P) {st : SMA2 (Binary p)} {s X y a b c d : ℤ} (h : At2 (N + 2) st (List.replicate (N + 2) 0) s) (hX : |X| < 4 * P) (hX' : Binary.intRound P X = X)
    (hy : |y| < 4 * P) (hy' : Binary.intRound P y = y) (h1 : Step2 P s 0 X a) (h2 : Step2 P a 0 y b) (h3 : Step2 P b 0 0 b) (h4 : Step2 P b X 0 c)
    (h5 : Step2 P c y 0 d) : ∃ st', Reach call2 st ([(X : Binary p), (y : Binary p)] ++ List.replicate (N + 2) 0) st' ∧ At2 (N + 2) st' (List.replicate (N + 2) 0) d := by
  subst hP
  have z : (0 : Binary p).val = ((0 : ℤ) : ℚ) := by simp [show (0 : Binary p).val = 0 from rfl]
  have vX := int_val hp X hX hX'
  have vy := int_val hp y hy hy'
  obtain ⟨s1, _, e1, -, i1⟩ := h.step (t := List.replicate (N + 1) 0) hp z vX h1
  rw [List.replicate_succ, List.cons_append] at i1
  obtain ⟨s2, _, e2, -, i2⟩ := i1.step hp z vy h2
  rw [List.append_assoc] at i2
  obtain ⟨s3, e3, i3⟩ := i2.zeros hp h3 N
  obtain ⟨s4, _, e4, -, i4⟩ := At2.step hp (a := (X : Binary p)) (x := 0) i3 vX z h4
  obtain ⟨s5, _, e5, -, i5⟩ := At2.step hp (a := (y : Binary p)) (x := 0) i4 vy z h5
  have er : List.replicate (N + 2) (0 : Binary p) = List.replicate N 0 ++ [0, 0] := by rw [List.replicate_add]; rfl
  refine ⟨s5, Reach.cons e1 (Reach.cons e2 ?_), ?_⟩
  · show Reach call2 s2 (List.replicate (N + 2) 0) s5
    rw [er]
    exact Reach.append e3 (Reach.cons e4 (Reach.cons e5 Reach.nil))
  · rw [er]
    simpa using i5

theorem Step2.of {P s o x s' : ℤ} (d : ℤ) (b1 : |x - o| < 4 * P) (h1 : Binary.intRound P (x - o) = d) (b2 : |s + d| < 4 * P) (h2 : Binary.intRound P (s + d) = s') : Step2 P s o x s' := by
  subst h1
  exact ⟨b1, b2, h2⟩

theorem intRound_exact_pos {P n : ℤ} (h0 : 0 ≤ n) (h : n < P ∨ (n % 2 = 0 ∧ n < 2 * P) ∨ (n % 4 = 0 ∧ n < 4 * P)) : Binary.intRound P n = n := by
  unfold Binary.intRound
  simp only [abs_of_nonneg h0]
  rw [if_neg (by omega : ¬n < 0)]
  by_cases c1 : n < P
  · rw [if_pos c1]
  · rw [if_neg c1]
    by_cases c2 : n < 2 * P
    · rw [if_pos c2, if_neg (by omega), if_neg (by omega)]
    · rw [if_neg c2, if_neg (by omega), if_neg (by omega), if_neg (by omega), if_neg (by omega), if_neg (by omega), if_neg (by omega)]

theorem intRound_neg (P n : ℤ) : Binary.intRound P (-n) = -Binary.intRound P n := by
  unfold Binary.intRound
  simp only [abs_neg]
  rcases lt_trichotomy n 0 with hn | rfl | hn
  · rw [if_neg (by omega), if_pos hn, neg_neg]
  · norm_num
  · rw [if_pos (by omega : -n < 0), if_neg (by omega : ¬n < 0)]

theorem intRound_exact {P n : ℤ} (h : (-P < n ∧ n < P) ∨ (n % 2 = 0 ∧ -(2 * P) < n ∧ n < 2 * P) ∨ (n % 4 = 0 ∧ -(4 * P) < n ∧ n < 4 * P)) : Binary.intRound P n = n := by
  rcases le_or_gt 0 n with hn | hn
  · exact intRound_exact_pos hn (by omega)
  · have := intRound_exact_pos (P := P) (n := -n) (by omega) (by omega)
    rw [intRound_neg] at this
    omega

/-- Half way between two numbers, just above the precision. -/
theorem intRound_half {P n m : ℤ} (h : P ≤ n ∧ n < 2 * P) (h0 : 0 < P) (hm : (n % 4 = 1 ∧ m = n - 1) ∨ (n % 4 = 3 ∧ m = n + 1)) : Binary.intRound P n = m := by
  unfold Binary.intRound
  simp only [abs_of_nonneg (by omega : 0 ≤ n)]
  rw [if_neg (by omega), if_neg (by omega), if_pos (by omega)]
  split_ifs <;> omega

/-- The same one power of two higher. -/
theorem intRound_two {P n m : ℤ} (h : 2 * P ≤ n ∧ n < 4 * P) (h0 : 0 < P) (hm : (n % 4 = 1 ∧ m = n - 1) ∨ (n % 4 = 3 ∧ m = n + 1) ∨ (n % 8 = 2 ∧ m = n - 2) ∨ (n % 8 = 6 ∧ m = n + 2)) :
    Binary.intRound P n = m := by
  unfold Binary.intRound
  simp only [abs_of_nonneg (by omega : 0 ≤ n)]
  rw [if_neg (by omega), if_neg (by omega), if_neg (by omega)]
  split_ifs <;> omega

/-- A bound on a magnitude. -/
macro "bd" : tactic => `(tactic| first | (rw [abs_lt]; omega) | (rw [abs_le]; omega))

/-- A result that is exact. -/
macro "ex" : tactic => `(tactic| (refine (intRound_exact ?_).trans ?_ <;> omega))

/-- As long as the sum is small, the next block makes it smaller by one. -/
theorem At2.drift (hp : 3 ≤ p) {N : ℕ} (k : ℤ) (h0 : 0 ≤ k) (hk : k < 2 ^ p) {st : SMA2 (Binary p)} (h : At2 (N + 2) st (List.replicate (N + 2) 0) (-k)) :
    ∃ X y : ℤ, |X| ≤ 2 * 2 ^ p ∧ |y| ≤ 2 * 2 ^ p ∧ Binary.intRound (2 ^ p) X = X ∧ Binary.intRound (2 ^ p) y = y ∧
      ∃ st', Reach call2 st ([(X : Binary p), (y : Binary p)] ++ List.replicate (N + 2) 0) st' ∧ At2 (N + 2) st' (List.replicate (N + 2) 0) (-(k + 1)) := by
  obtain ⟨Q, hQ, hQ0⟩ : ∃ Q : ℤ, 2 ^ p = 8 * Q ∧ 0 < Q := ⟨2 ^ (p - 3), by rw [show (8 : ℤ) = 2 ^ 3 by norm_num, ← pow_add]; congr 1; omega, by positivity⟩
  rw [hQ] at hk ⊢
  rcases Int.emod_two_eq_zero_or_one k with hm | hm
  · refine ⟨8 * Q + k, 1, by bd, by bd, by ex, by ex, At2.block (by omega) hQ h (X := 8 * Q + k) (y := 1) (a := 8 * Q) (b := 8 * Q) (c := -k) (by bd) (by ex) (by bd) (by ex) ?_ ?_ ?_ ?_ ?_⟩
    · exact Step2.of (8 * Q + k) (by bd) (by ex) (by bd) (by ex)
    · exact Step2.of 1 (by bd) (by ex) (by bd) (intRound_half (by omega) (by omega) (by omega))
    · exact Step2.of 0 (by bd) (by ex) (by bd) (by ex)
    · exact Step2.of (-(8 * Q + k)) (by bd) (by ex) (by bd) (by ex)
    · exact Step2.of (-1) (by bd) (by ex) (by bd) (by ex)
  · refine ⟨8 * Q + k - 1, 2, by bd, by bd, by ex, by ex, At2.block (by omega) hQ h (X := 8 * Q + k - 1) (y := 2) (a := 8 * Q - 1) (b := 8 * Q) (c := -k + 1) (by bd) (by ex) (by bd) (by ex) ?_ ?_ ?_ ?_ ?_⟩
    · exact Step2.of (8 * Q + k - 1) (by bd) (by ex) (by bd) (by ex)
    · exact Step2.of 2 (by bd) (by ex) (by bd) (intRound_half (by omega) (by omega) (by omega))
    · exact Step2.of 0 (by bd) (by ex) (by bd) (by ex)
    · exact Step2.of (-(8 * Q + k - 1)) (by bd) (by ex) (by bd) (by ex)
    · exact Step2.of (-2) (by bd) (by ex) (by bd) (by ex)

theorem lastN_zeros {α : Type} [Zero α] (xs : List α) (n : ℕ) : lastN n (xs ++ List.replicate n 0) = List.replicate n 0 := by
  simp [lastN]

/-- **C71** (drift of `SMA2`). In floating point of any precision and for windows of two or more, there are inputs of at most `2^(p+1)` after which the window holds nothing but zeros and the
"sum" is `-K`, for all `K` up to `2^p`, which is half of the largest input: no bound on the error that depends on the window alone can hold. -/
theorem C71_sma2_drift (hp : 3 ≤ p) (NUM : ℕ) (hN : 2 ≤ NUM) (K : ℕ) (hK : K ≤ 2 ^ p) :
    ∃ xs : List (Binary p), xs.length = K * (NUM + 2) ∧ (∀ x ∈ xs, |x.val| ≤ 2 * 2 ^ p) ∧ (∀ x ∈ lastN NUM xs, x = 0) ∧
      ∃ st ys st' y, run call2 (SMA2.init NUM) xs = .ok (st, ys) ∧ call2 st 0 = .ok (st', y) ∧ y.val = -K := by
  obtain ⟨N, rfl⟩ : ∃ N, NUM = N + 2 := ⟨NUM - 2, by omega⟩
  have z : (0 : Binary p).val = ((0 : ℤ) : ℚ) := by simp [show (0 : Binary p).val = 0 from rfl]
  suffices H : ∀ K : ℕ, K ≤ 2 ^ p → ∃ xs : List (Binary p), xs.length = K * (N + 2 + 2) ∧ (∀ x ∈ xs, |x.val| ≤ 2 * 2 ^ p) ∧ (∀ x ∈ lastN (N + 2) xs, x = 0) ∧
      ∃ st, Reach call2 (SMA2.init (N + 2)) xs st ∧ At2 (N + 2) st (List.replicate (N + 2) 0) (-(K : ℤ)) by
    obtain ⟨xs, h1, h2, h3, st, ⟨ys, h4⟩, h5⟩ := H K hK
    obtain ⟨Q, hQ, hQ0⟩ : ∃ Q : ℤ, 2 ^ p = 8 * Q ∧ 0 < Q := ⟨2 ^ (p - 3), by rw [show (8 : ℤ) = 2 ^ 3 by norm_num, ← pow_add]; congr 1; omega, by positivity⟩
    have hK' : (K : ℤ) ≤ 8 * Q := by rw [← hQ]; exact_mod_cast hK
    obtain ⟨st', y, e, hy, -⟩ := h5.step (t := List.replicate (N + 1) 0) (by omega) (x := 0) (s' := -(K : ℤ)) z z (by
      rw [hQ]
      exact Step2.of 0 (by bd) (by ex) (by bd) (by ex))
    exact ⟨xs, h1, h2, h3, st, ys, st', y, h4, e, by rw [hy]; push_cast; rfl⟩
  intro K
  induction K with
  | zero =>
    intro _
    exact ⟨[], by simp, by simp, by simp [lastN], _, Reach.nil, Delay.Rep.init (by omega) 0, by simp [SMA2.init, show (0 : Binary p).val = 0 from rfl]⟩
  | succ K ih =>
    intro hK
    obtain ⟨xs, h1, h2, h3, st, h4, h5⟩ := ih (by omega)
    obtain ⟨X, y, bX, by', rX, ry, st', r, h6⟩ := h5.drift hp K (by omega) (by exact_mod_cast hK)
    have hP : (0 : ℤ) < 2 ^ p := by positivity
    refine ⟨xs ++ ([(X : Binary p), (y : Binary p)] ++ List.replicate (N + 2) 0), by simp [h1]; ring, ?_, ?_, st', h4.append r, by push_cast; exact h6⟩
    · intro x hx
      simp only [List.mem_append, List.mem_cons, List.not_mem_nil, or_false, List.mem_replicate] at hx
      rcases hx with hx | (rfl | rfl) | ⟨-, rfl⟩
      · exact h2 x hx
      · rw [int_val (by omega) X (by omega) rX]; exact_mod_cast bX
      · rw [int_val (by omega) y (by omega) ry]; exact_mod_cast by'
      · rw [z]; simp
    · rw [← List.append_assoc, lastN_zeros]
      intro x hx
      exact List.eq_of_mem_replicate hx

/-! ### SMA3 -/

/-- One addition of the Kahan summation on whole numbers. -/
def Add3 (P s c x s' c' : ℤ) : Prop := ∃ t d, |x - c| < 4 * P ∧ Binary.intRound P (x - c) = t ∧ |s + t| < 4 * P ∧ Binary.intRound P (s + t) = s' ∧ |s' - s| < 4 * P ∧
  Binary.intRound P (s' - s) = d ∧ |d - t| < 4 * P ∧ Binary.intRound P (d - t) = c'

/-- The average without division. -/
abbrev call3 : SMA3 (Binary p) → Binary p → M (SMA3 (Binary p) × Binary p) := SMA3.call false id

theorem kahan_val (hp : 2 ≤ p) (k : Kahan (Binary p)) (x : Binary p) (s c i s' c' : ℤ) (hs : k.high.val = s) (hc : k.low.val = c) (hx : x.val = i) (h : Add3 (2 ^ p) s c i s' c') :
    (k.call x).2.val = s' ∧ (k.call x).1.high.val = s' ∧ (k.call x).1.low.val = c' := by
  obtain ⟨t, d, b1, e1, b2, e2, b3, e3, b4, e4⟩ := h
  have v1 := sub_val hp x k.low i c hx hc b1
  rw [e1] at v1
  have v2 := add_val hp k.high (x - k.low) s t hs v1 b2
  rw [e2] at v2
  have v3 := sub_val hp (k.high + (x - k.low)) k.high s' s v2 hs b3
  rw [e3] at v3
  have v4 := sub_val hp (k.high + (x - k.low) - k.high) (x - k.low) d t v3 v1 b4
  rw [e4] at v4
  exact ⟨v2, v2, v4⟩

/-- The delay line holds `w`, the sum is `s` with the correction `c`. -/
def At3 (NUM : ℕ) (st : SMA3 (Binary p)) (w : List (Binary p)) (s c : ℤ) : Prop := Delay.Rep NUM st.delay w ∧ st.sum.high.val = s ∧ st.sum.low.val = c

theorem At3.step (hp : 2 ≤ p) {NUM : ℕ} {st : SMA3 (Binary p)} {a x : Binary p} {t : List (Binary p)} {s c o i s1 c1 s' c' : ℤ} (h : At3 NUM st (a :: t) s c) (ha : a.val = o) (hx : x.val = i)
    (h1 : Add3 (2 ^ p) s c (-o) s1 c1) (h2 : Add3 (2 ^ p) s1 c1 i s' c') : ∃ st' y, call3 st x = .ok (st', y) ∧ y.val = s' ∧ At3 NUM st' (t ++ [x]) s' c' := by
  obtain ⟨hr, hv, hc⟩ := h
  obtain ⟨d', e, hd⟩ := hr.call x
  have hn : (-a).val = ((-o : ℤ) : ℚ) := by
    show -a.val = _
    rw [ha]; push_cast; rfl
  obtain ⟨-, k1, k2⟩ := kahan_val hp st.sum (-a) s c (-o) s1 c1 hv hc hn h1
  obtain ⟨k3, k4, k5⟩ := kahan_val hp _ x s1 c1 i s' c' k1 k2 hx h2
  exact ⟨⟨d', ((st.sum.call (-a)).1.call x).1⟩, ((st.sum.call (-a)).1.call x).2, by simp only [SMA3.call, e, bind, Except.bind, pure, Except.pure]; rfl, k3, hd, k4, k5⟩

theorem At3.zeros (hp : 2 ≤ p) {NUM : ℕ} {s c : ℤ} (hs : Add3 (2 ^ p) s c 0 s c) (m : ℕ) : ∀ {st : SMA3 (Binary p)} {w : List (Binary p)}, At3 NUM st (List.replicate m 0 ++ w) s c →
    ∃ st', Reach call3 st (List.replicate m 0) st' ∧ At3 NUM st' (w ++ List.replicate m 0) s c := by
  have z : (0 : Binary p).val = ((0 : ℤ) : ℚ) := by simp [show (0 : Binary p).val = 0 from rfl]
  induction m with
  | zero => intro st w h; exact ⟨st, Reach.nil, by simpa using h⟩
  | succ m ih =>
    intro st w h
    rw [List.replicate_succ, List.cons_append] at h
    obtain ⟨st1, y, e, -, h1⟩ := h.step hp (x := 0) z z hs hs
    rw [List.append_assoc] at h1
    obtain ⟨st2, r, h2⟩ := ih h1
    exact ⟨st2, Reach.cons e r, by rw [List.replicate_succ]; simpa using h2⟩

theorem Add3.idle {P s : ℤ} (h0 : 0 < P) (b : |s| < 4 * P) (h : Binary.intRound P s = s) : Add3 P s 0 0 s 0 :=
  ⟨0, 0, by simpa, by simpa using intRound_exact (P := P) (n := 0) (by omega), by simpa, by simpa, by simpa, by simpa using intRound_exact (P := P) (n := 0) (by omega), by simpa,
    by simpa using intRound_exact (P := P) (n := 0) (by omega)⟩

theorem At3.block (hp : 2 ≤ p) {N : ℕ} {P : ℤ} (hP : (2 : ℤ) ^ p = P) {st : SMA3 (Binary p)} {s X y a b c e d : ℤ} (h : At3 (N + 2) st (List.replicate (N + 2) 0) s 0)
    (hX : |X| < 4 * P) (hX' : Binary.intRound P X = X) (hy : |y| < 4 * P) (hy' : Binary.intRound P y = y) (bs : |s| < 4 * P) (rs : Binary.intRound P s = s)
    (ba : |a| < 4 * P) (ra : Binary.intRound P a = a) (bc : |c| < 4 * P) (rc : Binary.intRound P c = c) (bd' : |d| < 4 * P) (rd' : Binary.intRound P d = d)
    (h1 : Add3 P s 0 X a 0) (h2 : Add3 P a 0 y b e) (h3 : Add3 P b e 0 b e) (h4 : Add3 P b e (-X) c 0) (h5 : Add3 P c 0 (-y) d 0) :
    ∃ st', Reach call3 st ([(X : Binary p), (y : Binary p)] ++ List.replicate (N + 2) 0) st' ∧ At3 (N + 2) st' (List.replicate (N + 2) 0) d 0 := by
  subst hP
  have hP : (0 : ℤ) < 2 ^ p := by positivity
  have z : (0 : Binary p).val = ((0 : ℤ) : ℚ) := by simp [show (0 : Binary p).val = 0 from rfl]
  have vX := int_val hp X hX hX'
  have vy := int_val hp y hy hy'
  obtain ⟨s1, _, e1, -, i1⟩ := h.step (t := List.replicate (N + 1) 0) hp z vX (by simpa using Add3.idle hP bs rs) h1
  rw [List.replicate_succ, List.cons_append] at i1
  obtain ⟨s2, _, e2, -, i2⟩ := i1.step hp z vy (by simpa using Add3.idle hP ba ra) h2
  rw [List.append_assoc] at i2
  obtain ⟨s3, e3, i3⟩ := i2.zeros hp h3 N
  obtain ⟨s4, _, e4, -, i4⟩ := At3.step hp (a := (X : Binary p)) (x := 0) i3 vX z h4 (Add3.idle hP bc rc)
  obtain ⟨s5, _, e5, -, i5⟩ := At3.step hp (a := (y : Binary p)) (x := 0) i4 vy z h5 (Add3.idle hP bd' rd')
  have er : List.replicate (N + 2) (0 : Binary p) = List.replicate N 0 ++ [0, 0] := by rw [List.replicate_add]; rfl
  refine ⟨s5, Reach.cons e1 (Reach.cons e2 ?_), ?_⟩
  · show Reach call3 s2 (List.replicate (N + 2) 0) s5
    rw [er]
    exact Reach.append e3 (Reach.cons e4 (Reach.cons e5 Reach.nil))
  · rw [er]
    simpa using i5

/-- Half way, with either sign and either power of two. -/
theorem intRound_any {P n m : ℤ} (h0 : 0 < P)
    (h : (P ≤ n ∧ n < 2 * P ∧ ((n % 4 = 1 ∧ m = n - 1) ∨ (n % 4 = 3 ∧ m = n + 1))) ∨
      (2 * P ≤ n ∧ n < 4 * P ∧ ((n % 4 = 1 ∧ m = n - 1) ∨ (n % 4 = 3 ∧ m = n + 1) ∨ (n % 8 = 2 ∧ m = n - 2) ∨ (n % 8 = 6 ∧ m = n + 2)))) :
    Binary.intRound P n = m ∧ Binary.intRound P (-n) = -m := by
  rw [intRound_neg]
  suffices H : Binary.intRound P n = m by rw [H]; exact ⟨rfl, rfl⟩
  rcases h with ⟨h1, h2, h3⟩ | ⟨h1, h2, h3⟩
  · exact intRound_half ⟨h1, h2⟩ h0 h3
  · exact intRound_two ⟨h1, h2⟩ h0 h3

/-- A positive result that is not exact. -/
macro "rn" : tactic => `(tactic| exact (intRound_any (by omega) (by omega)).1)

/-- As long as the sum is small, the next block makes it smaller by one. -/
theorem At3.drift (hp : 4 ≤ p) {N : ℕ} (k : ℤ) (h0 : 0 ≤ k) (hk : 2 * k < 2 ^ p) {st : SMA3 (Binary p)} (h : At3 (N + 2) st (List.replicate (N + 2) 0) (-k) 0) :
    ∃ X y : ℤ, |X| ≤ 3 * 2 ^ p ∧ |y| ≤ 3 * 2 ^ p ∧ Binary.intRound (2 ^ p) X = X ∧ Binary.intRound (2 ^ p) y = y ∧
      ∃ st', Reach call3 st ([(X : Binary p), (y : Binary p)] ++ List.replicate (N + 2) 0) st' ∧ At3 (N + 2) st' (List.replicate (N + 2) 0) (-(k + 1)) 0 := by
  obtain ⟨Q, hQ, hQ0⟩ : ∃ Q : ℤ, 2 ^ p = 16 * Q ∧ 0 < Q := ⟨2 ^ (p - 4), by rw [show (16 : ℤ) = 2 ^ 4 by norm_num, ← pow_add]; congr 1; omega, by positivity⟩
  rw [hQ] at hk ⊢
  have hm : k % 4 = 0 ∨ k % 4 = 2 ∨ k % 4 = 3 ∨ k % 8 = 1 ∨ k % 8 = 5 := by omega
  rcases hm with hm | hm | hm | hm | hm
  · refine ⟨32 * Q, 1, by bd, by bd, by ex, by ex, At3.block (by omega) hQ h (X := 32 * Q) (y := 1) (a := 32 * Q - k) (b := 32 * Q - k) (e := -1) (c := -k) (by bd) (by ex) (by bd) (by ex)
      (by bd) (by ex) (by bd) (by ex) (by bd) (by ex) (by bd) (by ex) ?_ ?_ ?_ ?_ ?_⟩
    · exact ⟨32 * Q, 32 * Q, by bd, by ex, by bd, by ex, by bd, by ex, by bd, by ex⟩
    · exact ⟨1, 0, by bd, by ex, by bd, by rn, by bd, by ex, by bd, by ex⟩
    · exact ⟨1, 0, by bd, by ex, by bd, by rn, by bd, by ex, by bd, by ex⟩
    · refine ⟨-(32 * Q), -(32 * Q), by bd, ?_, by bd, by ex, by bd, by ex, by bd, by ex⟩
      rw [show -(32 * Q) - -1 = -(32 * Q - 1) by ring]
      exact (intRound_any (by omega) (by omega)).2
    · exact ⟨-1, -1, by bd, by ex, by bd, by ex, by bd, by ex, by bd, by ex⟩
  · refine ⟨32 * Q, -1, by bd, by bd, by ex, by ex, At3.block (by omega) hQ h (X := 32 * Q) (y := -1) (a := 32 * Q - k) (b := 32 * Q - k - 2) (e := -1) (c := -k - 2) (by bd) (by ex) (by bd) (by ex)
      (by bd) (by ex) (by bd) (by ex) (by bd) (by ex) (by bd) (by ex) ?_ ?_ ?_ ?_ ?_⟩
    · exact ⟨32 * Q, 32 * Q, by bd, by ex, by bd, by ex, by bd, by ex, by bd, by ex⟩
    · exact ⟨-1, -2, by bd, by ex, by bd, by rn, by bd, by ex, by bd, by ex⟩
    · exact ⟨1, 0, by bd, by ex, by bd, by rn, by bd, by ex, by bd, by ex⟩
    · refine ⟨-(32 * Q), -(32 * Q), by bd, ?_, by bd, by ex, by bd, by ex, by bd, by ex⟩
      rw [show -(32 * Q) - -1 = -(32 * Q - 1) by ring]
      exact (intRound_any (by omega) (by omega)).2
    · exact ⟨1, 1, by bd, by ex, by bd, by ex, by bd, by ex, by bd, by ex⟩
  · refine ⟨32 * Q, 0, by bd, by bd, by ex, by ex, At3.block (by omega) hQ h (X := 32 * Q) (y := 0) (a := 32 * Q - k - 1) (b := 32 * Q - k - 1) (e := 0) (c := -k - 1) (by bd) (by ex) (by bd) (by ex)
      (by bd) (by ex) (by bd) (by ex) (by bd) (by ex) (by bd) (by ex) ?_ ?_ ?_ ?_ ?_⟩
    · exact ⟨32 * Q, 32 * Q, by bd, by ex, by bd, by rn, by bd, by rn, by bd, by ex⟩
    · exact ⟨0, 0, by bd, by ex, by bd, by ex, by bd, by ex, by bd, by ex⟩
    · exact ⟨0, 0, by bd, by ex, by bd, by ex, by bd, by ex, by bd, by ex⟩
    · exact ⟨-(32 * Q), -(32 * Q), by bd, by ex, by bd, by ex, by bd, by ex, by bd, by ex⟩
    · exact ⟨0, 0, by bd, by ex, by bd, by ex, by bd, by ex, by bd, by ex⟩
  · refine ⟨32 * Q + k + 3, 2, by bd, by bd, by ex, by ex, At3.block (by omega) hQ h (X := 32 * Q + k + 3) (y := 2) (a := 32 * Q + 4) (b := 32 * Q + 8) (e := 2) (c := 1 - k)
      (by bd) (by ex) (by bd) (by ex) (by bd) (by ex) (by bd) (by ex) (by bd) (by ex) (by bd) (by ex) ?_ ?_ ?_ ?_ ?_⟩
    · exact ⟨32 * Q + k + 3, 32 * Q + k + 3, by bd, by ex, by bd, by rn, by bd, by rn, by bd, by ex⟩
    · exact ⟨2, 4, by bd, by ex, by bd, by rn, by bd, by ex, by bd, by ex⟩
    · exact ⟨-2, 0, by bd, by ex, by bd, by rn, by bd, by ex, by bd, by ex⟩
    · refine ⟨-(32 * Q + k + 7), -(32 * Q + k + 7), by bd, ?_, by bd, by ex, by bd, by ex, by bd, by ex⟩
      rw [show -(32 * Q + k + 3) - 2 = -(32 * Q + k + 5) by ring]
      exact (intRound_any (by omega) (by omega)).2
    · exact ⟨-2, -2, by bd, by ex, by bd, by ex, by bd, by ex, by bd, by ex⟩
  · refine ⟨32 * Q + k + 3, -2, by bd, by bd, by ex, by ex, At3.block (by omega) hQ h (X := 32 * Q + k + 3) (y := -2) (a := 32 * Q + 4) (b := 32 * Q) (e := -2) (c := -k - 3)
      (by bd) (by ex) (by bd) (by ex) (by bd) (by ex) (by bd) (by ex) (by bd) (by ex) (by bd) (by ex) ?_ ?_ ?_ ?_ ?_⟩
    · exact ⟨32 * Q + k + 3, 32 * Q + k + 3, by bd, by ex, by bd, by rn, by bd, by rn, by bd, by ex⟩
    · exact ⟨-2, -4, by bd, by ex, by bd, by rn, by bd, by ex, by bd, by ex⟩
    · exact ⟨2, 0, by bd, by ex, by bd, by rn, by bd, by ex, by bd, by ex⟩
    · refine ⟨-(32 * Q + k + 3), -(32 * Q + k + 3), by bd, ?_, by bd, by ex, by bd, by ex, by bd, by ex⟩
      rw [show -(32 * Q + k + 3) - -2 = -(32 * Q + k + 1) by ring]
      exact (intRound_any (by omega) (by omega)).2
    · exact ⟨2, 2, by bd, by ex, by bd, by ex, by bd, by ex, by bd, by ex⟩

/-- **C71** (drift of `SMA3`). The Kahan summation does not remove the drift either: there are inputs of at most `3*2^p` after which the window holds nothing but zeros and the "sum" is `-K`, for
all `K` up to `2^(p-1)`, a sixth of the largest input. -/
theorem C71_sma3_drift (hp : 4 ≤ p) (NUM : ℕ) (hN : 2 ≤ NUM) (K : ℕ) (hK : 2 * K ≤ 2 ^ p) :
    ∃ xs : List (Binary p), xs.length = K * (NUM + 2) ∧ (∀ x ∈ xs, |x.val| ≤ 3 * 2 ^ p) ∧ (∀ x ∈ lastN NUM xs, x = 0) ∧
      ∃ st ys st' y, run call3 (SMA3.init NUM) xs = .ok (st, ys) ∧ call3 st 0 = .ok (st', y) ∧ y.val = -K := by
  obtain ⟨N, rfl⟩ : ∃ N, NUM = N + 2 := ⟨NUM - 2, by omega⟩
  have z : (0 : Binary p).val = ((0 : ℤ) : ℚ) := by simp [show (0 : Binary p).val = 0 from rfl]
  have hP : (0 : ℤ) < 2 ^ p := by positivity
  suffices H : ∀ K : ℕ, 2 * K ≤ 2 ^ p → ∃ xs : List (Binary p), xs.length = K * (N + 2 + 2) ∧ (∀ x ∈ xs, |x.val| ≤ 3 * 2 ^ p) ∧ (∀ x ∈ lastN (N + 2) xs, x = 0) ∧
      ∃ st, Reach call3 (SMA3.init (N + 2)) xs st ∧ At3 (N + 2) st (List.replicate (N + 2) 0) (-(K : ℤ)) 0 by
    obtain ⟨xs, h1, h2, h3, st, ⟨ys, h4⟩, h5⟩ := H K hK
    have hK' : 2 * (K : ℤ) ≤ 2 ^ p := by exact_mod_cast hK
    have hi : Add3 (2 ^ p) (-(K : ℤ)) 0 0 (-(K : ℤ)) 0 := Add3.idle hP (by bd) (by ex)
    obtain ⟨st', y, e, hy, -⟩ := h5.step (t := List.replicate (N + 1) 0) (by omega) (x := 0) z z (by simpa using hi) hi
    exact ⟨xs, h1, h2, h3, st, ys, st', y, h4, e, by rw [hy]; push_cast; rfl⟩
  intro K
  induction K with
  | zero =>
    intro _
    exact ⟨[], by simp, by simp, by simp [lastN], _, Reach.nil, Delay.Rep.init (by omega) 0, by simp [SMA3.init, Kahan.init, show (0 : Binary p).val = 0 from rfl],
      by simp [SMA3.init, Kahan.init, show (0 : Binary p).val = 0 from rfl]⟩
  | succ K ih =>
    intro hK
    obtain ⟨xs, h1, h2, h3, st, h4, h5⟩ := ih (by omega)
    have hK' : 2 * ((K : ℤ) + 1) ≤ 2 ^ p := by exact_mod_cast hK
    obtain ⟨X, y, bX, by', rX, ry, st', r, h6⟩ := h5.drift hp K (by omega) (by omega)
    refine ⟨xs ++ ([(X : Binary p), (y : Binary p)] ++ List.replicate (N + 2) 0), by simp [h1]; ring, ?_, ?_, st', h4.append r, by push_cast; exact h6⟩
    · intro x hx
      simp only [List.mem_append, List.mem_cons, List.not_mem_nil, or_false, List.mem_replicate] at hx
      rcases hx with hx | (rfl | rfl) | ⟨-, rfl⟩
      · exact h2 x hx
      · rw [int_val (by omega) X (by omega) rX]; exact_mod_cast bX
      · rw [int_val (by omega) y (by omega) ry]; exact_mod_cast by'
      · rw [z]; simp
    · rw [← List.append_assoc, lastN_zeros]
      intro x hx
      exact List.eq_of_mem_replicate hx

/-! ### The bounds in binary floating point -/

/-- The division by `VALUE(NUM)`. -/
def divNum (p : ℕ) [NeZero p] (NUM : ℕ) (a : Binary p) : Binary p := a / ((NUM : ℤ) : Binary p)

theorem divNum_rounded (NUM : ℕ) (h : NUM < 2 ^ p) : RoundedDivN (fun a : Binary p => (a.val : ℝ)) (1 / 2 ^ p) NUM (divNum p NUM) := by
  intro a
  have hv : (((NUM : ℤ) : Binary p).val : ℚ) = NUM := by
    have := Binary.round_of_representable p (((NUM : ℤ)) : ℚ) ⟨NUM, 0, by rw [abs_of_nonneg (by positivity)]; exact_mod_cast h, by simp⟩
    exact_mod_cast this
  have h : |(divNum p NUM a).val - a.val / ((NUM : ℤ) : Binary p).val| ≤ |a.val / ((NUM : ℤ) : Binary p).val| / 2 ^ p := Binary.round_error p _
  rw [hv] at h
  show |((divNum p NUM a).val : ℝ) - (a.val : ℝ) / NUM| ≤ 1 / 2 ^ p * |(a.val : ℝ) / NUM|
  rw [one_div_mul_eq_div]
  exact_mod_cast h

theorem add_comm' (a b : Binary p) : a + b = b + a := by
  have : (a + b).val = (b + a).val := by
    show Binary.round p (a.val + b.val) = Binary.round p (b.val + a.val)
    rw [add_comm]
  cases h : a + b; cases h' : b + a; simp_all

theorem zero_add_zero : (0 : Binary p) + 0 = 0 := by
  have : ((0 : Binary p) + 0).val = (0 : Binary p).val := by
    show Binary.round p (0 + 0) = 0
    simp [Binary.round, Binary.nearest]
  cases h : (0 : Binary p) + 0; cases h' : (0 : Binary p); simp_all

/-- **C71** in floating point of `p` bits: the errors of `SMA1` and `SMA4` only depend on the inputs within the window, those of `SMA4` only grow with the logarithm of its length. -/
theorem C71_binary (NUM : ℕ) (hN : 0 < NUM) (hp : NUM < 2 ^ p) (xs : List (Binary p)) :
    (∃ ys, trace (SMA1.call (divNum p NUM)) (SMA1.init NUM) xs = (ys, none) ∧ ys.length = xs.length ∧ ∀ n, n < xs.length → ∃ y, ys[n]? = some y ∧
      |(y.val : ℝ) - windowSum (fun x => (x.val : ℝ)) NUM xs n / NUM| ≤ ((1 + 1 / 2 ^ p) ^ NUM - 1) * windowSum (fun x => |(x.val : ℝ)|) NUM xs n / NUM) ∧
    ∃ ys, trace (SMA4.call true (divNum p NUM)) (SMA4.init NUM) xs = (ys, none) ∧ ys.length = xs.length ∧ ∀ n, n < xs.length → ∃ y, ys[n]? = some y ∧
      |(y.val : ℝ) - windowSum (fun x => (x.val : ℝ)) NUM xs n / NUM| ≤ ((1 + 1 / 2 ^ p) ^ (Nat.clog 2 NUM + 1) - 1) * windowSum (fun x => |(x.val : ℝ)|) NUM xs n / NUM := by
  refine ⟨SMAError.C71_sma1 (binary_rounded p) (by positivity) NUM hN (divNum_rounded NUM hp) xs, ?_⟩
  simpa [mean] using SMAError.C71_sma4 (binary_rounded p) (by positivity) add_comm' zero_add_zero NUM hN (divNum_rounded NUM hp) true xs

/-- Single precision, a window of 100: `SMA1` may lose about seven bits and `SMA4` three. -/
example : (1 + 1 / 2 ^ 24 : ℚ) ^ 100 - 1 ≤ 101 / 2 ^ 24 ∧ (1 + 1 / 2 ^ 24 : ℚ) ^ (Nat.clog 2 100 + 1) - 1 ≤ 81 / 10 / 2 ^ 24 := by
  constructor
  · norm_num
  · rw [show Nat.clog 2 100 = 7 by decide +kernel]; norm_num

/-- The hypotheses are met by single precision and a window of 100; no input is left in the window, yet `SMA2` reports `-16777216` and `SMA3` `-8388608`. -/
example : ∃ xs : List (Binary 24), (∀ x ∈ lastN 100 xs, x = 0) ∧ ∃ st ys st' y, run call2 (SMA2.init 100) xs = .ok (st, ys) ∧ call2 st 0 = .ok (st', y) ∧ y.val = -16777216 := by
  obtain ⟨xs, -, -, h, st, ys, st', y, h1, h2, h3⟩ := C71_sma2_drift (p := 24) (by norm_num) 100 (by norm_num) 16777216 (by norm_num)
  exact ⟨xs, h, st, ys, st', y, h1, h2, by rw [h3]; norm_num⟩

example : ∃ xs : List (Binary 24), (∀ x ∈ lastN 100 xs, x = 0) ∧ ∃ st ys st' y, run call3 (SMA3.init 100) xs = .ok (st, ys) ∧ call3 st 0 = .ok (st', y) ∧ y.val = -8388608 := by
  obtain ⟨xs, -, -, h, st, ys, st', y, h1, h2, h3⟩ := C71_sma3_drift (p := 24) (by norm_num) 100 (by norm_num) 8388608 (by norm_num)
  exact ⟨xs, h, st, ys, st', y, h1, h2, by rw [h3]; norm_num⟩

/-- The hypotheses of `C71_sma3` are met by double precision and a billion inputs, and so are those of `C71_sma2`. -/
example : (1 / 2 ^ 53 : ℝ) ≤ 1 / 64 ∧ 704 * ((10 ^ 9 : ℕ) : ℝ) * (1 / 2 ^ 53) ^ 2 ≤ 1 ∧ RoundedDivN (fun a : Binary 53 => (a.val : ℝ)) (1 / 2 ^ 53) 100 (divNum 53 100) :=
  ⟨by norm_num, by norm_num, divNum_rounded 100 (by norm_num)⟩

end SMADrift
end DSP
