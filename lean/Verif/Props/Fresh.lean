import Verif.Props.HalfComplexSpecial
import Verif.Props.FDZPError

/-!
# C118: the transforms and the zero padding depend on nothing but their input
-/

namespace DSP

open FFT Spec

namespace FFT

set_option linter.unusedSectionVars false

section

variable {V A : Type} [Parts V A] [Zero V] [Add V] [Sub V] [Mul V] [IntCast V] [Zero A] [Add A] [Sub A] [Mul A] [SMul V A]

/-! ### One butterfly -/

theorem oddDft_congr (T : Trig V) (h : ℕ) (h0 : 0 < h) (ctab : List (List Nat)) (stab : List (List Int)) (x y : ℕ → A) (e : ∀ j < 2 * h + 1, x j = y j) :
    oddDft T (2 * h + 1) ctab stab x = oddDft T (2 * h + 1) ctab stab y := by
  unfold oddDft
  have d : (2 * h + 1 - 1) / 2 = h := by omega
  simp only [d]
  have e0 := e 0 (by omega)
  have e1 := e 1 (by omega)
  have e2 := e (2 * h + 1 - 1) (by omega)
  rw [e0, e1, e2]
  refine List.map_congr_left fun k hk => ?_
  have cc : ∀ k : ℕ, (List.range (h - 1)).foldl (fun sum j => sum + cx T ((ctab.getD (k - 1) []).getD (j + 2 - 1) 0) (2 * h + 1) (x (j + 2) + x (2 * h + 1 - (j + 2))))
        (cx T ((ctab.getD (k - 1) []).getD (1 - 1) 0) (2 * h + 1) (y 1 + y (2 * h + 1 - 1))) =
      (List.range (h - 1)).foldl (fun sum j => sum + cx T ((ctab.getD (k - 1) []).getD (j + 2 - 1) 0) (2 * h + 1) (y (j + 2) + y (2 * h + 1 - (j + 2))))
        (cx T ((ctab.getD (k - 1) []).getD (1 - 1) 0) (2 * h + 1) (y 1 + y (2 * h + 1 - 1))) := by
    intro k
    refine List.foldl_ext _ _ _ fun s j hj => ?_
    have := List.mem_range.mp hj
    rw [e (j + 2) (by omega), e (2 * h + 1 - (j + 2)) (by omega)]
  have ss : ∀ k : ℕ, (List.range (h - 1)).foldl (fun sum j =>
        if (stab.getD (k - 1) []).getD (j + 2 - 1) 0 < 0 then sum - sx T ((stab.getD (k - 1) []).getD (j + 2 - 1) 0).natAbs (2 * h + 1) (twiddle (x (j + 2)) (x (2 * h + 1 - (j + 2))))
        else sum + sx T ((stab.getD (k - 1) []).getD (j + 2 - 1) 0).natAbs (2 * h + 1) (twiddle (x (j + 2)) (x (2 * h + 1 - (j + 2)))))
        (sx T ((stab.getD (k - 1) []).getD (1 - 1) 0).natAbs (2 * h + 1) (twiddle (y 1) (y (2 * h + 1 - 1)))) =
      (List.range (h - 1)).foldl (fun sum j =>
        if (stab.getD (k - 1) []).getD (j + 2 - 1) 0 < 0 then sum - sx T ((stab.getD (k - 1) []).getD (j + 2 - 1) 0).natAbs (2 * h + 1) (twiddle (y (j + 2)) (y (2 * h + 1 - (j + 2))))
        else sum + sx T ((stab.getD (k - 1) []).getD (j + 2 - 1) 0).natAbs (2 * h + 1) (twiddle (y (j + 2)) (y (2 * h + 1 - (j + 2)))))
        (sx T ((stab.getD (k - 1) []).getD (1 - 1) 0).natAbs (2 * h + 1) (twiddle (y 1) (y (2 * h + 1 - 1)))) := by
    intro k
    refine List.foldl_ext _ _ _ fun s j hj => ?_
    have := List.mem_range.mp hj
    rw [e (j + 2) (by omega), e (2 * h + 1 - (j + 2)) (by omega)]
  rw [cc, cc, ss, ss]
  have aa : (List.range h).foldl (fun sum j => sum + (x (j + 1) + x (2 * h + 1 - (j + 1)))) (y 0) = (List.range h).foldl (fun sum j => sum + (y (j + 1) + y (2 * h + 1 - (j + 1)))) (y 0) := by
    refine List.foldl_ext _ _ _ fun s j hj => ?_
    have := List.mem_range.mp hj
    rw [e (j + 1) (by omega), e (2 * h + 1 - (j + 1)) (by omega)]
  rw [aa]

theorem butterfly_congr (T : Trig V) (s : ℤ) (R : ℕ) (hR : R ∈ radices) (x y : ℕ → A) (e : ∀ j < R, x j = y j) : FFT.dft T s R x = FFT.dft T s R y := by
  have key : dftPos T R x = dftPos T R y := by
    have odd : ∀ h, 0 < h → R = 2 * h + 1 → ∀ ctab stab, oddDft T R ctab stab x = oddDft T R ctab stab y := by
      intro h h0 e' ctab stab
      subst e'
      exact oddDft_congr T h h0 ctab stab x y e
    simp only [radices, List.mem_cons, List.not_mem_nil, or_false] at hR
    unfold dftPos
    rcases hR with h | h | h | h | h | h | h | h | h | h | h | h | h <;> subst h <;> norm_num only
    · simp only [if_true]; unfold dft2; rw [e 0 (by norm_num), e 1 (by norm_num)]
    · exact odd 1 (by norm_num) (by norm_num) _ _
    · simp only [if_true, if_false]; unfold dft4; rw [e 0 (by norm_num), e 1 (by norm_num), e 2 (by norm_num), e 3 (by norm_num)]
    · exact odd 2 (by norm_num) (by norm_num) _ _
    · exact odd 3 (by norm_num) (by norm_num) _ _
    · simp only [if_true, if_false]; unfold dft8
      rw [e 0 (by norm_num), e 1 (by norm_num), e 2 (by norm_num), e 3 (by norm_num), e 4 (by norm_num), e 5 (by norm_num), e 6 (by norm_num), e 7 (by norm_num)]
    · exact odd 5 (by norm_num) (by norm_num) _ _
    · exact odd 6 (by norm_num) (by norm_num) _ _
    · exact odd 8 (by norm_num) (by norm_num) _ _
    · exact odd 9 (by norm_num) (by norm_num) _ _
    · exact odd 11 (by norm_num) (by norm_num) _ _
    · exact odd 14 (by norm_num) (by norm_num) _ _
    · exact odd 15 (by norm_num) (by norm_num) _ _
  unfold FFT.dft
  rw [key]

/-! ### The transform -/

/-- A bin, as a function of the numbers transformed. -/
def bin (T : Trig V) (s : ℤ) (N : ℕ) (z : List A) : ℕ → ℕ → (ℕ → A) → ℕ → A
  | 0, _, _, _ => 0
  | fuel + 1, B, x, k =>
    let R := split B
    if R = 1 then x 0 else
    if R = B then (FFT.dft T s B x).getD k 0 else
    let Q := B / R
    let k0 := k % Q
    (FFT.dft T s R fun a => if a = 0 then bin T s N z fuel Q (fun m => x (0 + m * R)) k0 else z.getD (k0 * (a * (N / B))) 0 * bin T s N z fuel Q (fun m => x (a + m * R)) k0).getD (k / Q) 0

theorem dit_bin (T : Trig V) (s : ℤ) (N : ℕ) (hN : 0 < N) (hp : ∀ p, p.Prime → p ∣ N → p ≤ 31) (out inp z : List A) (ho : N ≤ out.length) (hz : N ≤ z.length) (x : ℕ → A)
    (hx : ∀ n < N, inp[n]? = some (x n)) :
    ∃ out', dit T s N N 1 out 0 inp 0 z = .ok out' ∧ out'.length = out.length ∧ (∀ k < N, ∃ r, out'[0 + k]? = some r ∧ r = bin T s N z N N x k) ∧
      (∀ j, (j < 0 ∨ 0 + N ≤ j) → out'[j]? = out[j]?) := by
  exact dit_ind T s N inp z hz (fun fuel B x k r => r = bin T s N z fuel B x k)
    (by
      intro fuel x
      unfold bin
      simp [show split 1 = 1 by decide])
    (by
      intro fuel R x y hR hsp h1 _ hy k hk r hr
      unfold bin
      simp only [hsp]
      rw [if_neg h1, if_pos trivial, ← butterfly_congr T s R hR y x hy, List.getD_eq_getElem?_getD, hr]
      rfl)
    (by
      intro fuel R Q S x k0 v w y hR hsp h1 h2 hQ hS hN' hk0 hv hw hy a ha r hr
      have hRpos : 0 < R := by omega
      unfold bin
      simp only [hsp]
      rw [if_neg h1, if_neg h2]
      have e1 : R * Q / R = Q := Nat.mul_div_cancel_left _ hRpos
      have e2 : N / (R * Q) = S := by
        rw [← hN']
        exact Nat.mul_div_cancel_left _ (Nat.mul_pos hRpos hQ)
      have e3 : (k0 + a * Q) % Q = k0 := by rw [Nat.add_mul_mod_self_right, Nat.mod_eq_of_lt hk0]
      have e4 : (k0 + a * Q) / Q = a := by rw [Nat.add_mul_div_right _ _ hQ, Nat.div_eq_of_lt hk0, Nat.zero_add]
      rw [e1, e2, e3, e4]
      rw [← butterfly_congr T s R hR y _ (fun j hj => ?_), List.getD_eq_getElem?_getD, hr]
      · rfl
      · rw [hy j hj]
        split_ifs with h
        · exact hv 0 (by omega)
        · rw [List.getD_eq_getElem?_getD, hw j hj, ← hv j hj]
          rfl)
    N N 1 out 0 0 x (le_refl _) ⟨hN, hp⟩ (by norm_num) (by ring) (by omega) (fun n hn => by
      rw [Nat.zero_add, Nat.mul_one]
      exact hx n hn)

end

/-- **C118** In any arithmetic, the transform depends on nothing but its `N` inputs: whatever is in the memory it writes to, and whatever follows the inputs, the `N` bins are the same, and what follows them is left
alone. -/
theorem C118_transform {V : Type} [Zero V] [Add V] [Sub V] [Mul V] [IntCast V] (T : Trig V) (s : ℤ) (N : ℕ) (hN : 0 < N) (hp : ∀ p, p.Prime → p ∣ N → p ≤ 31) (x : ℕ → Cplx V) :
    ∃ X : List (Cplx V), X.length = N ∧ ∀ out inp : List (Cplx V), N ≤ out.length → (∀ n < N, inp[n]? = some (x n)) → call T s N out inp = .ok (X ++ out.drop N) := by
  refine ⟨(List.range N).map (bin T s N (factors T s N) N N x), by simp, fun out inp ho hi => ?_⟩
  obtain ⟨X, e, l, h⟩ := call_of_bins T s N out inp ho (fun k r => r = bin T s N (factors T s N) N N x k) (dit_bin T s N hN hp out inp (factors T s N) ho (by simp [factors]) x hi)
  rw [e]
  congr 2
  apply List.ext_getElem (by simp [l])
  intro k h1 h2
  have := h k (by omega)
  rw [List.getD_eq_getElem?_getD, List.getElem?_eq_getElem h1] at this
  rw [List.getElem_map, List.getElem_range]
  exact this

/-- **C118** So does the transform of `2 N` real numbers. -/
theorem C118_real {V : Type} [Zero V] [Add V] [Sub V] [Mul V] [Neg V] [Div V] [IntCast V] (T : Trig V) (one half : V) (N : ℕ) (hN : 0 < N) (hp : ∀ p, p.Prime → p ∣ N → p ≤ 31) (x : ℕ → V) :
    ∃ X : List (Cplx V), X.length = N + 1 ∧ ∀ (out : List (Cplx V)) (inp : List V), N + 1 ≤ out.length → (∀ n < 2 * N, inp[n]? = some (x n)) →
      Rounded.halfComplex T one half (2 * N) out inp = .ok (X ++ out.drop (N + 1)) := by
  let Z : ℕ → Cplx V := bin T (-1) N (Rounded.factors T N) N N fun n => ⟨x (2 * n), x (2 * n + 1)⟩
  refine ⟨(List.range (N + 1)).map fun k => if k = 0 then ⟨half * ((Z 0).re + (Z 0).im), 0⟩ else if k = N then ⟨half * ((Z 0).re - (Z 0).im), 0⟩ else
    Z k * Rounded.halfA T one half (2 * N) k + (Z (N - k)).conj * Rounded.halfB T one half (2 * N) k, by simp, fun out inp ho hi => ?_⟩
  have get : ∀ n < 2 * N, inp.getD n 0 = x n := fun n hn => by rw [List.getD_eq_getElem?_getD, hi n hn]; rfl
  have len : 2 * N ≤ inp.length := by
    by_contra hc
    have := hi (2 * N - 1) (by omega)
    rw [List.getElem?_eq_none (by omega)] at this
    cases this
  obtain ⟨out', Z', hZ, e, l, h1, h0, hN', hr⟩ := half_of_bins T one half N hN out inp ho (fun k r => r = Z k)
    (dit_bin T (-1) N hN hp out (pairs inp) (Rounded.factors T N) (by omega) (by simp [Rounded.factors]) _ (fun n hn => by
      rw [pairs_get inp n (by omega), get (2 * n) (by omega), get (2 * n + 1) (by omega)]))
  rw [e]
  congr 1
  apply List.ext_getElem?
  intro k
  rcases Nat.lt_or_ge N k with hk | hk
  · rw [hr k hk, List.getElem?_append_right (by simp; omega), List.getElem?_drop]
    congr 1
    simp
    omega
  · rw [List.getElem?_append_left (by simp; omega), List.getElem?_map, List.getElem?_range (by omega), Option.map_some]
    by_cases c0 : k = 0
    · rw [if_pos c0, c0, h0, hZ 0 hN]
    · rw [if_neg c0]
      by_cases cN : k = N
      · rw [if_pos cN, cN, hN', hZ 0 hN]
      · rw [if_neg cN, h1 k (by omega) (by omega), hZ k (by omega), hZ (N - k) (by omega)]

/-- What is left in the memory by something else has no influence, e.g. that of an earlier call with NaN among its values. -/
example (T : Trig (Ieee .single)) (one half : Ieee .single) (inp : List (Ieee .single)) (hi : inp.length = 12) :
    ∃ X, Rounded.halfComplex T one half 12 (List.replicate 7 0) inp = .ok X ∧ Rounded.halfComplex T one half 12 (List.replicate 7 ⟨.nan, .nan⟩) inp = .ok X := by
  obtain ⟨X, -, h⟩ := C118_real T one half 6 (by norm_num) (by
    intro p hp hd
    have := Nat.le_of_dvd (by norm_num) hd
    omega) (fun n => inp.getD n 0)
  have g : ∀ n < 2 * 6, inp[n]? = some (inp.getD n 0) := fun n hn => by
    rw [List.getD_eq_getElem?_getD, List.getElem?_eq_getElem (by omega)]
    rfl
  refine ⟨X, ?_, ?_⟩
  · rw [h _ inp (by simp) g]; simp
  · rw [h _ inp (by simp) g]; simp

end FFT

namespace FDZP.Rounded

variable {V : Type} [Zero V] [Add V] [Sub V] [Mul V] [Neg V] [Div V] [IntCast V]

/-- What is done between the two transforms. fdzp.hh:26-33 -/
def shuffle (half : V) (OUTPUT INPUT : Nat) (tmp : List (Cplx V)) : M (List (Cplx V)) := do
  let tmp ← M.ite (INPUT % 2 == 0) (do
      let t ← rd tmp ((INPUT / 2 : Nat) : Int)
      let tmp ← wr tmp ((INPUT / 2 : Nat) : Int) (t.smulAssign half)
      let t ← rd tmp ((INPUT / 2 : Nat) : Int)
      wr tmp ((OUTPUT - INPUT / 2 : Nat) : Int) t)
    (return tmp)
  let first := (INPUT + 1) / 2 + 1
  let tmp ← (List.range (INPUT - first)).foldlM (fun tmp (a : Nat) => do
    let t ← rd tmp ((first + a : Nat) : Int)
    wr tmp ((OUTPUT - INPUT + (first + a) : Nat) : Int) t) tmp
  (List.range (INPUT - first)).foldlM (fun tmp (a : Nat) => wr tmp ((first + a : Nat) : Int) 0) tmp

theorem call_eq (T : Trig V) (one half : V) (OUTPUT INPUT : Nat) (tmp output input : List (Cplx V)) :
    call T one half OUTPUT INPUT tmp output input = (do
      let tmp ← FFT.call T (-1) INPUT tmp input
      let tmp ← shuffle half OUTPUT INPUT tmp
      let output ← FFT.call T 1 OUTPUT output tmp
      let output ← (List.range OUTPUT).foldlM (fun output (i : Nat) => do
        let v ← rd output (i : Int)
        wr output (i : Int) (v.smulAssign (scale one INPUT))) output
      return (tmp, output)) := by
  unfold call shuffle
  simp only [bind_assoc]

/-- Positions that hold the same for all states an object can be in after the first transform: those below `INPUT` and those that are never written afterwards. -/
def Fixed (OUTPUT INPUT : ℕ) (j : ℕ) : Prop := j < INPUT ∨ (j < OUTPUT - INPUT + ((INPUT + 1) / 2 + 1) ∧ (INPUT % 2 = 0 → j ≠ OUTPUT - INPUT / 2))

theorem pair_fold {α : Type} (f : α → ℕ → M α) (I : ℕ → α → α → Prop) (n : ℕ) (t t' : α) (h0 : I 0 t t')
    (hs : ∀ a < n, ∀ s s', I a s s' → ∃ r r', f s a = .ok r ∧ f s' a = .ok r' ∧ I (a + 1) r r') :
    ∃ r r', (List.range n).foldlM f t = .ok r ∧ (List.range n).foldlM f t' = .ok r' ∧ I n r r' := by
  induction n with
  | zero => exact ⟨t, t', rfl, rfl, h0⟩
  | succ n ih =>
    obtain ⟨r, r', e, e', h⟩ := ih fun a ha => hs a (by omega)
    obtain ⟨q, q', d, d', h'⟩ := hs n (by omega) r r' h
    refine ⟨q, q', ?_, ?_, h'⟩
    · rw [List.range_succ, List.foldlM_append, e]
      simp [bind, Except.bind, d, pure, Except.pure]
    · rw [List.range_succ, List.foldlM_append, e']
      simp [bind, Except.bind, d', pure, Except.pure]

theorem shuffle_same (half : V) (OUTPUT INPUT : ℕ) (h0 : 0 < INPUT) (hlt : INPUT < OUTPUT) (t t' : List (Cplx V)) (hl : t.length = OUTPUT) (hl' : t'.length = OUTPUT)
    (hag : ∀ j, Fixed OUTPUT INPUT j → t[j]? = t'[j]?) :
    ∃ r, shuffle half OUTPUT INPUT t = .ok r ∧ shuffle half OUTPUT INPUT t' = .ok r ∧ r.length = OUTPUT ∧ r[0]? = t[0]? ∧ ∀ j, INPUT ≤ j → Fixed OUTPUT INPUT j → r[j]? = t[j]? := by
  -- the bin in the middle
  obtain ⟨t1, t1', e1, e1', l1, l1', a1, m1, z1, k1⟩ : ∃ t1 t1', (M.ite (INPUT % 2 == 0) (do
      let t' ← rd t ((INPUT / 2 : Nat) : Int)
      let tmp ← wr t ((INPUT / 2 : Nat) : Int) (t'.smulAssign half)
      let t ← rd tmp ((INPUT / 2 : Nat) : Int)
      wr tmp ((OUTPUT - INPUT / 2 : Nat) : Int) t) (return t) : M (List (Cplx V))) = .ok t1 ∧ (M.ite (INPUT % 2 == 0) (do
      let t ← rd t' ((INPUT / 2 : Nat) : Int)
      let tmp ← wr t' ((INPUT / 2 : Nat) : Int) (t.smulAssign half)
      let t ← rd tmp ((INPUT / 2 : Nat) : Int)
      wr tmp ((OUTPUT - INPUT / 2 : Nat) : Int) t) (return t') : M (List (Cplx V))) = .ok t1' ∧ t1.length = OUTPUT ∧ t1'.length = OUTPUT ∧ (∀ j, Fixed OUTPUT INPUT j → t1[j]? = t1'[j]?) ∧
      (INPUT % 2 = 0 → t1[OUTPUT - INPUT / 2]? = t1'[OUTPUT - INPUT / 2]?) ∧ t1[0]? = t[0]? ∧ ∀ j, INPUT ≤ j → Fixed OUTPUT INPUT j → t1[j]? = t[j]? := by
    by_cases hev : INPUT % 2 = 0
    · have hb : (INPUT % 2 == 0) = true := by rw [hev]; rfl
      have hmid : INPUT / 2 < OUTPUT := by omega
      have ev : t[INPUT / 2]? = t'[INPUT / 2]? := hag _ (Or.inl (by omega))
      obtain ⟨v, hv⟩ : ∃ v, t[INPUT / 2]? = some v := ⟨_, List.getElem?_eq_getElem (by omega)⟩
      have hv' : t'[INPUT / 2]? = some v := by rw [← ev, hv]
      have go : ∀ s : List (Cplx V), s.length = OUTPUT → s[INPUT / 2]? = some v → (M.ite (INPUT % 2 == 0) (do
          let t ← rd s ((INPUT / 2 : Nat) : Int)
          let tmp ← wr s ((INPUT / 2 : Nat) : Int) (t.smulAssign half)
          let t ← rd tmp ((INPUT / 2 : Nat) : Int)
          wr tmp ((OUTPUT - INPUT / 2 : Nat) : Int) t) (return s) : M (List (Cplx V))) = .ok ((s.set (INPUT / 2) (v.smulAssign half)).set (OUTPUT - INPUT / 2) (v.smulAssign half)) := by
        intro s hs hv
        rw [hb]
        simp only [M.ite, bind, Except.bind, if_true]
        rw [rd_some hv]
        simp only
        rw [wr_nat (by omega)]
        simp only
        rw [rd_some (i := INPUT / 2) (v := v.smulAssign half) (by rw [List.getElem?_set, if_pos rfl, if_pos (by omega)])]
        simp only
        rw [wr_nat (by simp; omega)]
      refine ⟨_, _, go t hl hv, go t' hl' hv', by simp [hl], by simp [hl'], ?_, ?_, ?_, ?_⟩
      · intro j hj
        rw [List.getElem?_set, List.getElem?_set, List.getElem?_set, List.getElem?_set, hag j hj]
        simp [hl, hl']
      · intro _
        rw [List.getElem?_set, if_pos rfl, List.getElem?_set, if_pos rfl]
        simp [hl, hl']
      · rw [List.getElem?_set, if_neg (by omega), List.getElem?_set, if_neg (by omega)]
      · intro j hj hF
        have : OUTPUT - INPUT / 2 ≠ j := by
          rcases hF with h | h
          · omega
          · exact fun h' => h.2 hev h'.symm
        rw [List.getElem?_set, if_neg this, List.getElem?_set, if_neg (by omega)]
    · have hb : (INPUT % 2 == 0) = false := by rw [beq_eq_false_iff_ne]; exact hev
      rw [hb]
      refine ⟨t, t', rfl, rfl, hl, hl', hag, fun h => absurd h hev, rfl, fun _ _ _ => rfl⟩
  -- copying
  obtain ⟨t2, t2', e2, e2', l2, l2', a2, z2, k2⟩ := pair_fold (fun (tmp : List (Cplx V)) (a : Nat) => do
      let t ← rd tmp (((INPUT + 1) / 2 + 1 + a : Nat) : Int)
      wr tmp ((OUTPUT - INPUT + ((INPUT + 1) / 2 + 1 + a) : Nat) : Int) t)
    (fun a s s' => s.length = OUTPUT ∧ s'.length = OUTPUT ∧
      (∀ j, Fixed OUTPUT INPUT j ∨ (INPUT % 2 = 0 ∧ j = OUTPUT - INPUT / 2) ∨ (OUTPUT - INPUT + ((INPUT + 1) / 2 + 1) ≤ j ∧ j < OUTPUT - INPUT + ((INPUT + 1) / 2 + 1 + a)) → s[j]? = s'[j]?) ∧
      s[0]? = t[0]? ∧ ∀ j, INPUT ≤ j → Fixed OUTPUT INPUT j → s[j]? = t[j]?) (INPUT - ((INPUT + 1) / 2 + 1)) t1 t1'
    ⟨l1, l1', by
      rintro j (h | ⟨h, rfl⟩ | h)
      · exact a1 j h
      · exact m1 h
      · omega, z1, k1⟩ (by
      rintro a ha s s' ⟨g1, g2, g3, g4, g5⟩
      have ev := g3 ((INPUT + 1) / 2 + 1 + a) (Or.inl (Or.inl (by omega)))
      obtain ⟨v, hv⟩ : ∃ v, s[(INPUT + 1) / 2 + 1 + a]? = some v := ⟨_, List.getElem?_eq_getElem (by omega)⟩
      have hv' : s'[(INPUT + 1) / 2 + 1 + a]? = some v := by rw [← ev, hv]
      refine ⟨s.set (OUTPUT - INPUT + ((INPUT + 1) / 2 + 1 + a)) v, s'.set (OUTPUT - INPUT + ((INPUT + 1) / 2 + 1 + a)) v, ?_, ?_, by simp [g1], by simp [g2], ?_, ?_, ?_⟩
      · simp only [bind, Except.bind]
        rw [rd_some hv]
        simp only
        rw [wr_nat (by omega)]
      · simp only [bind, Except.bind]
        rw [rd_some hv']
        simp only
        rw [wr_nat (by omega)]
      · intro j hj
        rw [List.getElem?_set, List.getElem?_set]
        by_cases c : OUTPUT - INPUT + ((INPUT + 1) / 2 + 1 + a) = j
        · rw [if_pos c, if_pos c, g1, g2]
        · rw [if_neg c, if_neg c]
          apply g3 j
          rcases hj with h | h | h
          · exact Or.inl h
          · exact Or.inr (Or.inl h)
          · exact Or.inr (Or.inr (by omega))
      · rw [List.getElem?_set, if_neg (by omega), g4]
      · intro j hj hF
        have : OUTPUT - INPUT + ((INPUT + 1) / 2 + 1 + a) ≠ j := by
          rcases hF with h | h
          · omega
          · omega
        rw [List.getElem?_set, if_neg this, g5 j hj hF])
  have same : t2' = t2 := by
    apply List.ext_getElem?
    intro j
    rcases Nat.lt_or_ge j OUTPUT with hj | hj
    · refine (a2 j ?_).symm
      unfold Fixed
      by_cases c1 : j < INPUT
      · exact Or.inl (Or.inl c1)
      · by_cases c2 : j < OUTPUT - INPUT + ((INPUT + 1) / 2 + 1)
        · by_cases c3 : INPUT % 2 = 0 ∧ j = OUTPUT - INPUT / 2
          · exact Or.inr (Or.inl c3)
          · exact Or.inl (Or.inr ⟨c2, fun h h' => c3 ⟨h, h'⟩⟩)
        · exact Or.inr (Or.inr (by omega))
    · rw [List.getElem?_eq_none (by omega), List.getElem?_eq_none (by omega)]
  subst same
  -- zeroing
  obtain ⟨t3, e3, l3, z3, k3⟩ := foldlM_inv (fun a (b : List (Cplx V)) => b.length = OUTPUT ∧ b[0]? = t[0]? ∧ ∀ j, INPUT ≤ j → Fixed OUTPUT INPUT j → b[j]? = t[j]?)
    (fun tmp (a : Nat) => wr tmp (((INPUT + 1) / 2 + 1 + a : Nat) : Int) 0) (INPUT - ((INPUT + 1) / 2 + 1)) t2' ⟨l2, z2, k2⟩ (by
      rintro a ha b ⟨g1, g2, g3⟩
      refine ⟨_, wr_nat (by omega), by simp [g1], ?_, ?_⟩
      · rw [List.getElem?_set, if_neg (by omega), g2]
      · intro j hj hF
        rw [List.getElem?_set, if_neg (by omega), g3 j hj hF])
  refine ⟨t3, ?_, ?_, l3, z3, k3⟩
  · unfold shuffle
    rw [e1]
    simp only [bind, Except.bind] at e2 ⊢
    rw [e2]
    simp only
    exact e3
  · unfold shuffle
    rw [e1']
    simp only [bind, Except.bind] at e2' ⊢
    rw [e2']
    simp only
    exact e3

/-- The states an object can be in between calls. -/
def Clean (OUTPUT INPUT : ℕ) (tmp : List (Cplx V)) : Prop := tmp.length = OUTPUT ∧ ∀ j, INPUT ≤ j → j < OUTPUT → Fixed OUTPUT INPUT j → tmp[j]? = some 0

theorem clean_init (OUTPUT INPUT : ℕ) : Clean OUTPUT INPUT (init (V := V) OUTPUT) := by
  refine ⟨by simp [init], fun j _ h _ => ?_⟩
  unfold init
  rw [List.getElem?_replicate, if_pos h]

/-- One call, from any state. -/
theorem call_same (T : Trig V) (one half : V) (OUTPUT INPUT : ℕ) (h0 : 0 < INPUT) (hlt : INPUT < OUTPUT) (hpi : ∀ p, p.Prime → p ∣ INPUT → p ≤ 31) (hpo : ∀ p, p.Prime → p ∣ OUTPUT → p ≤ 31)
    (x : ℕ → Cplx V) : ∃ X r Y : List (Cplx V), X.length = INPUT ∧ (∀ out inp : List (Cplx V), INPUT ≤ out.length → (∀ n < INPUT, inp[n]? = some (x n)) → FFT.call T (-1) INPUT out inp = .ok (X ++ out.drop INPUT)) ∧
      Clean OUTPUT INPUT r ∧ r[0]? = X[0]? ∧ Y.length = OUTPUT ∧ (∀ out : List (Cplx V), OUTPUT ≤ out.length → FFT.call T 1 OUTPUT out r = .ok (Y ++ out.drop OUTPUT)) ∧
      ∀ tmp output input, Clean OUTPUT INPUT tmp → output.length = OUTPUT → (∀ n < INPUT, input[n]? = some (x n)) →
        call T one half OUTPUT INPUT tmp output input = .ok (r, Y.map fun v => v.smulAssign (scale one INPUT)) := by
  obtain ⟨X, lX, hX⟩ := C118_transform T (-1) INPUT h0 hpi x
  have pos : ∀ tmp : List (Cplx V), ∀ j, (X ++ tmp.drop INPUT)[j]? = if j < INPUT then X[j]? else tmp[j]? := by
    intro tmp j
    split_ifs with h
    · rw [List.getElem?_append_left (by omega)]
    · rw [List.getElem?_append_right (by omega), List.getElem?_drop]
      congr 1
      omega
  have len : ∀ tmp : List (Cplx V), tmp.length = OUTPUT → (X ++ tmp.drop INPUT).length = OUTPUT := by
    intro tmp h
    simp [lX, h]
    omega
  have ci := clean_init (V := V) OUTPUT INPUT
  have base : ∀ tmp, Clean OUTPUT INPUT tmp → ∃ r, shuffle half OUTPUT INPUT (X ++ (init (V := V) OUTPUT).drop INPUT) = .ok r ∧ shuffle half OUTPUT INPUT (X ++ tmp.drop INPUT) = .ok r ∧ r.length = OUTPUT ∧
      r[0]? = (X ++ (init (V := V) OUTPUT).drop INPUT)[0]? ∧ ∀ j, INPUT ≤ j → Fixed OUTPUT INPUT j → r[j]? = (X ++ (init (V := V) OUTPUT).drop INPUT)[j]? := by
    intro tmp ht
    refine shuffle_same half OUTPUT INPUT h0 hlt _ _ (len _ ci.1) (len _ ht.1) fun j hj => ?_
    rw [pos, pos]
    split_ifs with h
    · rfl
    · rcases Nat.lt_or_ge j OUTPUT with h' | h'
      · rw [ci.2 j (by omega) h' hj, ht.2 j (by omega) h' hj]
      · rw [List.getElem?_eq_none (by rw [ci.1]; exact h'), List.getElem?_eq_none (by rw [ht.1]; exact h')]
  obtain ⟨r, er, -, lr, zr, kr⟩ := base _ ci
  have cr : Clean OUTPUT INPUT r := by
    refine ⟨lr, fun j h1 h2 h3 => ?_⟩
    rw [kr j h1 h3, pos, if_neg (by omega), ci.2 j h1 h2 h3]
  obtain ⟨Y, lY, hY⟩ := C118_transform T 1 OUTPUT (by omega) hpo (fun n => r.getD n 0)
  have hY' : ∀ out : List (Cplx V), OUTPUT ≤ out.length → FFT.call T 1 OUTPUT out r = .ok (Y ++ out.drop OUTPUT) := fun out ho => hY out r ho fun n hn => by
    rw [List.getD_eq_getElem?_getD, List.getElem?_eq_getElem (by omega)]
    rfl
  refine ⟨X, r, Y, lX, hX, cr, ?_, lY, hY', fun tmp output input ht ho hi => ?_⟩
  · rw [zr, pos, if_pos h0]
  · obtain ⟨r', er', es, -⟩ := base tmp ht
    rw [er] at er'
    obtain rfl : r = r' := Except.ok.inj er'
    rw [call_eq, hX tmp input (by rw [ht.1]; omega) hi]
    simp only [bind, Except.bind]
    rw [es]
    simp only
    rw [hY' output ho.ge, List.drop_eq_nil_of_le (by omega), List.append_nil]
    simp only
    have hs := foldlM_map (fun v => Cplx.smulAssign v (scale one INPUT)) Y
    rw [lY] at hs
    simp only [bind, Except.bind] at hs
    rw [hs]
    rfl

/-- The result of any number of calls with memory of their own. -/
theorem run_same (T : Trig V) (one half : V) (OUTPUT INPUT : ℕ) (h0 : 0 < INPUT) (hlt : INPUT < OUTPUT) (hpi : ∀ p, p.Prime → p ∣ INPUT → p ≤ 31) (hpo : ∀ p, p.Prime → p ∣ OUTPUT → p ≤ 31)
    (calls : List (List (Cplx V) × List (Cplx V))) (hc : ∀ c ∈ calls, c.1.length = OUTPUT ∧ c.2.length = INPUT) (tmp : List (Cplx V)) (ht : Clean OUTPUT INPUT tmp) :
    ∃ s ys, run (fun tmp (c : List (Cplx V) × List (Cplx V)) => call T one half OUTPUT INPUT tmp c.1 c.2) tmp calls = .ok (s, ys) ∧ ys.length = calls.length ∧ Clean OUTPUT INPUT s := by
  induction calls generalizing tmp with
  | nil => exact ⟨tmp, [], rfl, rfl, ht⟩
  | cons c cs ih =>
    obtain ⟨X, r, Y, -, -, cr, -, -, -, h⟩ := call_same T one half OUTPUT INPUT h0 hlt hpi hpo (fun n => c.2.getD n 0)
    have hc0 := hc c List.mem_cons_self
    obtain ⟨s, ys, e, l, hs⟩ := ih (fun d hd => hc d (List.mem_cons_of_mem _ hd)) r cr
    refine ⟨s, (Y.map fun v => v.smulAssign (scale one INPUT)) :: ys, ?_, by simp [l], hs⟩
    unfold run
    rw [h tmp c.1 c.2 ht hc0.1 (fun n hn => by
      rw [List.getD_eq_getElem?_getD, List.getElem?_eq_getElem (by omega)]
      rfl)]
    simp only
    rw [e]

omit [Zero V] [Add V] [Sub V] [Mul V] [Neg V] [Div V] [IntCast V] in
theorem run_snoc {σ ι ω : Type} (f : σ → ι → M (σ × ω)) (a b c : σ) (xs : List ι) (x : ι) (ys : List ω) (y : ω) (e : run f a xs = .ok (b, ys)) (e' : f b x = .ok (c, y)) :
    run f a (xs ++ [x]) = .ok (c, ys ++ [y]) := by
  induction xs generalizing a ys with
  | nil =>
    obtain ⟨rfl, rfl⟩ := Prod.mk.inj (Except.ok.inj e)
    simp [run, e']
  | cons z zs ih =>
    rw [run] at e
    rw [List.cons_append, run]
    cases h : f a z with
    | error _ => rw [h] at e; cases e
    | ok p =>
      rw [h] at e
      simp only at e ⊢
      cases h' : run f p.1 zs with
      | error _ => rw [h'] at e; cases e
      | ok q =>
        rw [h'] at e
        simp only at e
        obtain ⟨rfl, rfl⟩ := Prod.mk.inj (Except.ok.inj e)
        rw [ih p.1 q.2 h']
        rfl

/-- **C118** In any arithmetic and for any sizes, what zero padding gives depends on nothing but the input of the call: not on earlier calls, whatever they were, and not on what is in the memory it writes to. -/
theorem C118_padding (T : Trig V) (one half : V) (OUTPUT INPUT : ℕ) (h0 : 0 < INPUT) (hlt : INPUT < OUTPUT) (hpi : ∀ p, p.Prime → p ∣ INPUT → p ≤ 31) (hpo : ∀ p, p.Prime → p ∣ OUTPUT → p ≤ 31)
    (x : List (Cplx V)) (hx : x.length = INPUT) :
    ∃ y : List (Cplx V), y.length = OUTPUT ∧ ∀ (before : List (List (Cplx V) × List (Cplx V))) (output : List (Cplx V)), (∀ c ∈ before, c.1.length = OUTPUT ∧ c.2.length = INPUT) → output.length = OUTPUT →
      ∃ s ys, ys.length = before.length ∧
        run (fun tmp (c : List (Cplx V) × List (Cplx V)) => call T one half OUTPUT INPUT tmp c.1 c.2) (init OUTPUT) (before ++ [(output, x)]) = .ok (s, ys ++ [y]) := by
  obtain ⟨X, r, Y, -, -, cr, -, lY, -, h⟩ := call_same T one half OUTPUT INPUT h0 hlt hpi hpo (fun n => x.getD n 0)
  refine ⟨Y.map fun v => v.smulAssign (scale one INPUT), by simpa using lY, fun before output hb ho => ?_⟩
  obtain ⟨s, ys, e, l, hs⟩ := run_same T one half OUTPUT INPUT h0 hlt hpi hpo before hb _ (clean_init OUTPUT INPUT)
  refine ⟨r, ys, l, ?_⟩
  have hi : ∀ n < INPUT, x[n]? = some (x.getD n 0) := fun n hn => by
    rw [List.getD_eq_getElem?_getD, List.getElem?_eq_getElem (by omega)]
    rfl
  exact run_snoc _ _ _ _ _ _ _ _ e (h s output x hs ho hi)

/-- Zero padding to 64 numbers after a call that got a NaN. -/
example (T : Trig (Ieee .single)) (one half : Ieee .single) (x : List (Cplx (Ieee .single))) (hx : x.length = 16) :
    ∃ s s' y y', run (fun tmp (c : List (Cplx (Ieee .single)) × List (Cplx (Ieee .single))) => call T one half 64 16 tmp c.1 c.2) (init 64) [(List.replicate 64 0, List.replicate 16 ⟨.nan, 0⟩), (List.replicate 64 0, x)] = .ok (s, [y', y]) ∧
      run (fun tmp (c : List (Cplx (Ieee .single)) × List (Cplx (Ieee .single))) => call T one half 64 16 tmp c.1 c.2) (init 64) [(List.replicate 64 0, x)] = .ok (s', [y]) := by
  obtain ⟨y, -, h⟩ := C118_padding T one half 64 16 (by norm_num) (by norm_num) (smooth_two 4) (smooth_two 6) x hx
  obtain ⟨s, ys, l, e⟩ := h [(List.replicate 64 0, List.replicate 16 ⟨.nan, 0⟩)] (List.replicate 64 0) (by simp) (by simp)
  obtain ⟨s', ys', l', e'⟩ := h [] (List.replicate 64 0) (by simp) (by simp)
  obtain ⟨y', rfl⟩ := List.length_eq_one_iff.mp l
  obtain rfl := List.length_eq_zero_iff.mp l'
  exact ⟨s, s', y, y', e, e'⟩

section

variable {F : Format}

/-- **C117** One infinity or NaN in the input of a call of zero padding leaves no output of that call finite, for any sizes, and whatever came before. -/
theorem C117_padding (T : Trig (Ieee F)) (one half : Ieee F) (OUTPUT INPUT : ℕ) (h0 : 0 < INPUT) (hlt : INPUT < OUTPUT) (hpi : ∀ p, p.Prime → p ∣ INPUT → p ≤ 31) (hpo : ∀ p, p.Prime → p ∣ OUTPUT → p ≤ 31)
    (x : List (Cplx (Ieee F))) (hx : x.length = INPUT) (n : ℕ) (hn : n < INPUT) (hbad : ¬FiniteParts (x.getD n 0)) (before : List (List (Cplx (Ieee F)) × List (Cplx (Ieee F))))
    (output : List (Cplx (Ieee F))) (hb : ∀ c ∈ before, c.1.length = OUTPUT ∧ c.2.length = INPUT) (ho : output.length = OUTPUT) :
    ∃ s ys y, run (fun tmp (c : List (Cplx (Ieee F)) × List (Cplx (Ieee F))) => call T one half OUTPUT INPUT tmp c.1 c.2) (init OUTPUT) (before ++ [(output, x)]) = .ok (s, ys ++ [y]) ∧
      ys.length = before.length ∧ y.length = OUTPUT ∧ ∀ m < OUTPUT, ¬FiniteParts (y.getD m 0) := by
  obtain ⟨X, r, Y, lX, hX, cr, er, lY, hY, h⟩ := call_same T one half OUTPUT INPUT h0 hlt hpi hpo (fun n => x.getD n 0)
  obtain ⟨s, ys, e, l, hs⟩ := run_same T one half OUTPUT INPUT h0 hlt hpi hpo before hb _ (clean_init OUTPUT INPUT)
  have hi : ∀ n < INPUT, x[n]? = some (x.getD n 0) := fun n hn => by
    rw [List.getD_eq_getElem?_getD, List.getElem?_eq_getElem (by omega)]
    rfl
  refine ⟨r, ys, Y.map fun v => v.smulAssign (scale one INPUT), run_snoc _ _ _ _ _ _ _ _ e (h s output x hs ho hi), l, by simpa using lY, fun m hm hf => ?_⟩
  obtain ⟨X', e1, l1, h1⟩ := C114_spread T (-1) INPUT h0 hpi (List.replicate INPUT 0) x (by simp) hx.ge n hn hbad
  rw [hX (List.replicate INPUT 0) x (by simp) hi] at e1
  have eX : X = X' := by
    have := Except.ok.inj e1
    exact (List.append_inj this (by omega)).1
  subst eX
  have b0 : ¬FiniteParts (r.getD 0 0) := by
    rw [List.getD_eq_getElem?_getD, er, ← List.getD_eq_getElem?_getD]
    exact h1 0 h0
  obtain ⟨Y', e2, l2, h2⟩ := C114_spread T 1 OUTPUT (by omega) hpo (List.replicate OUTPUT 0) r (by simp) cr.1.ge 0 (by omega) b0
  rw [hY (List.replicate OUTPUT 0) (by simp)] at e2
  have eY : Y = Y' := by
    have := Except.ok.inj e2
    exact (List.append_inj this (by omega)).1
  subst eY
  refine h2 m hm ?_
  rw [List.getD_eq_getElem?_getD, List.getElem?_eq_getElem (by simp; omega), List.getElem_map, Option.getD_some] at hf
  rw [List.getD_eq_getElem?_getD, List.getElem?_eq_getElem (by omega), Option.getD_some]
  exact fin_smul hf

/-- An infinity in the second of two calls. -/
example (T : Trig (Ieee .double)) (one half : Ieee .double) :
    ∃ s y' y, run (fun tmp (c : List (Cplx (Ieee .double)) × List (Cplx (Ieee .double))) => call T one half 7 5 tmp c.1 c.2) (init 7)
      [(List.replicate 7 0, List.replicate 5 0), (List.replicate 7 0, [0, 0, ⟨0, .inf true⟩, 0, 0])] = .ok (s, [y', y]) ∧ ∀ m < 7, ¬FiniteParts (y.getD m 0) := by
  obtain ⟨s, ys, y, e, l, -, h⟩ := C117_padding T one half 7 5 (by norm_num) (by norm_num) (smooth_of_le 5 (by norm_num) (by norm_num)) (smooth_of_le 7 (by norm_num) (by norm_num))
    [0, 0, ⟨0, .inf true⟩, 0, 0] rfl 2 (by norm_num) (fun h => h.2) [(List.replicate 7 0, List.replicate 5 0)] (List.replicate 7 0) (by simp) (by simp)
  obtain ⟨y', rfl⟩ := List.length_eq_one_iff.mp l
  exact ⟨s, y', y, e, h⟩

end

end FDZP.Rounded
end DSP
