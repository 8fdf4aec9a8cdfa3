import Verif.Props.HalfComplexError
import Verif.Props.FDZP

/-!
# C82: FDZP in rounded arithmetic
-/

namespace DSP

open FFT Spec Complex

set_option linter.unusedSectionVars false

/-! ### What the code does to the spectrum -/

section lists

variable {V : Type} [Zero V] [Add V] [Sub V] [Mul V] [Neg V] [Div V] [IntCast V]

/-- What is left in `tmp` by the preceding calls: zeros in the gap. -/
def FDZP.Rounded.Inv (OUTPUT INPUT : ℕ) (tmp : List (Cplx V)) : Prop :=
  tmp.length = OUTPUT ∧ ∀ j, INPUT ≤ j → j < OUTPUT - INPUT / 2 → tmp[j]? = some 0

theorem foldlM_map {α : Type} (f : α → α) (l : List α) :
    (List.range l.length).foldlM (fun output (i : Nat) => do
      let v ← rd output (i : Int)
      wr output (i : Int) (f v)) l = (.ok (l.map f) : M (List α)) := by
  obtain ⟨b, e, h1, h2, h3⟩ := foldlM_inv (fun i (b : List α) => b.length = l.length ∧ (∀ k < i, b[k]? = (l.map f)[k]?) ∧
      (∀ k, i ≤ k → b[k]? = l[k]?))
    (fun output (i : Nat) => do
      let v ← rd output (i : Int)
      wr output (i : Int) (f v)) l.length l ⟨rfl, by simp, by simp⟩ (by
      rintro a ha b ⟨g1, g2, g3⟩
      have : b[a]? = some l[a] := by rw [g3 a (le_refl _), List.getElem?_eq_getElem ha]
      rw [rd_some this]
      simp only [bind, Except.bind]
      refine ⟨_, wr_nat (by omega), by simp [g1], ?_, ?_⟩
      · intro k hk
        rw [List.getElem?_set]
        by_cases e : a = k
        · subst e
          rw [if_pos rfl, if_pos (by omega), List.getElem?_map, List.getElem?_eq_getElem ha]; rfl
        · rw [if_neg e, g2 k (by omega)]
      · intro k hk
        rw [List.getElem?_set, if_neg (by omega), g3 k (by omega)])
  rw [e]
  congr 1
  apply List.ext_getElem?
  intro k
  by_cases hk : k < l.length
  · exact h2 k hk
  · rw [h3 k (by omega), List.getElem?_eq_none (by omega), List.getElem?_eq_none (by simp; omega)]

/-- The layout of the spectrum the second transform gets: `X` is what the first one gave. -/
def FDZP.layout {α : Type} (h g : ℕ) (X : ℕ → α) (zero mid : α) (j : ℕ) : α :=
  if j ≤ h then X j else if j = h + 1 ∨ j = h + 2 + g then mid else if j < h + 2 + g then zero else X (j - (g + 1))

set_option maxHeartbeats 1000000 in
theorem FDZP.Rounded.call_layout (T : Trig V) (one half : V) (h g : ℕ) (hg : h ≤ g) (tmp output input : List (Cplx V))
    (hinv : FDZP.Rounded.Inv (2 * (h + 1) + 1 + g) (2 * (h + 1)) tmp) (X : List (Cplx V)) (hX : X.length = 2 * (h + 1))
    (hf : FFT.call T (-1) (2 * (h + 1)) tmp input = .ok (X ++ tmp.drop (2 * (h + 1)))) (Y : List (Cplx V)) (hY : Y.length = 2 * (h + 1) + 1 + g)
    (hb : FFT.call T 1 (2 * (h + 1) + 1 + g) output ((List.range (2 * (h + 1) + 1 + g)).map (FDZP.layout h g (fun n => X.getD n 0) 0 (half • X.getD (h + 1) 0))) = .ok Y) :
    ∃ tmp', FDZP.Rounded.call T one half (2 * (h + 1) + 1 + g) (2 * (h + 1)) tmp output input = .ok (tmp', Y.map fun v => FDZP.Rounded.scale one (2 * (h + 1)) • v) ∧
      FDZP.Rounded.Inv (2 * (h + 1) + 1 + g) (2 * (h + 1)) tmp' := by
  obtain ⟨hl, hgap⟩ := hinv
  unfold FDZP.Rounded.call
  rw [hf]
  have d1 : 2 * (h + 1) / 2 = h + 1 := by omega
  have d2 : (2 * (h + 1) + 1) / 2 + 1 = h + 2 := by omega
  have d3 : 2 * (h + 1) - (h + 2) = h := by omega
  have d4 : 2 * (h + 1) + 1 + g - (h + 1) = h + 2 + g := by omega
  have d5 : 2 * (h + 1) + 1 + g - 2 * (h + 1) = 1 + g := by omega
  have d6 : (2 * (h + 1) % 2 == 0) = true := by
    rw [beq_iff_eq]; omega
  simp only [bind, Except.bind, d1, d2, d3, d4, d5, d6, M.ite, if_true]
  rw [d1, d4] at hgap
  have ht1 : ∀ j < 2 * (h + 1), (X ++ tmp.drop (2 * (h + 1)))[j]? = some (X.getD j 0) := by
    intro j hj
    rw [List.getElem?_append_left (by omega), List.getD_eq_getElem?_getD, List.getElem?_eq_getElem (by omega)]; rfl
  have ht1' : ∀ j, 2 * (h + 1) ≤ j → (X ++ tmp.drop (2 * (h + 1)))[j]? = tmp[j]? := by
    intro j hj
    rw [List.getElem?_append_right (by omega), List.getElem?_drop]
    congr 1
    omega
  have hl1 : (X ++ tmp.drop (2 * (h + 1))).length = 2 * (h + 1) + 1 + g := by
    simp [hl, hX]; omega
  clear hf
  generalize hXf : (fun n => X.getD n 0) = Xf at hb
  have hXn : ∀ n, X.getD n 0 = Xf n := fun n => by rw [← hXf]
  simp only [hXn] at ht1 hb
  generalize X ++ tmp.drop (2 * (h + 1)) = t1 at ht1 ht1' hl1 ⊢
  rw [rd_some (ht1 (h + 1) (by omega))]
  simp only
  rw [wr_nat (by omega)]
  simp only
  have hmid : Cplx.smulAssign (Xf (h + 1)) half = half • Xf (h + 1) := rfl
  rw [hmid]
  rw [rd_some (i := h + 1) (v := half • Xf (h + 1)) (by rw [List.getElem?_set, if_pos rfl, if_pos (by omega)])]
  simp only
  rw [wr_nat (by simp; omega)]
  simp only
  generalize half • Xf (h + 1) = mid at hb ⊢
  generalize ht2 : (t1.set (h + 1) mid).set (h + 2 + g) mid = t2
  have hl2 : t2.length = 2 * (h + 1) + 1 + g := by rw [← ht2]; simp [hl1]
  have h2 : ∀ j, t2[j]? = if j = h + 2 + g then some mid else
      if j = h + 1 then some mid else t1[j]? := by
    intro j
    rw [← ht2, List.getElem?_set]
    by_cases c1 : j = h + 2 + g
    · rw [if_pos c1.symm, if_pos c1, if_pos (by simp; omega)]
    · rw [if_neg (Ne.symm c1), if_neg c1, List.getElem?_set]
      by_cases c2 : j = h + 1
      · rw [if_pos c2.symm, if_pos c2, if_pos (by omega)]
      · rw [if_neg (Ne.symm c2), if_neg c2]
  -- copying
  obtain ⟨t3, e3, l3, p3, q3⟩ := foldlM_inv (fun a (b : List (Cplx V)) => b.length = 2 * (h + 1) + 1 + g ∧
      (∀ a' < a, b[1 + g + (h + 2 + a')]? = some (Xf (h + 2 + a'))) ∧ (∀ j, (j < 1 + g + (h + 2) ∨ 1 + g + (h + 2) + a ≤ j) → b[j]? = t2[j]?))
    (fun tmp (a : Nat) => do
      let t ← rd tmp ((h + 2 + a : Nat) : Int)
      wr tmp ((1 + g + (h + 2 + a) : Nat) : Int) t) h t2 ⟨hl2, by simp, by simp⟩ (by
      rintro a ha b ⟨g1, g2, g3⟩
      have : b[h + 2 + a]? = some (Xf (h + 2 + a)) := by
        rw [g3 (h + 2 + a) (by omega), h2, if_neg (by omega), if_neg (by omega), ht1 (h + 2 + a) (by omega)]
      rw [rd_some this]
      simp only [bind, Except.bind]
      refine ⟨_, wr_nat (by omega), by simp [g1], ?_, ?_⟩
      · intro a' ha'
        rw [List.getElem?_set]
        by_cases c : a = a'
        · rw [if_pos (by omega), if_pos (by omega), c]
        · rw [if_neg (by omega), g2 a' (by omega)]
      · intro j hj
        rw [List.getElem?_set, if_neg (by omega), g3 j (by omega)])
  simp only [bind, Except.bind] at e3
  rw [e3]
  simp only
  -- zeroing
  obtain ⟨t4, e4, l4, p4, q4⟩ := foldlM_inv (fun a (b : List (Cplx V)) => b.length = 2 * (h + 1) + 1 + g ∧
      (∀ a' < a, b[h + 2 + a']? = some 0) ∧ (∀ j, (j < h + 2 ∨ h + 2 + a ≤ j) → b[j]? = t3[j]?))
    (fun tmp (a : Nat) => wr tmp ((h + 2 + a : Nat) : Int) 0) h t3 ⟨l3, by simp, by simp⟩ (by
      rintro a ha b ⟨g1, g2, g3⟩
      refine ⟨_, wr_nat (by omega), by simp [g1], ?_, ?_⟩
      · intro a' ha'
        rw [List.getElem?_set]
        by_cases c : a = a'
        · rw [if_pos (by omega), if_pos (by omega)]
        · rw [if_neg (by omega), g2 a' (by omega)]
      · intro j hj
        rw [List.getElem?_set, if_neg (by omega), g3 j (by omega)])
  rw [e4]
  simp only
  have v3 : ∀ j, h + 2 ≤ j → j < h + 2 + g → t4[j]? = some 0 := by
    intro j h1 h3
    by_cases c : j < h + 2 + h
    · have := p4 (j - (h + 2)) (by omega)
      rwa [show h + 2 + (j - (h + 2)) = j by omega] at this
    · rw [q4 j (by omega), q3 j (by omega), h2, if_neg (by omega), if_neg (by omega), ht1' j (by omega), hgap j (by omega) h3]
  have et4 : t4 = (List.range (2 * (h + 1) + 1 + g)).map (FDZP.layout h g Xf 0 mid) := by
    apply List.ext_getElem?
    intro j
    by_cases hj : j < 2 * (h + 1) + 1 + g
    · rw [List.getElem?_map, List.getElem?_range hj]
      simp only [Option.map_some, FDZP.layout]
      by_cases c1 : j ≤ h
      · rw [if_pos c1, q4 j (by omega), q3 j (by omega), h2, if_neg (by omega), if_neg (by omega), ht1 j (by omega)]
      · rw [if_neg c1]
        by_cases c2 : j = h + 1 ∨ j = h + 2 + g
        · rw [if_pos c2, q4 j (by omega), q3 j (by omega), h2]
          rcases c2 with c2 | c2
          · rw [if_neg (by omega), if_pos c2]
          · rw [if_pos c2]
        · rw [if_neg c2]
          by_cases c3 : j < h + 2 + g
          · rw [if_pos c3, v3 j (by omega) c3]
          · rw [if_neg c3, q4 j (by omega)]
            have := p3 (j - (1 + g + (h + 2))) (by omega)
            rw [show 1 + g + (h + 2 + (j - (1 + g + (h + 2)))) = j by omega] at this
            rw [this]
            congr 2
            omega
    · rw [List.getElem?_eq_none (by omega), List.getElem?_eq_none (by simp; omega)]
  rw [et4, hb]
  simp only
  have hs := foldlM_map (fun v => FDZP.Rounded.scale one (2 * (h + 1)) • v) Y
  rw [hY] at hs
  simp only [bind, Except.bind] at hs
  have hsm : ∀ v : Cplx V, v.smulAssign (FDZP.Rounded.scale one (2 * (h + 1))) = FDZP.Rounded.scale one (2 * (h + 1)) • v := fun _ => rfl
  simp only [hsm]
  rw [hs]
  refine ⟨_, rfl, by simp, ?_⟩
  rw [← et4]
  intro j h1 h3
  rw [d1, d4] at h3
  exact v3 j (by omega) h3

end lists

/-! ### Errors -/

theorem sum_layout (h g : ℕ) : ∑ j ∈ Finset.range (2 * (h + 1) + 1 + g), FDZP.layout h g (fun _ => (1 : ℝ)) 0 (1 / 2) j = ((2 * (h + 1) : ℕ) : ℝ) := by
  rw [show 2 * (h + 1) + 1 + g = (h + 1) + 1 + g + 1 + h by ring, Finset.sum_range_add, Finset.sum_range_succ, Finset.sum_range_add, Finset.sum_range_succ]
  have s1 : ∑ j ∈ Finset.range (h + 1), FDZP.layout h g (fun _ => (1 : ℝ)) 0 (1 / 2) j = ((h + 1 : ℕ) : ℝ) := by
    rw [Finset.sum_congr rfl (g := fun _ => (1 : ℝ)) fun j hj => by
      have := Finset.mem_range.mp hj
      rw [FDZP.layout, if_pos (by omega)]]
    simp
  have s2 : FDZP.layout h g (fun _ => (1 : ℝ)) 0 (1 / 2) (h + 1) = 1 / 2 := by
    rw [FDZP.layout, if_neg (by omega), if_pos (by omega)]
  have s3 : ∑ j ∈ Finset.range g, FDZP.layout h g (fun _ => (1 : ℝ)) 0 (1 / 2) (h + 1 + 1 + j) = 0 := by
    apply Finset.sum_eq_zero
    intro j hj
    have := Finset.mem_range.mp hj
    rw [FDZP.layout, if_neg (by omega), if_neg (by omega), if_pos (by omega)]
  have s4 : FDZP.layout h g (fun _ => (1 : ℝ)) 0 (1 / 2) (h + 1 + 1 + g) = 1 / 2 := by
    rw [FDZP.layout, if_neg (by omega), if_pos (by omega)]
  have s5 : ∑ j ∈ Finset.range h, FDZP.layout h g (fun _ => (1 : ℝ)) 0 (1 / 2) (h + 1 + 1 + g + 1 + j) = (h : ℝ) := by
    rw [Finset.sum_congr rfl (g := fun _ => (1 : ℝ)) fun j hj => by
      have := Finset.mem_range.mp hj
      rw [FDZP.layout, if_neg (by omega), if_neg (by omega), if_neg (by omega)]]
    simp
  rw [s1, s2, s3, s4, s5]
  push_cast
  ring

section

variable {V : Type} [Zero V] [Add V] [Sub V] [Mul V] [Neg V] [Div V] [IntCast V] {val : V → ℝ} {u : ℝ}

theorem FDZP.Rounded.scale_near (hR : RoundedField V val u) (hu0 : 0 ≤ u) (hu : u ≤ 1 / 10) (one : V) (h1 : val one = 1) (N : ℕ) (hN : 0 < N) :
    |val (FDZP.Rounded.scale one N) - 1 / N| ≤ ((1 + u) ^ 3 - 1) / N := by
  have hN' : (0 : ℝ) < N := by exact_mod_cast hN
  have hc := hR.cast (N : ℤ)
  push_cast at hc
  rw [abs_of_pos hN'] at hc
  set c := val ((N : ℤ) : V) with hcd
  obtain ⟨c1, c2⟩ := abs_le.mp hc
  have hc0 : 0 < c := by nlinarith
  have hd := hR.div one ((N : ℤ) : V) (by rw [← hcd]; exact hc0.ne')
  rw [h1, ← hcd, abs_of_pos (show 0 < 1 / c by positivity)] at hd
  have hk : |1 / c - 1 / N| ≤ u / (1 - u) / N := by
    rw [div_sub_div _ _ hc0.ne' hN'.ne', abs_div, one_mul, mul_one, abs_sub_comm, abs_of_pos (mul_pos hc0 hN'), div_le_div_iff₀ (mul_pos hc0 hN') hN']
    have h2 : u / (1 - u) * c ≥ u * N := by
      rw [ge_iff_le, div_mul_eq_mul_div, le_div_iff₀ (by linarith)]
      nlinarith
    calc |c - N| * N ≤ u * N * N := by gcongr
      _ ≤ u / (1 - u) * c * N := by gcongr
      _ = _ := by ring
  have hq : u / (1 - u) ≤ u * (1 + 2 * u) := by
    rw [div_le_iff₀ (by linarith)]
    nlinarith [mul_nonneg (mul_nonneg hu0 hu0) (show 0 ≤ 1 - 2 * u by linarith)]
  have hk' : |1 / c - 1 / N| ≤ u * (1 + 2 * u) / N := hk.trans (by gcongr)
  have h3 : 1 / c ≤ (1 + u * (1 + 2 * u)) / N := by
    have := (abs_le.mp hk').2
    rw [add_div]
    linarith
  calc |val (FDZP.Rounded.scale one N) - 1 / N| ≤ |val (FDZP.Rounded.scale one N) - 1 / c| + |1 / c - 1 / N| := abs_sub_le _ _ _
    _ ≤ u * ((1 + u * (1 + 2 * u)) / N) + u * (1 + 2 * u) / N := by
        gcongr
        exact hd.trans (by gcongr)
    _ = (u * (1 + u * (1 + 2 * u)) + u * (1 + 2 * u)) / N := by ring
    _ ≤ _ := by
        gcongr
        nlinarith [mul_nonneg hu0 hu0, pow_nonneg hu0 3]

theorem Near.scaled (H : RoundedComplex (V := V) (A := Cplx V) val (Cplx.toComplex val) u) {K t : ℕ} {m : ℝ} {a : Cplx V} {z : ℂ} {N : ℝ} (hN : 0 < N) {c : V}
    (hc : |val c - 1 / N| ≤ ((1 + u) ^ t - 1) / N) (ha : Near (Cplx.toComplex val) u K (N * m) a z) : Near (Cplx.toComplex val) u (K + t + 1) m (c • a) (((1 / N : ℝ) : ℂ) * z) := by
  have hu := H.nonneg
  have hm' : 0 ≤ N * m := (norm_nonneg _).trans ha.2
  have hm : 0 ≤ m := by
    rcases le_or_gt 0 m with h | h
    · exact h
    · nlinarith
  have h0 := pow_nonneg' u hu t
  refine near_round H.nonneg 1 (v := (val c : ℂ) * a.toComplex val) ?_ ?_ (by simpa using H.smul c a)
  · calc _ = ‖((val c - 1 / N : ℝ) : ℂ) * a.toComplex val + ((1 / N : ℝ) : ℂ) * (a.toComplex val - z)‖ := by push_cast; ring_nf
      _ ≤ |val c - 1 / N| * ‖a.toComplex val‖ + |1 / N| * ‖a.toComplex val - z‖ := by
          refine (norm_add_le _ _).trans ?_
          rw [norm_mul, norm_mul, norm_real, norm_real, Real.norm_eq_abs, Real.norm_eq_abs]
      _ ≤ ((1 + u) ^ t - 1) / N * ((1 + u) ^ K * (N * m)) + 1 / N * (((1 + u) ^ K - 1) * (N * m)) := by
          have := ha.size hu
          have := ha.1
          rw [abs_of_pos (show 0 < 1 / N by positivity)]
          have : 0 ≤ ((1 + u) ^ t - 1) / N := by positivity
          gcongr
      _ = _ := by
          rw [pow_add]
          field_simp
          ring
  · rw [norm_mul, norm_real, Real.norm_eq_abs, abs_of_pos (show 0 < 1 / N by positivity), div_mul_eq_mul_div, one_mul, div_le_iff₀ hN, mul_comm m]
    exact ha.2

variable (val u)

/-- One call, in any state a previous call leaves behind. -/
theorem FDZP.Rounded.call_near (hR : RoundedField V val u) (hu0 : 0 ≤ u) (hu : u ≤ 1 / 10) (one half : V) (h1 : val one = 1) (hh : val half = 1 / 2)
    (T : Trig V) (t L : ℕ) (hT : T.Accurate val u t L) (h g : ℕ) (hg : h ≤ g) (hL : 2 * (h + 1) + 1 + g ≤ L)
    (hI : Smooth (2 * (h + 1))) (hO : Smooth (2 * (h + 1) + 1 + g)) (tmp output input : List (Cplx V))
    (hinv : FDZP.Rounded.Inv (2 * (h + 1) + 1 + g) (2 * (h + 1)) tmp) (ho : output.length = 2 * (h + 1) + 1 + g) (hi : input.length = 2 * (h + 1)) :
    ∃ tmp' Z, FDZP.Rounded.call T one half (2 * (h + 1) + 1 + g) (2 * (h + 1)) tmp output input = .ok (tmp', Z) ∧
      FDZP.Rounded.Inv (2 * (h + 1) + 1 + g) (2 * (h + 1)) tmp' ∧ Z.length = 2 * (h + 1) + 1 + g ∧ ∀ m < 2 * (h + 1) + 1 + g,
      ‖(Z.getD m 0).toComplex val - Spec.interp (2 * (h + 1)) (fun n => (input.getD n 0).toComplex val) ((m : ℝ) / ((2 * (h + 1) + 1 + g : ℕ) : ℝ))‖ ≤
        ((1 + u) ^ (roundings t (2 * (h + 1)) + roundings t (2 * (h + 1) + 1 + g) + 5) - 1) * ∑ n ∈ Finset.range (2 * (h + 1)), ‖(input.getD n 0).toComplex val‖ := by
  have H := roundedComplex hR.toRoundedMul hu0 hu
  obtain ⟨X, eX, lX, hX⟩ := C67_accurate val u hR.toRoundedMul hu0 hu T t L hT (-1) (Or.inr rfl) (2 * (h + 1)) (by omega) (by omega) hI.2 tmp input
    (by rw [hinv.1]; omega) (by omega)
  obtain ⟨Y, eY, lY, hY⟩ := C67_accurate val u hR.toRoundedMul hu0 hu T t L hT 1 (Or.inl rfl) (2 * (h + 1) + 1 + g) (by omega) hL hO.2 output
    ((List.range (2 * (h + 1) + 1 + g)).map (FDZP.layout h g (fun n => X.getD n 0) 0 (half • X.getD (h + 1) 0))) (by omega) (by simp)
  rw [List.drop_eq_nil_of_le (by omega), List.append_nil] at eY
  obtain ⟨tmp', e, hinv'⟩ := FDZP.Rounded.call_layout T one half h g hg tmp output input hinv X lX eX Y lY eY
  refine ⟨tmp', _, e, hinv', by simp [lY], ?_⟩
  intro m hm
  generalize hx : (fun n => (input.getD n 0).toComplex val) = x at hX ⊢
  have hxx : ∀ n, (input.getD n 0).toComplex val = x n := fun n => by rw [← hx]
  simp only [hxx] at hX ⊢
  set S := ∑ n ∈ Finset.range (2 * (h + 1)), ‖x n‖ with hS
  have hS0 : 0 ≤ S := Finset.sum_nonneg fun _ _ => norm_nonneg _
  have nX : ∀ k < 2 * (h + 1), Near (Cplx.toComplex val) u (roundings t (2 * (h + 1))) S (X.getD k 0) (dft (-1) (2 * (h + 1)) x k) :=
    fun k hk => ⟨hX k hk, norm_dft _ _ _ _⟩
  -- the laid out spectrum
  have nL : ∀ j < 2 * (h + 1) + 1 + g, Near (Cplx.toComplex val) u (roundings t (2 * (h + 1)) + 1) (FDZP.layout h g (fun _ => (1 : ℝ)) 0 (1 / 2) j * S)
      (FDZP.layout h g (fun n => X.getD n 0) 0 (half • X.getD (h + 1) 0) j) (FDZP.layout h g (dft (-1) (2 * (h + 1)) x) 0 (dft (-1) (2 * (h + 1)) x (h + 1) / 2) j) := by
    intro j hj
    unfold FDZP.layout
    split_ifs with c1 c2 c3
    · rw [one_mul]; exact (nX j (by omega)).mono hu0 (by omega) (le_refl _)
    · rw [one_div_mul_eq_div]; exact (nX (h + 1) (by omega)).half H hh
    · rw [zero_mul]
      refine ⟨?_, by simp⟩
      have : Cplx.toComplex val (0 : Cplx V) = 0 := by
        apply Complex.ext
        · exact hR.zero
        · exact hR.zero
      rw [this]; simp
    · rw [one_mul]; exact (nX (j - (g + 1)) (by omega)).mono hu0 (by omega) (le_refl _)
  set W := FDZP.layout h g (dft (-1) (2 * (h + 1)) x) 0 (dft (-1) (2 * (h + 1)) x (h + 1) / 2) with hW
  have hval : ∀ j < 2 * (h + 1) + 1 + g, ((List.range (2 * (h + 1) + 1 + g)).map (FDZP.layout h g (fun n => X.getD n 0) 0 (half • X.getD (h + 1) 0))).getD j 0 =
      FDZP.layout h g (fun n => X.getD n 0) 0 (half • X.getD (h + 1) 0) j := by
    intro j hj
    rw [List.getD_eq_getElem?_getD, List.getElem?_map, List.getElem?_range hj]; rfl
  generalize ((List.range (2 * (h + 1) + 1 + g)).map (FDZP.layout h g (fun n => X.getD n 0) 0 (half • X.getD (h + 1) 0))) = P at hY hval
  have s1 : ∑ n ∈ Finset.range (2 * (h + 1) + 1 + g), ‖(P.getD n 0).toComplex val‖ ≤ (1 + u) ^ (roundings t (2 * (h + 1)) + 1) * (((2 * (h + 1) : ℕ) : ℝ) * S) := by
    calc _ ≤ ∑ n ∈ Finset.range (2 * (h + 1) + 1 + g), (1 + u) ^ (roundings t (2 * (h + 1)) + 1) * (FDZP.layout h g (fun _ => (1 : ℝ)) 0 (1 / 2) n * S) := by
          apply Finset.sum_le_sum
          intro n hn
          rw [hval n (Finset.mem_range.mp hn)]
          exact (nL n (Finset.mem_range.mp hn)).size hu0
      _ = _ := by rw [← Finset.mul_sum, ← Finset.sum_mul, sum_layout]
  have s2 : ∑ n ∈ Finset.range (2 * (h + 1) + 1 + g), ‖(P.getD n 0).toComplex val - W n‖ ≤ ((1 + u) ^ (roundings t (2 * (h + 1)) + 1) - 1) * (((2 * (h + 1) : ℕ) : ℝ) * S) := by
    calc _ ≤ ∑ n ∈ Finset.range (2 * (h + 1) + 1 + g), ((1 + u) ^ (roundings t (2 * (h + 1)) + 1) - 1) * (FDZP.layout h g (fun _ => (1 : ℝ)) 0 (1 / 2) n * S) := by
          apply Finset.sum_le_sum
          intro n hn
          rw [hval n (Finset.mem_range.mp hn)]
          exact (nL n (Finset.mem_range.mp hn)).1
      _ = _ := by rw [← Finset.mul_sum, ← Finset.sum_mul, sum_layout]
  have s3 : ∑ n ∈ Finset.range (2 * (h + 1) + 1 + g), ‖W n‖ ≤ ((2 * (h + 1) : ℕ) : ℝ) * S := by
    calc _ ≤ ∑ n ∈ Finset.range (2 * (h + 1) + 1 + g), (FDZP.layout h g (fun _ => (1 : ℝ)) 0 (1 / 2) n * S) := by
          apply Finset.sum_le_sum
          intro n hn
          exact (nL n (Finset.mem_range.mp hn)).2
      _ = _ := by rw [← Finset.sum_mul, sum_layout]
  have nY : Near (Cplx.toComplex val) u (roundings t (2 * (h + 1)) + 1 + roundings t (2 * (h + 1) + 1 + g)) (((2 * (h + 1) : ℕ) : ℝ) * S) (Y.getD m 0)
      (dft 1 (2 * (h + 1) + 1 + g) W m) := by
    refine ⟨?_, (norm_dft _ _ _ _).trans s3⟩
    have h0 := pow_nonneg' u hu0 (roundings t (2 * (h + 1) + 1 + g))
    calc _ ≤ ‖(Y.getD m 0).toComplex val - dft 1 (2 * (h + 1) + 1 + g) (fun n => (P.getD n 0).toComplex val) m‖ +
          ‖dft 1 (2 * (h + 1) + 1 + g) (fun n => (P.getD n 0).toComplex val) m - dft 1 (2 * (h + 1) + 1 + g) W m‖ := norm_sub_le_norm_sub_add_norm_sub _ _ _
      _ ≤ ((1 + u) ^ roundings t (2 * (h + 1) + 1 + g) - 1) * ((1 + u) ^ (roundings t (2 * (h + 1)) + 1) * (((2 * (h + 1) : ℕ) : ℝ) * S)) +
          ((1 + u) ^ (roundings t (2 * (h + 1)) + 1) - 1) * (((2 * (h + 1) : ℕ) : ℝ) * S) := by
          apply add_le_add
          · exact (hY m hm).trans (mul_le_mul_of_nonneg_left s1 h0)
          · rw [dft_sub]
            exact (norm_dft _ _ _ _).trans s2
      _ = _ := by rw [pow_add _ _ (roundings t (2 * (h + 1) + 1 + g))]; ring
  have nZ := (Near.scaled H (by positivity) (FDZP.Rounded.scale_near hR hu0 hu one h1 (2 * (h + 1)) (by omega)) nY).1
  rw [spectrum_interp h g x W m] at nZ
  · rw [List.getD_eq_getElem?_getD, List.getElem?_map, List.getElem?_eq_getElem (by omega)]
    rw [List.getD_eq_getElem?_getD, List.getElem?_eq_getElem (by omega)] at nZ
    refine nZ.trans (le_of_eq ?_)
    rw [show roundings t (2 * (h + 1)) + 1 + roundings t (2 * (h + 1) + 1 + g) + 3 + 1 = roundings t (2 * (h + 1)) + roundings t (2 * (h + 1) + 1 + g) + 5 by ring]
  · intro j hj; rw [hW, FDZP.layout, if_pos hj]
  · rw [hW, FDZP.layout, if_neg (by omega), if_pos (by omega)]; push_cast; ring
  · intro j hj; rw [hW, FDZP.layout, if_neg (by omega), if_neg (by omega), if_pos (by omega)]
  · rw [hW, FDZP.layout, if_neg (by omega), if_pos (by omega)]; push_cast; ring
  · intro j hj; rw [hW, FDZP.layout, if_neg (by omega), if_neg (by omega), if_neg (by omega)]; congr 1; omega

/-- One call on an object in state `tmp`, with an output buffer of its own. -/
def FDZP.Rounded.step (T : Trig V) (one half : V) (OUTPUT INPUT : ℕ) (tmp input : List (Cplx V)) : M (List (Cplx V) × List (Cplx V)) :=
  FDZP.Rounded.call T one half OUTPUT INPUT tmp (List.replicate OUTPUT 0) input

/-- **C82** Zero padding in rounded arithmetic, for the sizes C35 proves it for: every output of every call differs from the interpolant of that call's input by at most
`(1 + u)^(E + E' + 5) - 1` times the sum of the magnitudes of the input, where `E` and `E'` are what C67 allows for the two transforms: the errors do not depend on the size of
the output otherwise, and do not build up over the calls. -/
theorem C82_padding (hR : RoundedField V val u) (hu0 : 0 ≤ u) (hu : u ≤ 1 / 10) (one half : V) (h1 : val one = 1) (hh : val half = 1 / 2)
    (T : Trig V) (t L : ℕ) (hT : T.Accurate val u t L) (OUTPUT INPUT : ℕ) (h0 : 0 < INPUT) (hev : INPUT % 2 = 0) (hlt : INPUT < OUTPUT) (h32 : 3 * INPUT ≤ 2 * OUTPUT) (hL : OUTPUT ≤ L)
    (hpi : ∀ p, p.Prime → p ∣ INPUT → p ≤ 31) (hpo : ∀ p, p.Prime → p ∣ OUTPUT → p ≤ 31)
    (inputs : List (List (Cplx V))) (hx : ∀ x ∈ inputs, x.length = INPUT) :
    ∃ (s : List (Cplx V)) (ys : List (List (Cplx V))), run (FDZP.Rounded.step T one half OUTPUT INPUT) (FDZP.Rounded.init OUTPUT) inputs = .ok (s, ys) ∧ ys.length = inputs.length ∧
      ∀ (i : ℕ) (x y : List (Cplx V)), inputs[i]? = some x → ys[i]? = some y → y.length = OUTPUT ∧ ∀ m < OUTPUT,
        ‖(y.getD m 0).toComplex val - Spec.interp INPUT (fun n => (x.getD n 0).toComplex val) ((m : ℝ) / (OUTPUT : ℝ))‖ ≤
          ((1 + u) ^ (roundings t INPUT + roundings t OUTPUT + 5) - 1) * ∑ n ∈ Finset.range INPUT, ‖(x.getD n 0).toComplex val‖ := by
  obtain ⟨h, rfl⟩ : ∃ h, INPUT = 2 * (h + 1) := ⟨INPUT / 2 - 1, by omega⟩
  obtain ⟨g, rfl⟩ : ∃ g, OUTPUT = 2 * (h + 1) + 1 + g := ⟨OUTPUT - (2 * (h + 1) + 1), by omega⟩
  have hinit : FDZP.Rounded.Inv (2 * (h + 1) + 1 + g) (2 * (h + 1)) (FDZP.Rounded.init (V := V) (2 * (h + 1) + 1 + g)) := by
    refine ⟨by simp [FDZP.Rounded.init], ?_⟩
    intro j h1 h2
    unfold FDZP.Rounded.init
    rw [List.getElem?_replicate, if_pos (by omega)]
  generalize FDZP.Rounded.init (V := V) (2 * (h + 1) + 1 + g) = tmp at hinit ⊢
  induction inputs generalizing tmp with
  | nil => exact ⟨tmp, [], rfl, rfl, by simp⟩
  | cons x xs ih =>
    obtain ⟨tmp', Z, e, hi', lZ, hZ⟩ := FDZP.Rounded.call_near val u hR hu0 hu one half h1 hh T t L hT h g (by omega) hL ⟨by omega, hpi⟩ ⟨by omega, hpo⟩ tmp
      (List.replicate (2 * (h + 1) + 1 + g) 0) x hinit (by simp) (hx x (by simp))
    obtain ⟨s, ys, es, l, hs⟩ := ih (fun y hy => hx y (by simp [hy])) tmp' hi'
    refine ⟨s, Z :: ys, ?_, by simp [l], ?_⟩
    · unfold run
      rw [show FDZP.Rounded.step T one half (2 * (h + 1) + 1 + g) (2 * (h + 1)) tmp x =
        FDZP.Rounded.call T one half (2 * (h + 1) + 1 + g) (2 * (h + 1)) tmp (List.replicate (2 * (h + 1) + 1 + g) 0) x from rfl, e]
      simp only
      rw [es]
    · intro i x' y' hx' hy'
      cases i with
      | zero =>
        simp only [List.getElem?_cons_zero, Option.some.injEq] at hx' hy'
        subst hx' hy'
        exact ⟨lZ, hZ⟩
      | succ i =>
        rw [List.getElem?_cons_succ] at hx' hy'
        exact hs i x' y' hx' hy'

end

/-! ### The code as it is, in floating point with `p` bits -/

section

variable (l p : ℕ) [NeZero p]

/-- The constant `VALUE(1)`. -/
theorem literal_one_half (hl : p ≤ l) : (((Binary.literal l p 1).val : ℚ) : ℝ) = 1 ∧ (((Binary.literal l p (1 / 2)).val : ℚ) : ℝ) = 1 / 2 := by
  have h1 := literal_exact l p hl 1 0 (by rw [abs_one]; exact one_lt_pow₀ (by norm_num) (NeZero.ne p))
  have h2 := literal_exact l p hl 1 (-1) (by rw [abs_one]; exact one_lt_pow₀ (by norm_num) (NeZero.ne p))
  norm_num at h1 h2
  rw [h1, h2]
  norm_num

theorem unit_le_tenth (hp : 4 ≤ p) : (1 : ℝ) / 2 ^ p ≤ 1 / 10 := by
  calc (1 : ℝ) / 2 ^ p ≤ 1 / 2 ^ 4 := by gcongr; norm_num
    _ ≤ _ := by norm_num

/-- **C82** The transform of real numbers, in floating point with `p` bits and with the constants of the code: the bins in between are off by at most `(128 log2(N) + 96) / 2^p` times
the sum of the magnitudes of the inputs, where `2 N` is the number of inputs, and the halved first and last bin by at most `(64 log2(N) + 4) / 2^p` times it. -/
theorem C82_code (hp : 10 ≤ p) (hp' : p ≤ 53) (hl : p ≤ l) (N : ℕ) (hN : 0 < N) (hL : 2 * N ≤ 268435455) (hN' : ∀ q, q.Prime → q ∣ N → q ≤ 31)
    (out : List (Cplx (Binary p))) (inp : List (Binary p)) (ho : N + 1 ≤ out.length) (hi : 2 * N ≤ inp.length) :
    ∃ out', Rounded.halfComplex (Trig.binary l p) (Binary.literal l p 1) (Binary.literal l p (1 / 2)) (2 * N) out inp = .ok out' ∧ out'.length = out.length ∧
      (∀ k, 0 < k → k < N → ‖(out'.getD k 0).toComplex (fun a => (a.val : ℝ)) - dft (-1) (2 * N) (fun n => (((inp.getD n 0).val : ℝ) : ℂ)) k‖ ≤
        (128 * Real.logb 2 N + 96) / 2 ^ p * ∑ n ∈ Finset.range (2 * N), |((inp.getD n 0).val : ℝ)|) ∧
      (∀ k, k = 0 ∨ k = N → ‖(out'.getD k 0).toComplex (fun a => (a.val : ℝ)) - 1 / 2 * dft (-1) (2 * N) (fun n => (((inp.getD n 0).val : ℝ) : ℂ)) k‖ ≤
        (64 * Real.logb 2 N + 4) / 2 ^ p * ∑ n ∈ Finset.range (2 * N), |((inp.getD n 0).val : ℝ)|) ∧
      (∀ k, N < k → out'[k]? = out[k]?) := by
  obtain ⟨v1, v2⟩ := literal_one_half l p hl
  obtain ⟨out', e, hlen, h1, h2, h3⟩ := C82_half (fun a : Binary p => (a.val : ℝ)) (1 / 2 ^ p) (binary_roundedMul p) (binary_roundedField p).neg (by positivity)
    (unit_le_tenth p (by omega)) _ _ v1 v2 _ 9 _ (Trig.binary_accurate l p hp hp' hl) N hN hL hN' out inp ho hi
  have hb := roundings_bound N hN (by omega) hN'
  have hlog := roundings_log N hN hN'
  have h10 : (1024 : ℝ) ≤ 2 ^ p := by
    calc (1024 : ℝ) = 2 ^ 10 := by norm_num
      _ ≤ 2 ^ p := pow_le_pow_right₀ (by norm_num) hp
  have hS : 0 ≤ ∑ n ∈ Finset.range (2 * N), |((inp.getD n 0).val : ℝ)| := Finset.sum_nonneg fun _ _ => abs_nonneg _
  have key : ∀ c : ℕ, c ≤ 128 → (1 + 1 / 2 ^ p : ℝ) ^ (roundings 9 N + c) - 1 ≤ (64 * Real.logb 2 N + 2 * c) / 2 ^ p := by
    intro c hc
    have hE : ((roundings 9 N + c : ℕ) : ℝ) ≤ 1024 := by exact_mod_cast (by omega)
    have := pow_sub_one_le (1 / 2 ^ p) (by positivity) (roundings 9 N + c) (by
      rw [mul_one_div, div_le_one (by positivity)]
      linarith)
    rw [mul_one_div] at this
    refine this.trans ?_
    push_cast
    gcongr
    linarith
  refine ⟨out', e, hlen, ?_, ?_, h3⟩
  · intro k h0 hk
    refine (h1 k h0 hk).trans ?_
    rw [add_assoc]
    have := key (2 * 9 + 6) (by norm_num)
    apply mul_le_mul_of_nonneg_right _ hS
    calc _ ≤ 2 * ((64 * Real.logb 2 N + 2 * (2 * 9 + 6 : ℕ)) / 2 ^ p) := by linarith
      _ = _ := by push_cast; ring
  · intro k hk
    refine (h2 k hk).trans ?_
    have := key 2 (by norm_num)
    apply mul_le_mul_of_nonneg_right _ hS
    refine this.trans (le_of_eq ?_)
    push_cast
    ring

/-- **C82** Zero padding in floating point with `p` bits: every output of every call is off by at most `(64 log2(INPUT * OUTPUT) + 10) / 2^p` times the sum of the magnitudes of the
inputs of that call. -/
theorem C82_code_padding (hp : 11 ≤ p) (hp' : p ≤ 53) (hl : p ≤ l) (OUTPUT INPUT : ℕ) (h0 : 0 < INPUT) (hev : INPUT % 2 = 0) (hlt : INPUT < OUTPUT)
    (h32 : 3 * INPUT ≤ 2 * OUTPUT) (hL : OUTPUT ≤ 268435455) (hpi : ∀ p, p.Prime → p ∣ INPUT → p ≤ 31) (hpo : ∀ p, p.Prime → p ∣ OUTPUT → p ≤ 31)
    (inputs : List (List (Cplx (Binary p)))) (hx : ∀ x ∈ inputs, x.length = INPUT) :
    ∃ (s : List (Cplx (Binary p))) (ys : List (List (Cplx (Binary p)))),
      run (FDZP.Rounded.step (Trig.binary l p) (Binary.literal l p 1) (Binary.literal l p (1 / 2)) OUTPUT INPUT) (FDZP.Rounded.init OUTPUT) inputs = .ok (s, ys) ∧
      ys.length = inputs.length ∧
      ∀ (i : ℕ) (x y : List (Cplx (Binary p))), inputs[i]? = some x → ys[i]? = some y → y.length = OUTPUT ∧ ∀ m < OUTPUT,
        ‖(y.getD m 0).toComplex (fun a => (a.val : ℝ)) - Spec.interp INPUT (fun n => (x.getD n 0).toComplex fun a => (a.val : ℝ)) ((m : ℝ) / (OUTPUT : ℝ))‖ ≤
          (64 * Real.logb 2 (INPUT * OUTPUT) + 10) / 2 ^ p * ∑ n ∈ Finset.range INPUT, ‖(x.getD n 0).toComplex fun a => (a.val : ℝ)‖ := by
  obtain ⟨v1, v2⟩ := literal_one_half l p hl
  obtain ⟨s, ys, e, hlen, h⟩ := C82_padding (fun a : Binary p => (a.val : ℝ)) (1 / 2 ^ p) (binary_roundedField p) (by positivity)
    (unit_le_tenth p (by omega)) _ _ v1 v2 _ 9 _ (Trig.binary_accurate l p (by omega) hp' hl) OUTPUT INPUT h0 hev hlt h32 hL hpi hpo inputs hx
  refine ⟨s, ys, e, hlen, fun i x y hi hy => ⟨(h i x y hi hy).1, fun m hm => ((h i x y hi hy).2 m hm).trans ?_⟩⟩
  have hb := roundings_bound INPUT h0 (by omega) hpi
  have hb' := roundings_bound OUTPUT (by omega) (by omega) hpo
  have hlog := roundings_log INPUT h0 hpi
  have hlog' := roundings_log OUTPUT (by omega) hpo
  have h11 : (2048 : ℝ) ≤ 2 ^ p := by
    calc (2048 : ℝ) = 2 ^ 11 := by norm_num
      _ ≤ 2 ^ p := pow_le_pow_right₀ (by norm_num) hp
  have hE : ((roundings 9 INPUT + roundings 9 OUTPUT + 5 : ℕ) : ℝ) ≤ 2048 := by exact_mod_cast (by omega)
  have key := pow_sub_one_le (1 / 2 ^ p) (by positivity) (roundings 9 INPUT + roundings 9 OUTPUT + 5) (by
    rw [mul_one_div, div_le_one (by positivity)]
    linarith)
  rw [mul_one_div] at key
  apply mul_le_mul_of_nonneg_right _ (Finset.sum_nonneg fun _ _ => norm_nonneg _)
  refine key.trans ?_
  rw [Real.logb_mul (by exact_mod_cast (by omega)) (by exact_mod_cast (by omega))]
  push_cast
  gcongr
  linarith

end

theorem logb_two_pow (k : ℕ) : Real.logb 2 ((2 ^ k : ℕ) : ℝ) = k := by
  push_cast
  rw [Real.logb_pow, Real.logb_self_eq_one (by norm_num), mul_one]

theorem smooth_two (k : ℕ) : ∀ q, q.Prime → q ∣ 2 ^ k → q ≤ 31 := by
  intro q hq hd
  have := (Nat.prime_dvd_prime_iff_eq hq Nat.prime_two).mp (hq.dvd_of_dvd_pow hd)
  omega

/-- Single precision, 1024 real inputs. -/
example (inp : List (Binary 24)) (h : inp.length = 1024) : ∃ out', Rounded.halfComplex (Trig.binary 64 24) (Binary.literal 64 24 1) (Binary.literal 64 24 (1 / 2)) 1024
    (List.replicate 513 0) inp = .ok out' ∧ ∀ k, 0 < k → k < 512 → ‖(out'.getD k 0).toComplex (fun a => (a.val : ℝ)) - dft (-1) 1024 (fun n => (((inp.getD n 0).val : ℝ) : ℂ)) k‖ ≤
      1248 / 2 ^ 24 * ∑ n ∈ Finset.range 1024, |((inp.getD n 0).val : ℝ)| := by
  obtain ⟨out', e, -, h1, -⟩ := C82_code 64 24 (by norm_num) (by norm_num) (by norm_num) 512 (by norm_num) (by norm_num) (smooth_two 9) (List.replicate 513 0) inp
    (by rw [List.length_replicate]) (by omega)
  refine ⟨out', e, ?_⟩
  have := logb_two_pow 9
  rw [show (2 ^ 9 : ℕ) = 512 by norm_num] at this
  rw [this] at h1
  norm_num at h1 ⊢
  exact h1

/-- Double precision, from 16 to 64 samples, twice. -/
example (x y : List (Cplx (Binary 53))) (hx : x.length = 16) (hy : y.length = 16) : ∃ (s : List (Cplx (Binary 53))) (a b : List (Cplx (Binary 53))),
    run (FDZP.Rounded.step (Trig.binary 64 53) (Binary.literal 64 53 1) (Binary.literal 64 53 (1 / 2)) 64 16) (FDZP.Rounded.init 64) [x, y] = .ok (s, [a, b]) ∧
    ∀ m < 64, ‖(b.getD m 0).toComplex (fun a => (a.val : ℝ)) - Spec.interp 16 (fun n => (y.getD n 0).toComplex fun a => (a.val : ℝ)) ((m : ℝ) / (64 : ℕ))‖ ≤
      650 / 2 ^ 53 * ∑ n ∈ Finset.range 16, ‖(y.getD n 0).toComplex fun a => (a.val : ℝ)‖ := by
  obtain ⟨s, ys, e, hl, h⟩ := C82_code_padding 64 53 (by norm_num) (by norm_num) (by norm_num) 64 16 (by norm_num) (by norm_num) (by norm_num) (by norm_num) (by norm_num)
    (smooth_two 4) (smooth_two 6) [x, y] (by simp [hx, hy])
  obtain ⟨a, b, rfl⟩ : ∃ a b, ys = [a, b] := by
    match ys, hl with
    | [a, b], _ => exact ⟨a, b, rfl⟩
  refine ⟨s, a, b, e, fun m hm => ?_⟩
  have := (h 1 y b rfl rfl).2 m hm
  have hlog := logb_two_pow 10
  rw [show ((2 ^ 10 : ℕ) : ℝ) = ((16 : ℕ) : ℝ) * ((64 : ℕ) : ℝ) by norm_num] at hlog
  rw [hlog] at this
  norm_num at this ⊢
  exact this

end DSP
