import Verif.Lemmas.FFT

/-!
# Induction over the factors of the transform
-/

set_option linter.unusedSectionVars false

namespace DSP
namespace FFT

variable {V A : Type} [Parts V A] [Zero V] [Add V] [Sub V] [Mul V] [IntCast V] [Zero A] [Add A] [Sub A] [Mul A] [SMul V A]

/-- What holds of the transform by induction over its factors: `P fuel B x k r` for bin `k` of `B` numbers `x`. -/
theorem dit_ind (T : Trig V) (s : ℤ) (N : ℕ) (inp z : List A) (hz : N ≤ z.length) (P : ℕ → ℕ → (ℕ → A) → ℕ → A → Prop)
    (base : ∀ fuel x, P (fuel + 1) 1 x 0 (x 0))
    (leaf : ∀ fuel R x y, R ∈ radices → split R = R → R ≠ 1 → R ≤ N → (∀ j < R, y j = x j) → ∀ k < R, ∀ r, (dft T s R y)[k]? = some r → P (fuel + 1) R x k r)
    (step : ∀ fuel R Q S x k0 (v w y : ℕ → A), R ∈ radices → split (R * Q) = R → R ≠ 1 → R ≠ R * Q → 0 < Q → 0 < S → R * Q * S = N → k0 < Q →
      (∀ a < R, P fuel Q (fun m => x (a + m * R)) k0 (v a)) → (∀ a < R, z[k0 * (a * S)]? = some (w a)) → (∀ j < R, y j = if j = 0 then v 0 else w j * v j) →
      ∀ a < R, ∀ r, (dft T s R y)[a]? = some r → P (fuel + 1) (R * Q) x (k0 + a * Q) r) (fuel : ℕ) : ∀ (B S : ℕ) (out : List A) (o i : ℕ) (x : ℕ → A),
    B ≤ fuel → Smooth B → 0 < S → B * S = N → o + B ≤ out.length → (∀ n < B, inp[i + n * S]? = some (x n)) →
    ∃ out', dit T s fuel B S out o inp i z = .ok out' ∧ out'.length = out.length ∧
      (∀ k < B, ∃ r, out'[o + k]? = some r ∧ P fuel B x k r) ∧
      (∀ j, (j < o ∨ o + B ≤ j) → out'[j]? = out[j]?) := by
  induction fuel with
  | zero => intro B S out o i x hf hB; have := hB.1; omega
  | succ fuel ih =>
    intro B S out o i x hf hB hS hBS hlen hin
    have hBpos := hB.1
    have hBL : B ≤ N := Nat.le_of_dvd (hBS ▸ Nat.mul_pos hBpos hS) (Dvd.intro S hBS)
    unfold dit
    simp only
    by_cases h1 : split B = 1
    · have hB1 := hB.split_one h1
      rw [if_pos h1, if_pos hB1]
      subst hB1
      have := hin 0 (by omega)
      rw [Nat.zero_mul, Nat.add_zero] at this
      rw [rd_some this]
      simp only [bind, Except.bind]
      refine ⟨_, wr_nat (by omega), by simp, ?_, ?_⟩
      · intro k hk
        have : k = 0 := by omega
        subst this
        exact ⟨x 0, by rw [Nat.add_zero, List.getElem?_set, if_pos rfl, if_pos (by omega)], base fuel x⟩
      · intro j hj
        rw [List.getElem?_set, if_neg (by omega)]
    · rw [if_neg h1]
      have hsp := (split_cases B).resolve_left h1
      by_cases h2 : split B = B
      · rw [if_pos h2]
        have hR : B ∈ radices := h2 ▸ hsp.1
        rw [h2, mapM_ok _ x _ (fun a ha => rd_some (hin a (List.mem_range.mp ha)))]
        simp only [bind, Except.bind]
        have hl := dft_length T s B hR fun a => ((List.range B).map x).getD a 0
        obtain ⟨out', e, l, h3, h4⟩ := store_ok out o 1 (by norm_num) (dft T s B fun a => ((List.range B).map x).getD a 0) (fun a ha => by omega)
        rw [hl] at h3 h4
        refine ⟨out', e, l, ?_, ?_⟩
        · intro k hk
          have := h3 k hk
          rw [Nat.mul_one] at this
          rw [this]
          obtain ⟨r, hr⟩ : ∃ r, (dft T s B fun a => ((List.range B).map x).getD a 0)[k]? = some r := ⟨_, List.getElem?_eq_getElem (by omega)⟩
          exact ⟨r, hr, leaf fuel B x _ hR h2 (by omega) hBL (fun j hj => getD_map_range x B j 0 hj) k hk r hr⟩
        · intro j hj
          exact h4 j (fun a ha => by omega)
      · rw [if_neg h2]
        obtain ⟨Q, hQ⟩ := hsp.2
        have hR := hsp.1
        have hsplit : split (split B * Q) = split B := by rw [← hQ]
        generalize split B = R at *
        subst hQ
        have hRpos : 0 < R := Nat.pos_of_ne_zero (by rintro rfl; simp at hBpos)
        have hQpos : 0 < Q := Nat.pos_of_ne_zero (by rintro rfl; simp at hBpos)
        have hQlt : Q < R * Q := by
          have : 2 ≤ R := by omega
          nlinarith
        have hdiv : R * Q / R = Q := Nat.mul_div_cancel_left _ hRpos
        rw [hdiv]
        -- the sub-transforms
        obtain ⟨out1, e1, l1, p1, q1⟩ := foldlM_inv (fun a (b : List A) => b.length = out.length ∧
            (∀ a' < a, ∀ k < Q, ∃ r, b[o + a' * Q + k]? = some r ∧
              P fuel Q (fun m => x (a' + m * R)) k r) ∧
            (∀ j, (j < o ∨ o + a * Q ≤ j) → b[j]? = out[j]?))
          (fun out a => dit T s fuel Q (R * S) out (o + a * Q) inp (i + a * S) z) R out ⟨rfl, by simp, by simp⟩ (by
            rintro a ha b ⟨g1, g2, g3⟩
            have haQ : a * Q + Q ≤ R * Q := by
              have : (a + 1) * Q ≤ R * Q := Nat.mul_le_mul_right Q ha
              rwa [Nat.add_mul, Nat.one_mul] at this
            obtain ⟨b', e, m1, m2, m3⟩ := ih Q (R * S) b (o + a * Q) (i + a * S) (fun m => x (a + m * R)) (by omega)
              (hB.of_dvd (Dvd.intro_left R rfl)) (Nat.mul_pos hRpos hS) (by rw [← hBS]; ring) (by rw [g1]; omega) (by
                intro m hm
                have : a + m * R < R * Q := by
                  have : (m + 1) * R ≤ Q * R := Nat.mul_le_mul_right R hm
                  rw [Nat.add_mul, Nat.one_mul, Nat.mul_comm Q] at this
                  omega
                have := hin _ this
                rw [← this]
                congr 1
                ring)
            refine ⟨b', e, by rw [m1, g1], ?_, ?_⟩
            · intro a' ha' k hk
              by_cases e' : a' = a
              · subst e'; exact m2 k hk
              · have : a' * Q + Q ≤ a * Q := by
                  have : (a' + 1) * Q ≤ a * Q := Nat.mul_le_mul_right Q (by omega)
                  rwa [Nat.add_mul, Nat.one_mul] at this
                rw [m3 _ (by omega)]
                exact g2 a' (by omega) k hk
            · intro j hj
              rw [Nat.add_mul, Nat.one_mul] at hj
              rw [m3 j (by omega), g3 j (by omega)])
        -- the butterflies
        obtain ⟨out2, e2, l2, p2, q2, r2⟩ := foldlM_inv (fun k0 (b : List A) => b.length = out.length ∧
            (∀ k < k0, ∀ a < R, ∃ r, b[o + k + a * Q]? = some r ∧
              P (fuel + 1) (R * Q) x (k + a * Q) r) ∧
            (∀ k < Q, k0 ≤ k → ∀ a < R, b[o + k + a * Q]? = out1[o + k + a * Q]?) ∧
            (∀ j, (j < o ∨ o + R * Q ≤ j) → b[j]? = out1[j]?))
          (fun out k0 => do
            let xs ← (List.range R).mapM fun a => do
              let v ← rd out ((o + k0 + a * Q : Nat) : Int)
              if a = 0 then return v else
              let w ← rd z ((k0 * (a * S) : Nat) : Int)
              return w * v
            store out (o + k0) Q (dft T s R fun a => xs.getD a 0)) Q out1 ⟨l1, by simp, by simp, by simp⟩ (by
            rintro k0 hk0 b ⟨g1, g2, g3, g4⟩
            have hr : ∀ a, ∃ r w, a < R → b[o + k0 + a * Q]? = some r ∧ P fuel Q (fun m => x (a + m * R)) k0 r ∧ z[k0 * (a * S)]? = some w := by
              intro a
              by_cases ha : a < R
              swap
              · exact ⟨0, 0, fun h => absurd h ha⟩
              obtain ⟨r, e, hn⟩ := p1 a ha k0 hk0
              have h5 : b[o + k0 + a * Q]? = some r := by
                rw [g3 k0 hk0 (le_refl _) a ha, ← e]
                congr 1
                ring
              have hlt : k0 * (a * S) < N := by
                rw [← hBS, ← Nat.mul_assoc]
                apply Nat.mul_lt_mul_of_pos_right _ hS
                calc k0 * a ≤ k0 * R := Nat.mul_le_mul_left _ ha.le
                  _ < Q * R := Nat.mul_lt_mul_of_pos_right hk0 hRpos
                  _ = R * Q := Nat.mul_comm _ _
              exact ⟨r, z[k0 * (a * S)]'(by omega), fun _ => ⟨h5, hn, List.getElem?_eq_getElem (by omega)⟩⟩
            choose v w hvw using hr
            let y : ℕ → A := fun a => if a = 0 then v 0 else w a * v a
            rw [mapM_ok _ y _ (fun a ha => by
              obtain ⟨h5, -, h6⟩ := hvw a (List.mem_range.mp ha)
              rw [rd_some h5]
              simp only [bind, Except.bind]
              by_cases ha0 : a = 0
              · subst ha0
                simp [y, pure, Except.pure]
              · rw [if_neg ha0, rd_some h6]
                simp [y, ha0, pure, Except.pure])]
            simp only [bind, Except.bind]
            have hidx : ∀ k < Q, ∀ a < R, k + a * Q < R * Q := by
              intro k hk a ha
              have : (a + 1) * Q ≤ R * Q := Nat.mul_le_mul_right Q ha
              rw [Nat.add_mul, Nat.one_mul] at this
              omega
            have hl := dft_length T s R hR fun a => ((List.range R).map y).getD a 0
            obtain ⟨b', e, m1, m2, m3⟩ := store_ok b (o + k0) Q hQpos (dft T s R fun a => ((List.range R).map y).getD a 0) (fun a ha => by
                have := hidx k0 hk0 a (hl ▸ ha)
                rw [g1]; omega)
            rw [hl] at m2 m3
            have hne : ∀ k < Q, k ≠ k0 → ∀ a' < R, ∀ a < R, o + k + a' * Q ≠ o + k0 + a * Q := by
              intro k hk hkk a' _ a _ h
              apply hkk
              have h' : (k + a' * Q) % Q = (k0 + a * Q) % Q := by
                congr 1; omega
              rwa [Nat.add_mul_mod_self_right, Nat.add_mul_mod_self_right, Nat.mod_eq_of_lt hk, Nat.mod_eq_of_lt hk0] at h'
            refine ⟨b', e, by rw [m1, g1], ?_, ?_, ?_⟩
            · intro k hk a ha
              by_cases hkk : k = k0
              · subst hkk
                rw [m2 a ha]
                obtain ⟨r, hr⟩ : ∃ r, (dft T s R fun a => ((List.range R).map y).getD a 0)[a]? = some r := ⟨_, List.getElem?_eq_getElem (by omega)⟩
                exact ⟨r, hr, step fuel R Q S x k v w _ hR hsplit (by omega) h2 hQpos hS hBS hk0 (fun a ha => (hvw a ha).2.1) (fun a ha => (hvw a ha).2.2)
                  (fun j hj => getD_map_range y R j 0 hj) a ha r hr⟩
              · rw [m3 _ (fun a' ha' => hne k (by omega) hkk a ha a' ha')]
                exact g2 k (by omega) a ha
            · intro k hk hk' a ha
              rw [m3 _ (fun a' ha' => hne k hk (by omega) a ha a' ha')]
              exact g3 k hk (by omega) a ha
            · intro j hj
              rw [m3 j (fun a' ha' => by have := hidx k0 hk0 a' ha'; omega)]
              exact g4 j hj)
        refine ⟨out2, ?_, l2, ?_, ?_⟩
        · simp only [e1, bind, Except.bind]
          exact e2
        · intro k hk
          have := p2 (k % Q) (Nat.mod_lt _ hQpos) (k / Q) (by
            rw [Nat.div_lt_iff_lt_mul hQpos]; exact hk)
          rw [Nat.add_assoc, Nat.mod_add_div'] at this
          exact this
        · intro j hj
          rw [r2 j hj, q1 j hj]

end FFT
end DSP
