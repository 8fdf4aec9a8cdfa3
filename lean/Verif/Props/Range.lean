import Verif.Props.Memory
import Verif.Props.Silence

/-!
# Averages stay in the range of their inputs (C98)

In IEEE arithmetic with its bounded range: the exponential moving averages never exceed the power of two that bounds their inputs, the moving averages that sum their window anew neither, as
long as the sum of the window fits the format. So none of them ever overflows.
-/

namespace DSP
namespace Range

open Spec Ieee Silence

variable {F : Format}

/-- A finite number of the format with magnitude at most `B`. -/
def Within (B : ℚ) (a : Ieee F) : Prop := a.Finite ∧ a.Valid ∧ |a.val| ≤ B

theorem fits_multiple (hp : 0 < F.p) (n : ℕ) (hn : n ≤ 2 ^ F.p) (k : ℤ) (hk : F.emin ≤ k) : Fits F (n * 2 ^ k) := by
  refine ⟨Binary.representable_of_le F.p hp _ n k (by push_cast; rfl) ?_, Binary.multiple_down _ k _ hk ⟨n, by push_cast; rfl⟩⟩
  rw [abs_of_nonneg (by positivity)]
  exact mul_le_mul_of_nonneg_right (by exact_mod_cast hn) (by positivity)

theorem fits_pow (hp : 0 < F.p) (k : ℤ) (hk : F.emin ≤ k) : Fits F (2 ^ k) := by
  have := fits_multiple hp 1 Nat.one_le_two_pow k hk
  rwa [Nat.cast_one, one_mul] at this

theorem add_within (hp : 0 < F.p) {A B : ℚ} {a b : Ieee F} (ha : Within A a) (hb : Within B b) (hf : Fits F (A + B)) (hlt : A + B < 2 ^ F.emax) : Within (A + B) (a + b) := by
  have h : |roundTo F (a.val + b.val)| ≤ A + B := by
    rw [roundTo_abs hp]
    exact roundTo_le hp _ _ hf ((abs_add_le _ _).trans (add_le_add ha.2.2 hb.2.2))
  have hfin := (add_finite a b ha.1 hb.1).mpr (h.trans_lt hlt)
  exact ⟨hfin, add_valid hp _ _, by rw [add_val hp a b ha.1 hb.1 hfin]; exact h⟩

/-- Scaling a power of two that is at least one loses nothing. -/
theorem scale_within (hp : 0 < F.p) (k : ℕ) (c y : Ieee F) (hc : c.Finite) (vc : c.Valid) (h0 : 0 ≤ c.val) (h1 : c.val ≤ 1) (hy : Within (2 ^ k) y) : Within (c.val * 2 ^ k) (c * y) := by
  obtain ⟨m1, m2⟩ := scale_val hp c y hc vc hy.1 hy.2.1 h0 h1
  refine ⟨m1, mul_valid hp _ _, ?_⟩
  rw [m2, roundTo_abs hp, abs_mul, abs_of_nonneg h0]
  refine roundTo_le hp _ _ ?_ (mul_le_mul_of_nonneg_left hy.2.2 h0)
  obtain ⟨⟨m, e, hm, h2⟩, n, h3⟩ := valid_fits vc
  refine ⟨⟨m, e + k, hm, by rw [h2, zpow_add₀ (by norm_num), zpow_natCast]; ring⟩, n * 2 ^ k, by rw [h3]; push_cast; ring⟩

/-- The weight of the previous output. -/
theorem complement_val (u : Usual F) (α : Ieee F) (ha : α.Finite) (va : α.Valid) (h0 : 0 ≤ α.val) (h1 : α.val ≤ 1) :
    (1 - α).Finite ∧ 0 ≤ (1 - α).val ∧ (1 - α).val ≤ 1 ∧ (1 - α).val + α.val ≤ 1 + 1 / 2 ^ F.p := by
  have hp : 0 < F.p := by have := u.p; omega
  have he0 : F.emin ≤ 0 := by have := u.emin; omega
  obtain ⟨o1, o2, o3⟩ := cast_exact hp he0 u.emax 1 (by have := u.sixteen; rw [abs_of_nonneg (by omega)]; omega)
  have hle : |((1 : ℤ) : Ieee F).val + (-α).val| ≤ 1 := by
    rw [neg_val, o3, Int.cast_one, ← sub_eq_add_neg, abs_of_nonneg (by linarith)]; linarith
  have fin : (((1 : ℤ) : Ieee F) + -α).Finite := (add_finite _ _ o1 (neg_finite _ ha)).mpr (u.finite _ (hle.trans (by norm_num)))
  have e := add_val' hp _ _ o1 (neg_finite _ ha) o2 (neg_valid _ va) fin
  have e' := add_val hp _ _ o1 (neg_finite _ ha) fin
  rw [neg_val, o3, Int.cast_one, ← sub_eq_add_neg] at e e'
  have hone : Fits F 1 := by have := fits_pow (F := F) hp 0 he0; rwa [zpow_zero] at this
  have hv : (1 - α).val = (((1 : ℤ) : Ieee F) + -α).val := rfl
  rw [hv]
  refine ⟨fin, ?_, ?_, ?_⟩
  · rw [e']; exact roundTo_nonneg hp _ (by linarith)
  · rw [e']; exact roundTo_le hp _ _ hone (by linarith)
  · have := (abs_le.mp (Binary.round_error F.p (1 - α.val))).2
    rw [abs_of_nonneg (by linarith)] at this
    have h2 : (1 - α.val) / 2 ^ F.p ≤ 1 / 2 ^ F.p := div_le_div_of_nonneg_right (by linarith) (by positivity)
    rw [e]
    linarith

theorem lerp_within (u : Usual F) (k : ℕ) (hk : k < F.emax) (α : Ieee F) (ha : α.Finite) (va : α.Valid) (h0 : 0 ≤ α.val) (h1 : α.val ≤ 1) (y x : Ieee F) (hy : Within (2 ^ k) y)
    (hx : Within (2 ^ k) x) : Within (2 ^ k) (lerp y x α) := by
  have hp : 0 < F.p := by have := u.p; omega
  obtain ⟨c1, c2, c3, c4⟩ := complement_val u α ha va h0 h1
  have s1 := scale_within hp k (1 - α) y c1 (add_valid hp _ _) c2 c3 hy
  have s2 := scale_within hp k α x ha va h0 h1 hx
  have hP : (0 : ℚ) < 2 ^ k := by positivity
  have hsum : |((1 - α) * y).val + (α * x).val| ≤ 2 ^ (k : ℤ) + 2 ^ ((k : ℤ) - F.p) := by
    refine (abs_add_le _ _).trans ((add_le_add s1.2.2 s2.2.2).trans ?_)
    rw [← add_mul, zpow_sub₀ (by norm_num), zpow_natCast, zpow_natCast]
    calc ((1 - α).val + α.val) * 2 ^ k ≤ (1 + 1 / 2 ^ F.p) * 2 ^ k := mul_le_mul_of_nonneg_right c4 hP.le
      _ = _ := by ring
  have hr := Binary.round_abs_le_pow F.p (by have := u.p; omega) _ k hsum
  have hgrid : roundTo F (((1 - α) * y).val + (α * x).val) = Binary.round F.p (((1 - α) * y).val + (α * x).val) := by
    refine roundTo_grid hp _ ?_
    obtain ⟨n, hn⟩ := (valid_fits s1.2.1).2
    obtain ⟨m, hm⟩ := (valid_fits s2.2.1).2
    exact ⟨n + m, by rw [hn, hm]; push_cast; ring⟩
  rw [← hgrid] at hr
  have fin : ((1 - α) * y + α * x).Finite := (add_finite _ _ s1.1 s2.1).mpr (hr.trans_lt (zpow_lt_zpow_right₀ (by norm_num) hk))
  refine ⟨fin, add_valid hp _ _, ?_⟩
  rw [show (lerp y x α).val = ((1 - α) * y + α * x).val from rfl, add_val hp _ _ s1.1 s2.1 fin, ← zpow_natCast]
  exact hr

/-- **C98** The exponential moving average, for every weight: a power of two that bounds the inputs and the state bounds all outputs. -/
theorem C98_ema (u : Usual F) (k : ℕ) (hk : k < F.emax) (f : EMA (Ieee F) (Ieee F)) (ha : f.alpha.Finite) (va : f.alpha.Valid) (h0 : 0 ≤ f.alpha.val) (h1 : f.alpha.val ≤ 1) (hy : Within (2 ^ k) f.prev)
    (x : ℕ → Ieee F) (hx : ∀ n, Within (2 ^ k) (x n)) (n : ℕ) : Within (2 ^ k) (stream EMA.call f x n) := by
  have inv : ∀ n, (states EMA.call f x n).alpha = f.alpha ∧ Within (2 ^ k) (states EMA.call f x n).prev := by
    intro n
    induction n with
    | zero => exact ⟨rfl, hy⟩
    | succ n ih =>
      refine ⟨ih.1, ?_⟩
      have := lerp_within u k hk f.alpha ha va h0 h1 _ _ ih.2 (hx n)
      rw [← ih.1] at this
      exact this
  have := lerp_within u k hk f.alpha ha va h0 h1 _ _ (inv n).2 (hx n)
  rw [← (inv n).1] at this
  exact this

theorem stages_within (u : Usual F) (k : ℕ) (hk : k < F.emax) (α : Ieee F) (ha : α.Finite) (va : α.Valid) (h0 : 0 ≤ α.val) (h1 : α.val ≤ 1) (ps : List (Ieee F)) (hps : ∀ y ∈ ps, Within (2 ^ k) y) (x : Ieee F)
    (hx : Within (2 ^ k) x) : (∀ y ∈ (EMACascade.stages α ps x).1, Within (2 ^ k) y) ∧ Within (2 ^ k) (EMACascade.stages α ps x).2 := by
  induction ps generalizing x with
  | nil => exact ⟨fun y hy => by simp [EMACascade.stages] at hy, hx⟩
  | cons p ps ih =>
    have h := lerp_within u k hk α ha va h0 h1 p x (hps p (by simp)) hx
    obtain ⟨i1, i2⟩ := ih (fun y hy => hps y (by simp [hy])) (lerp p x α) h
    refine ⟨fun y hy => ?_, i2⟩
    simp only [EMACascade.stages, List.mem_cons] at hy
    rcases hy with rfl | hy
    · exact h
    · exact i1 y hy

/-- **C98** Cascades. -/
theorem C98_ema_cascade (u : Usual F) (k : ℕ) (hk : k < F.emax) (f : EMACascade (Ieee F) (Ieee F)) (ha : f.alpha.Finite) (va : f.alpha.Valid) (h0 : 0 ≤ f.alpha.val) (h1 : f.alpha.val ≤ 1)
    (hy : ∀ y ∈ f.prev, Within (2 ^ k) y) (x : ℕ → Ieee F) (hx : ∀ n, Within (2 ^ k) (x n)) (n : ℕ) : Within (2 ^ k) (stream EMACascade.call f x n) := by
  have inv : ∀ n, (states EMACascade.call f x n).alpha = f.alpha ∧ ∀ y ∈ (states EMACascade.call f x n).prev, Within (2 ^ k) y := by
    intro n
    induction n with
    | zero => exact ⟨rfl, hy⟩
    | succ n ih =>
      refine ⟨ih.1, ?_⟩
      have := (stages_within u k hk f.alpha ha va h0 h1 _ ih.2 _ (hx n)).1
      rw [← ih.1] at this
      exact this
  have := (stages_within u k hk f.alpha ha va h0 h1 _ (inv n).2 _ (hx n)).2
  rw [← (inv n).1] at this
  exact this

/-- A full scale signal in single precision and the slowest useful average. -/
example (x : ℕ → Ieee Format.single) (hx : ∀ n, Within 1 (x n)) (n : ℕ) : (stream EMA.call (EMA.init 0 (num false (1 / 2 ^ 24)) : EMA (Ieee Format.single) (Ieee Format.single)) x n).Finite ∧
    |(stream EMA.call (EMA.init 0 (num false (1 / 2 ^ 24)) : EMA (Ieee Format.single) (Ieee Format.single)) x n).val| ≤ 1 := by
  have hz : Within (2 ^ 0) (0 : Ieee Format.single) := ⟨trivial, valid_of_fits _ _ le_rfl (by positivity) ⟨⟨0, 0, by simp, by simp⟩, 0, by simp⟩, by show |signed false 0| ≤ _; rw [signed_zero]; norm_num⟩
  have hv : (num false (1 / 2 ^ 24) : Ieee Format.single).Valid := by
    refine valid_of_fits _ _ (by positivity) ?_ ?_
    · show (1 / 2 ^ 24 : ℚ) < 2 ^ (128 : ℤ)
      norm_num
    · have := fits_pow (F := Format.single) (by decide) (-24) (by decide)
      rwa [show (2 : ℚ) ^ (-24 : ℤ) = 1 / 2 ^ 24 by norm_num] at this
  have := C98_ema usual_single 0 (by decide) (EMA.init 0 (num false (1 / 2 ^ 24))) trivial hv
    (by show 0 ≤ signed false (1 / 2 ^ 24); norm_num [signed]) (by show signed false (1 / 2 ^ 24) ≤ 1; norm_num [signed]) hz x (fun n => by rw [pow_zero]; exact hx n) n
  rw [pow_zero] at this
  exact ⟨this.1, this.2.2⟩

/-! ### Moving averages -/

theorem sumAll_within (hp : 0 < F.p) (k : ℤ) (hk : F.emin ≤ k) (l : List (Ieee F)) (hl : ∀ x ∈ l, Within (2 ^ k) x) (hn : l.length ≤ 2 ^ F.p) (hlt : (l.length : ℚ) * 2 ^ k < 2 ^ F.emax) :
    Within (l.length * 2 ^ k) (SMA1.sumAll l) := by
  cases l with
  | nil => exact ⟨trivial, valid_of_fits _ _ le_rfl (by positivity) ⟨⟨0, 0, by simp, by simp⟩, 0, by simp⟩, by show |signed false 0| ≤ _; rw [signed_zero]; simp⟩
  | cons x xs =>
    show Within _ (xs.foldl (· + ·) x)
    have key : ∀ (ys : List (Ieee F)) (n : ℕ) (s : Ieee F), (∀ y ∈ ys, Within (2 ^ k) y) → Within (n * 2 ^ k) s → n + ys.length ≤ 2 ^ F.p → ((n + ys.length : ℕ) : ℚ) * 2 ^ k < 2 ^ F.emax →
        Within ((n + ys.length : ℕ) * 2 ^ k) (ys.foldl (· + ·) s) := by
      intro ys
      induction ys with
      | nil => intro n s _ h _ _; simpa using h
      | cons y ys ih =>
        intro n s h1 h2 h3 h4
        rw [List.length_cons] at h3 h4
        have e : (n : ℚ) * 2 ^ k + 2 ^ k = ((n + 1 : ℕ) : ℚ) * 2 ^ k := by push_cast; ring
        have hs : Within ((n + 1 : ℕ) * 2 ^ k) (s + y) := by
          rw [← e]
          refine add_within hp h2 (h1 y (by simp)) ?_ ?_
          · rw [e]; exact fits_multiple hp (n + 1) (by omega) k hk
          · rw [e]
            refine lt_of_le_of_lt (mul_le_mul_of_nonneg_right ?_ (by positivity)) h4
            exact_mod_cast (by omega : n + 1 ≤ n + (ys.length + 1))
        have := ih (n + 1) (s + y) (fun z hz => h1 z (by simp [hz])) hs (by omega) (by rw [show n + 1 + ys.length = n + (ys.length + 1) by omega]; exact h4)
        rw [show n + 1 + ys.length = n + (ys.length + 1) by omega] at this
        rw [List.foldl_cons, List.length_cons]
        exact this
    have := key xs 1 x (fun y hy => hl y (by simp [hy])) (by rw [Nat.cast_one, one_mul]; exact hl x (by simp)) (by rw [List.length_cons] at hn; omega) (by rw [List.length_cons] at hlt; rwa [Nat.add_comm 1])
    rw [Nat.add_comm 1] at this
    exact this

theorem tree_within (hp : 0 < F.p) (k : ℤ) (hk : F.emin ≤ k) (NUM : ℕ) (f : ℕ → Ieee F) (hf : ∀ i, NUM ≤ i → i < 2 * NUM → Within (2 ^ k) (f i)) (i : ℕ) (h1 : 1 ≤ i) (h2 : i < 2 * NUM)
    (hn : SWA.eval (· + ·) NUM (fun _ => 1) i ≤ 2 ^ F.p) (hlt : ((SWA.eval (· + ·) NUM (fun _ => 1) i : ℕ) : ℚ) * 2 ^ k < 2 ^ F.emax) :
    Within ((SWA.eval (· + ·) NUM (fun _ => 1) i : ℕ) * 2 ^ k) (SWA.eval (· + ·) NUM f i) := by
  by_cases h : i < NUM
  · rw [SWA.eval_node _ _ _ _ h1 h] at hn hlt ⊢
    rw [SWA.eval_node _ _ f _ h1 h]
    have hmono : ∀ a b : ℕ, ((a + b : ℕ) : ℚ) * 2 ^ k < 2 ^ F.emax → (a : ℚ) * 2 ^ k < 2 ^ F.emax ∧ (b : ℚ) * 2 ^ k < 2 ^ F.emax := by
      intro a b hab
      have hq : (0 : ℚ) < 2 ^ k := by positivity
      push_cast at hab
      have : (0 : ℚ) ≤ a := by positivity
      have : (0 : ℚ) ≤ b := by positivity
      constructor <;> nlinarith
    have hm := hmono _ _ hlt
    have i1 := tree_within hp k hk NUM f hf (2 * i) (by omega) (by omega) (by omega) hm.1
    have i2 := tree_within hp k hk NUM f hf (2 * i + 1) (by omega) (by omega) (by omega) hm.2
    push_cast at hlt ⊢
    rw [add_mul] at hlt ⊢
    refine add_within hp i1 i2 ?_ hlt
    rw [← add_mul, ← Nat.cast_add]
    exact fits_multiple hp _ hn k hk
  · rw [SWA.eval_leaf _ _ _ _ (by omega), SWA.eval_leaf _ _ _ _ (by omega), Nat.cast_one, one_mul]
    exact hf i (by omega) h2
termination_by 2 * NUM - i
decreasing_by all_goals omega

theorem count (NUM : ℕ) (hN : 0 < NUM) : SWA.eval (· + ·) NUM (fun _ => 1) 1 = NUM := by
  have key : ∀ m, 1 ≤ m → m ≤ NUM → SWA.eval (· + ·) NUM (fun _ => 1) 1 = ∑ i ∈ Finset.Ico m (2 * m), SWA.eval (· + ·) NUM (fun _ => 1) i := by
    intro m h1 h2
    induction m, h1 using Nat.le_induction with
    | base => simp
    | succ m hm ih =>
      rw [ih (by omega), Finset.sum_eq_sum_Ico_succ_bot (by omega), SWA.eval_node _ _ _ _ hm (by omega),
        show 2 * (m + 1) = 2 * m + 1 + 1 by ring, Finset.sum_Ico_succ_top (by omega),
        Finset.sum_Ico_succ_top (by omega)]
      ac_rfl
  rw [key NUM hN le_rfl, Finset.sum_congr rfl (fun i hi => SWA.eval_leaf _ _ _ _ (Finset.mem_Ico.mp hi).1), Finset.sum_const, Nat.card_Ico, smul_eq_mul, mul_one]
  omega

theorem div_within (u : Usual F) (k : ℤ) (hk : F.emin ≤ k) (NUM : ℕ) (hN : 0 < NUM) (hn : NUM < 2 ^ F.p) (hlt : (NUM : ℚ) * 2 ^ k < 2 ^ F.emax) (s : Ieee F) (hs : Within (NUM * 2 ^ k) s) :
    Within (2 ^ k) (s / ((NUM : ℤ) : Ieee F)) := by
  have hp : 0 < F.p := by have := u.p; omega
  have he0 : F.emin ≤ 0 := by have := u.emin; omega
  obtain ⟨d1, d2, d3⟩ := cast_exact hp he0 u.emax NUM (by rw [abs_of_nonneg (by omega)]; exact_mod_cast hn)
  rw [Int.cast_natCast] at d3
  have hN' : (0 : ℚ) < NUM := by exact_mod_cast hN
  have h0 : ((NUM : ℤ) : Ieee F).val ≠ 0 := by rw [d3]; exact hN'.ne'
  have hle : |roundTo F (s.val / ((NUM : ℤ) : Ieee F).val)| ≤ 2 ^ k := by
    rw [roundTo_abs hp]
    refine roundTo_le hp _ _ (fits_pow hp k hk) ?_
    rw [d3, abs_div, abs_of_pos hN', div_le_iff₀ hN', mul_comm]
    exact hs.2.2
  have hlt' : (2 : ℚ) ^ k < 2 ^ F.emax := by
    refine lt_of_le_of_lt (le_mul_of_one_le_left (by positivity) ?_) hlt
    exact_mod_cast hN
  have fin := (div_finite s _ hs.1 d1 h0).mpr (hle.trans_lt hlt')
  exact ⟨fin, div_valid hp _ _, by rw [div_val hp s _ hs.1 d1 hs.2.1 d2 fin h0]; exact hle⟩

theorem window_within (k : ℤ) (NUM n : ℕ) (h : List (Ieee F)) (hh : ∀ x ∈ h, Within (2 ^ k) x) : ∀ x ∈ ringOf NUM n (window NUM 0 h), Within (2 ^ k) x := by
  intro x hx
  rw [ringOf, List.mem_rotate] at hx
  have := List.mem_of_mem_drop hx
  rcases List.mem_append.mp this with hx | hx
  · rw [List.eq_of_mem_replicate hx]
    exact ⟨trivial, valid_of_fits _ _ le_rfl (by positivity) ⟨⟨0, 0, by simp, by simp⟩, 0, by simp⟩, by show |signed false 0| ≤ _; rw [signed_zero, abs_zero]; positivity⟩
  · exact hh x hx

/-- **C98** The moving average that sums its window anew. -/
theorem C98_sma1 (u : Usual F) (k : ℤ) (hk : F.emin ≤ k) (NUM : ℕ) (hN : 0 < NUM) (hn : NUM < 2 ^ F.p) (hlt : (NUM : ℚ) * 2 ^ k < 2 ^ F.emax) (xs : List (Ieee F)) (hx : ∀ x ∈ xs, Within (2 ^ k) x) :
    ∃ s ys, run (SMA1.call fun s => s / ((NUM : ℤ) : Ieee F)) (SMA1.init NUM) xs = .ok (s, ys) ∧ ys.length = xs.length ∧ ∀ y ∈ ys, Within (2 ^ k) y := by
  have hp : 0 < F.p := by have := u.p; omega
  obtain ⟨s, ys, h1, -, -, h2, h3⟩ := run_of_inv (step := SMA1.call fun s => s / ((NUM : ℤ) : Ieee F)) (fun s h => SMA1.After NUM s h ∧ ∀ x ∈ h, Within (2 ^ k) x) (fun _ y => Within (2 ^ k) y) (Within (2 ^ k))
    (fun s h x hs hx => by
      obtain ⟨s', e, ha⟩ := SMA1.after_call (fun s => s / ((NUM : ℤ) : Ieee F)) NUM hN s h x hs.1
      have hall : ∀ y ∈ h ++ [x], Within (2 ^ k) y := by
        intro y hy
        rcases List.mem_append.mp hy with hy | hy
        · exact hs.2 y hy
        · rw [List.mem_singleton.mp hy]; exact hx
      refine ⟨s', _, e, ⟨ha, hall⟩, ?_⟩
      have hlen : (ringOf NUM (h ++ [x]).length (window NUM 0 (h ++ [x]))).length = NUM := by rw [ringOf, List.length_rotate, window_length]
      have := sumAll_within hp k hk _ (window_within k NUM (h ++ [x]).length _ hall) (by rw [hlen]; exact hn.le) (by rw [hlen]; exact hlt)
      rw [hlen] at this
      exact div_within u k hk NUM hN hn hlt _ this) ⟨SMA1.after_init NUM hN, by simp⟩ xs hx
  refine ⟨s, ys, h1, h2, fun y hy => ?_⟩
  obtain ⟨i, hi, rfl⟩ := List.getElem_of_mem hy
  obtain ⟨y, e, h⟩ := h3 i (by omega)
  rw [List.getElem?_eq_getElem hi] at e
  rw [Option.some.inj e]
  exact h

/-- **C98** The moving average with a tree of sums. -/
theorem C98_sma4 (u : Usual F) (k : ℤ) (hk : F.emin ≤ k) (NUM : ℕ) (hN : 0 < NUM) (hn : NUM < 2 ^ F.p) (hlt : (NUM : ℚ) * 2 ^ k < 2 ^ F.emax) (xs : List (Ieee F)) (hx : ∀ x ∈ xs, Within (2 ^ k) x) :
    ∃ s ys, run (SMA4.call true fun s => s / ((NUM : ℤ) : Ieee F)) (SMA4.init NUM) xs = .ok (s, ys) ∧ ys.length = xs.length ∧ ∀ y ∈ ys, Within (2 ^ k) y := by
  have hp : 0 < F.p := by have := u.p; omega
  obtain ⟨s, ys, h1, -, -, h2, h3⟩ := run_of_inv (step := SMA4.call true fun s => s / ((NUM : ℤ) : Ieee F)) (fun s h => SMA4.After NUM s h ∧ ∀ x ∈ h, Within (2 ^ k) x) (fun _ y => Within (2 ^ k) y) (Within (2 ^ k))
    (fun s h x hs hx => by
      obtain ⟨s', e, ha⟩ := SMA4.after_call Ieee.add_comm true (fun s => s / ((NUM : ℤ) : Ieee F)) NUM hN s h x hs.1
      have hall : ∀ y ∈ h ++ [x], Within (2 ^ k) y := by
        intro y hy
        rcases List.mem_append.mp hy with hy | hy
        · exact hs.2 y hy
        · rw [List.mem_singleton.mp hy]; exact hx
      refine ⟨s', _, e, ⟨ha, hall⟩, ?_⟩
      have hlen : (ringOf NUM (h ++ [x]).length (window NUM 0 (h ++ [x]))).length = NUM := by rw [ringOf, List.length_rotate, window_length]
      have hw := window_within k NUM (h ++ [x]).length _ hall
      have hc := count NUM hN
      have := tree_within hp k hk NUM (fun i => (ringOf NUM (h ++ [x]).length (window NUM 0 (h ++ [x]))).getD (i - NUM) 0) (fun i h1 h2 => by
        show Within _ (List.getD _ _ _)
        rw [List.getD_eq_getElem?_getD, List.getElem?_eq_getElem (by rw [hlen]; omega)]
        exact hw _ (List.getElem_mem _)) 1 le_rfl (by omega) (by rw [hc]; exact hn.le) (by rw [hc]; exact hlt)
      rw [hc] at this
      exact div_within u k hk NUM hN hn hlt _ this) ⟨SMA4.after_init Ieee.zero_add_zero NUM hN, by simp⟩ xs hx
  refine ⟨s, ys, h1, h2, fun y hy => ?_⟩
  obtain ⟨i, hi, rfl⟩ := List.getElem_of_mem hy
  obtain ⟨y, e, h⟩ := h3 i (by omega)
  rw [List.getElem?_eq_getElem hi] at e
  rw [Option.some.inj e]
  exact h

/-- The samples of a format with up to 16 bits, scaled to [-1, 1], and windows of a million. -/
example (xs : List (Ieee Format.single)) (hx : ∀ x ∈ xs, Within (2 ^ (0 : ℤ)) x) :
    ∃ s ys, run (SMA4.call true fun s => s / (((1000000 : ℕ) : ℤ) : Ieee Format.single)) (SMA4.init 1000000) xs = .ok (s, ys) ∧ ys.length = xs.length ∧ ∀ y ∈ ys, Within (2 ^ (0 : ℤ)) y :=
  C98_sma4 usual_single 0 (by norm_num [Format.single]) 1000000 (by norm_num) (by norm_num [Format.single]) (by norm_num [Format.single]) xs hx

set_option maxRecDepth 100000 in
/-- The bound on the sum is needed: the average of two equal samples, which is that sample, overflows if their sum does. -/
theorem C98_overflow :
    (run (SMA1.call fun s => s / (((2 : ℕ) : ℤ) : Ieee Format.single)) (SMA1.init 2) [num false (2 ^ 127), num false (2 ^ 127)]).map Prod.snd = .ok [num false (2 ^ 126), inf false] ∧
    (run (SMA4.call true fun s => s / (((2 : ℕ) : ℤ) : Ieee Format.single)) (SMA4.init 2) [num false (2 ^ 127), num false (2 ^ 127)]).map Prod.snd = .ok [num false (2 ^ 126), inf false] := by
  decide +kernel

end Range
end DSP
