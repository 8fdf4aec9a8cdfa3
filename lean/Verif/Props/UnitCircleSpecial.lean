import Verif.Model.UnitCircleIeee
import Verif.Props.PhasorSpecial

/-!
# C134: the unit circle with the limits of the exponent
-/

namespace DSP

open Ieee Spec FFT Bridge

namespace UnitCircle

/-! ### Two arithmetics side by side -/

section
variable {V W : Type} [Neg V] [Mul V] [Div V] [IntCast V] [Neg W] [Mul W] [Div W] [IntCast W]

theorem chain_map (f : V → W) (n N : ℤ) (l : List (ℤ × M V)) (last : M V) : (chain n N l last).map f = chain n N (l.map fun e => (e.1, e.2.map f)) (last.map f) := by
  induction l with
  | nil => rfl
  | cons e l ih =>
    obtain ⟨c, e⟩ := e
    simp only [chain, List.map_cons, bind, Except.bind]
    cases int32 (8 * n) with
    | error => rfl
    | ok a =>
      cases int32 (c * N) with
      | error => rfl
      | ok b =>
        simp only
        split
        · rfl
        · exact ih

/-- Two kernels that a map takes to one another. -/
structure Follows (f : V → W) (K : Kernels V) (L : Kernels W) : Prop where
  neg : ∀ a, f (-a) = -f a
  mul : ∀ a b, f (a * b) = f a * f b
  div : ∀ a b, f (a / b) = f a / f b
  cast : ∀ n : ℤ, f (n : V) = (n : W)
  cosine : ∀ a, f (K.cosine a) = L.cosine (f a)
  sine : ∀ a, f (K.sine a) = L.sine (f a)
  twoPi : f K.twoPi = L.twoPi

theorem ev_map {f : V → W} {K : Kernels V} {L : Kernels W} (h : Follows f K L) (g : V → V) (g' : W → W) (hg : ∀ a, f (g a) = g' (f a)) (n N a b d : ℤ) : (ev K g n N a b d).map f = ev L g' n N a b d := by
  unfold ev
  simp only [bind, Except.bind]
  cases int32 (a * n) with
  | error => rfl
  | ok x =>
    cases int32 (b * N) with
    | error => rfl
    | ok y =>
      simp only
      cases int32 (x + y) with
      | error => rfl
      | ok s =>
        cases int32 (d * N) with
        | error => rfl
        | ok t =>
          simp only [rad]
          by_cases h0 : t = 0
          · simp only [if_pos h0]
            rfl
          · simp only [if_neg h0, pure, Except.pure, Except.map, hg, h.div, h.mul, h.cast, h.twoPi]

theorem cos_map {f : V → W} {K : Kernels V} {L : Kernels W} (h : Follows f K L) (n N : ℤ) : (cos K n N).map f = cos L n N := by
  have hc := ev_map h K.cosine L.cosine h.cosine n N
  have hs := ev_map h K.sine L.sine h.sine n N
  have hc' := ev_map h (fun r => -K.cosine r) (fun r => -L.cosine r) (fun a => by rw [h.neg, h.cosine]) n N
  have hs' := ev_map h (fun r => -K.sine r) (fun r => -L.sine r) (fun a => by rw [h.neg, h.sine]) n N
  unfold cos
  rw [chain_map]
  simp only [List.map_cons, List.map_nil, hc, hs, hc', hs']

theorem sin_map {f : V → W} {K : Kernels V} {L : Kernels W} (h : Follows f K L) (n N : ℤ) : (sin K n N).map f = sin L n N := by
  have hc := ev_map h K.cosine L.cosine h.cosine n N
  have hs := ev_map h K.sine L.sine h.sine n N
  have hc' := ev_map h (fun r => -K.cosine r) (fun r => -L.cosine r) (fun a => by rw [h.neg, h.cosine]) n N
  have hs' := ev_map h (fun r => -K.sine r) (fun r => -L.sine r) (fun a => by rw [h.neg, h.sine]) n N
  unfold sin
  rw [chain_map]
  simp only [List.map_cons, List.map_nil, hc, hs, hc', hs']

local instance pairCast : IntCast (V × W) := ⟨fun n => (n, n)⟩

/-- Both kernels at once. -/
def both (K : Kernels V) (L : Kernels W) : Kernels (V × W) := ⟨fun a => (K.cosine a.1, L.cosine a.2), fun a => (K.sine a.1, L.sine a.2), (K.twoPi, L.twoPi)⟩

theorem follows_fst (K : Kernels V) (L : Kernels W) : Follows Prod.fst (both K L) K := ⟨fun _ => rfl, fun _ _ => rfl, fun _ _ => rfl, fun _ => rfl, fun _ => rfl, fun _ => rfl, rfl⟩

theorem follows_snd (K : Kernels V) (L : Kernels W) : Follows Prod.snd (both K L) L := ⟨fun _ => rfl, fun _ _ => rfl, fun _ _ => rfl, fun _ => rfl, fun _ => rfl, fun _ => rfl, rfl⟩

/-- A relation that holds between the kernels at all reduced arguments holds between the results. -/
theorem related (K : Kernels V) (L : Kernels W) (R : V → W → Prop) (hneg : ∀ a b, R a b → R (-a) (-b))
    (hc : ∀ j J : ℤ, 1 ≤ J → J ≤ 2147483647 → -J ≤ 8 * j → 8 * j ≤ J → R (K.cosine (K.twoPi * (j : V) / (J : V))) (L.cosine (L.twoPi * (j : W) / (J : W))))
    (hs : ∀ j J : ℤ, 1 ≤ J → J ≤ 2147483647 → -J ≤ 8 * j → 8 * j ≤ J → R (K.sine (K.twoPi * (j : V) / (J : V))) (L.sine (L.twoPi * (j : W) / (J : W))))
    (n N : ℤ) (h1 : 1 ≤ N) (h2 : N ≤ 268435455) (h3 : -N ≤ n) (h4 : n ≤ N) :
    (∃ a b, cos K n N = .ok a ∧ cos L n N = .ok b ∧ R a b) ∧ ∃ a b, sin K n N = .ok a ∧ sin L n N = .ok b ∧ R a b := by
  have hflip : ∀ (neg : Bool) (a : V) (b : W), R a b → R (flip neg (a, b)).1 (flip neg (a, b)).2 := by
    intro neg a b h
    cases neg
    · exact h
    · exact hneg a b h
  have key : ∀ (r : M (V × W)) (v : ℝ), Reduced (both K L) r v → ∃ a b, r = .ok (a, b) ∧ R a b := by
    rintro r v ⟨neg, j, J, hJ, i1, i2, i3, ⟨h, -⟩ | ⟨h, -⟩⟩
    · exact ⟨_, _, h, hflip neg _ _ (hc j J hJ i3 i1 i2)⟩
    · exact ⟨_, _, h, hflip neg _ _ (hs j J hJ i3 i1 i2)⟩
  constructor
  · obtain ⟨a, b, e, h⟩ := key _ _ (cos_reduced (both K L) n N h1 h2 h3 h4)
    have e1 := cos_map (follows_fst K L) n N
    have e2 := cos_map (follows_snd K L) n N
    rw [e] at e1 e2
    exact ⟨a, b, e1.symm, e2.symm, h⟩
  · obtain ⟨a, b, e, h⟩ := key _ _ (sin_reduced (both K L) n N h1 h2 h3 h4)
    have e1 := sin_map (follows_fst K L) n N
    have e2 := sin_map (follows_snd K L) n N
    rw [e] at e1 e2
    exact ⟨a, b, e1.symm, e2.symm, h⟩

end

/-! ### The polynomials -/

variable {F : Format} [NeZero F.p]

/-- A format with enough room for the polynomials. -/
structure Deep (F : Format) : Prop where
  wide : Elementary.AtanIeee.Wide F
  low : F.emin + F.p ≤ -98
  high : 64 ≤ F.emax

theorem deep_single : Deep Format.single := ⟨Elementary.AtanIeee.wide_single, by decide, by decide⟩
theorem deep_double : Deep Format.double := ⟨Elementary.AtanIeee.wide_double, by decide, by decide⟩

section
variable (D : Deep F)
include D

omit [NeZero F.p] in
theorem clear_of_size {x : ℚ} (h : x = 0 ∨ 1 / 2 ^ 98 ≤ |x|) : Clear F x := by
  refine h.imp_right fun h => le_trans ?_ h
  have := D.low
  calc (2 : ℚ) ^ (F.emin + F.p - 1) ≤ 2 ^ (-98 : ℤ) := zpow_le_zpow_right₀ (by norm_num) (by omega)
    _ = _ := by norm_num

omit [NeZero F.p] in
theorem roof {x : ℚ} (h : |x| ≤ 2 ^ 60) : |(x : ℝ)| ≤ 2 ^ (F.emax - 1) := by
  have := D.high
  calc |(x : ℝ)| ≤ (2 : ℝ) ^ 60 := by exact_mod_cast h
    _ = 2 ^ (60 : ℤ) := by norm_num
    _ ≤ _ := zpow_le_zpow_right₀ (by norm_num) (by omega)

theorem same_mul {a b : Ieee F} {a' b' : Binary F.p} (ha : Same a a') (hb : Same b b') (h1 : a'.val * b'.val = 0 ∨ 1 / 2 ^ 98 ≤ |a'.val * b'.val|) (h2 : |a'.val * b'.val| ≤ 2 ^ 60) : Same (a * b) (a' * b') := by
  have U := NCO.usual_of_wide D.wide
  refine (ha.agree.mul hb.agree (clear_of_size D h1)) (good_mul U a b ⟨ha.1, ha.2.1⟩ ⟨hb.1, hb.2.1⟩ ?_).1.1
  have := roof D h2
  rw [ha.2.2, hb.2.2]
  push_cast at this
  exact this

theorem same_div {a b : Ieee F} {a' b' : Binary F.p} (ha : Same a a') (hb : Same b b') (h0 : b'.val ≠ 0) (h1 : a'.val / b'.val = 0 ∨ 1 / 2 ^ 98 ≤ |a'.val / b'.val|) (h2 : |a'.val / b'.val| ≤ 2 ^ 60) :
    Same (a / b) (a' / b') := by
  have U := NCO.usual_of_wide D.wide
  refine (ha.agree.div hb h0 (clear_of_size D h1)) (FMDRounded.good_div U a b ⟨ha.1, ha.2.1⟩ ⟨hb.1, hb.2.1⟩ (by rw [hb.2.2]; exact h0) ?_).1.1
  have := roof D h2
  rw [ha.2.2, hb.2.2]
  push_cast at this
  exact this

theorem same_add {a b : Ieee F} {a' b' : Binary F.p} (ha : Same a a') (hb : Same b b') (h2 : |a'.val + b'.val| ≤ 2 ^ 60) : Same (a + b) (a' + b') := by
  have U := NCO.usual_of_wide D.wide
  refine (ha.agree.add hb.agree) (good_add U a b ⟨ha.1, ha.2.1⟩ ⟨hb.1, hb.2.1⟩ ?_).1.1
  have := roof D h2
  rw [ha.2.2, hb.2.2]
  push_cast at this
  exact this

/-- The error of one rounding. -/
theorem round_close (x : ℚ) : |Binary.round F.p x - x| ≤ 1 / 1000000 * |x| := by
  have h := Binary.round_error F.p x
  have hu := NCO.unit_tiny D.wide
  have hu' : (1 : ℚ) / 2 ^ F.p ≤ 1 / 1000000 := by
    have : ((1 / 2 ^ F.p : ℚ) : ℝ) ≤ ((1 / 1000000 : ℚ) : ℝ) := by push_cast; exact hu
    exact_mod_cast this
  refine h.trans ?_
  rw [div_eq_mul_one_div, mul_comm]
  exact mul_le_mul_of_nonneg_right hu' (abs_nonneg _)

/-- A whole number. -/
theorem same_int (n : ℤ) (h : |n| ≤ 2147483647) : Same ((n : ℤ) : Ieee F) ((n : ℤ) : Binary F.p) := by
  have U := NCO.usual_of_wide D.wide
  have hp : 0 < F.p := by have := U.p; omega
  have hq : |(n : ℚ)| ≤ 2147483647 := by exact_mod_cast h
  have c : Clear F (n : ℚ) := clear_of_size D (by
    by_cases h0 : n = 0
    · exact .inl (by rw [h0]; rfl)
    · right
      have h1 : (1 : ℤ) ≤ |n| := Int.one_le_abs h0
      have h2 : (1 : ℚ) ≤ |(n : ℚ)| := by exact_mod_cast h1
      exact le_trans (by norm_num) h2)
  have hr := (round_range U (n : ℚ) (roof D (hq.trans (by norm_num)))).1
  have hf : ((n : ℤ) : Ieee F).Finite := (pack_finite _ _).mpr hr
  refine ⟨hf, pack_valid hp _ _, ?_⟩
  show (pack (decide (n < 0)) (n : ℚ) : Ieee F).val = Binary.round F.p n
  have e : decide (n < 0) = decide ((n : ℚ) < 0) := by simp
  rw [e] 
  have hf' : (pack (decide ((n : ℚ) < 0)) (n : ℚ) : Ieee F).Finite := by rw [← e]; exact hf
  rw [pack_val hp _ _ hf', signed_decide, clear_round c]

/-- A constant. -/
theorem same_literal (b : Binary F.p) (h1 : 1 / 2 ^ 60 ≤ |b.val|) (h2 : |b.val| ≤ 4096) : Same (Ieee.literal b.val : Ieee F) b := Elementary.AtanIeee.is_literal D.wide b h1 h2

/-- The same number, of the size of a constant. -/
def Near (κ : ℚ) (a : Ieee F) (b : Binary F.p) : Prop := Same a b ∧ κ / 2 ≤ |b.val| ∧ |b.val| ≤ 3 / 2 * κ

/-- A constant and its size. -/
def Const (κ : ℚ) (a : Ieee F) (b : Binary F.p) : Prop := Same a b ∧ 99 / 100 * κ ≤ |b.val| ∧ |b.val| ≤ 101 / 100 * κ

theorem const_of (x : ℚ) (l : ℕ) (hl : F.p ≤ l) (h1 : 1 / 2 ^ 38 ≤ |x|) (h2 : |x| ≤ 100) : Const |x| (Ieee.literal (Binary.literal l F.p x).val : Ieee F) (Binary.literal l F.p x) := by
  obtain ⟨a, b⟩ := Elementary.AtanIeee.literal_between l F.p D.wide.p hl x _ _ le_rfl le_rfl
  have h : |(Binary.literal l F.p x).val - x| ≤ |x| / 524288 := abs_le.mpr ⟨by linarith, by linarith⟩
  have e1 := abs_sub_abs_le_abs_sub (Binary.literal l F.p x).val x
  have e2 := abs_sub_abs_le_abs_sub x (Binary.literal l F.p x).val
  rw [abs_sub_comm x] at e2
  refine ⟨same_literal D _ ?_ ?_, by linarith, by linarith⟩
  · have : (1 : ℚ) / 2 ^ 60 ≤ 99 / 100 * (1 / 2 ^ 38) := by norm_num
    linarith
  · linarith

/-- One step of a polynomial. -/
theorem Near.step {κ κ' : ℚ} {x v c : Ieee F} {x' v' c' : Binary F.p} (hx : Same x x') (x0 : 0 ≤ x'.val) (x1 : x'.val ≤ 7 / 10) (xs : x'.val = 0 ∨ 1 / 2 ^ 58 ≤ x'.val) (hv : Near κ v v') (hc : Const κ' c c')
    (hk : 1 / 2 ^ 38 ≤ κ) (hk' : κ ≤ 17 / 100 * κ') (hu : κ' ≤ 100) : Near κ' (x * v + c) (x' * v' + c') := by
  obtain ⟨sv, v1, v2⟩ := hv
  obtain ⟨sc, c1, c2⟩ := hc
  have b1 : |x'.val * v'.val| ≤ 105 / 100 * κ := by
    rw [abs_mul, abs_of_nonneg x0]
    calc x'.val * |v'.val| ≤ 7 / 10 * (3 / 2 * κ) := mul_le_mul x1 v2 (abs_nonneg _) (by norm_num)
      _ = _ := by ring
  have s1 : Same (x * v) (x' * v') := same_mul D hx sv (by
    rcases xs with h | h
    · left; rw [h, zero_mul]
    · right
      rw [abs_mul, abs_of_nonneg x0]
      calc (1 : ℚ) / 2 ^ 98 ≤ 1 / 2 ^ 58 * (1 / 2 ^ 38 / 2) := by norm_num
        _ ≤ _ := mul_le_mul h (by linarith) (by norm_num) x0) (by
    calc _ ≤ 105 / 100 * κ := b1
      _ ≤ 2 ^ 60 := by linarith)
  have e1 : (x' * v').val = Binary.round F.p (x'.val * v'.val) := rfl
  have r1 := round_close D (x'.val * v'.val)
  rw [← e1] at r1
  have b2 : |(x' * v').val| ≤ 106 / 100 * κ := by
    have := abs_sub_abs_le_abs_sub (x' * v').val (x'.val * v'.val)
    linarith
  have s2 : Same (x * v + c) (x' * v' + c') := same_add D s1 sc (by
    have := abs_add_le (x' * v').val c'.val
    linarith)
  have e2 : (x' * v' + c').val = Binary.round F.p ((x' * v').val + c'.val) := rfl
  have r2 := round_close D ((x' * v').val + c'.val)
  rw [← e2] at r2
  have t1 := abs_add_le (x' * v').val c'.val
  have t2 : |c'.val| - |(x' * v').val| ≤ |(x' * v').val + c'.val| := by
    have := abs_sub_abs_le_abs_sub c'.val (-(x' * v').val)
    rw [abs_neg, sub_neg_eq_add, add_comm c'.val] at this
    exact this
  have t3 := abs_sub_abs_le_abs_sub (x' * v' + c').val ((x' * v').val + c'.val)
  have t4 := abs_sub_abs_le_abs_sub ((x' * v').val + c'.val) (x' * v' + c').val
  rw [abs_sub_comm ((x' * v').val + c'.val)] at t4
  exact ⟨s2, by linarith, by linarith⟩

omit [NeZero F.p] D in
theorem Const.near [NeZero F.p] {κ : ℚ} {a : Ieee F} {b : Binary F.p} (h : Const κ a b) (hk : 0 ≤ κ) : Near κ a b := ⟨h.1, by linarith [h.2.1], by linarith [h.2.2]⟩

/-- The reduced argument. -/
theorem rad_same (l : ℕ) (hl : F.p ≤ l) (j J : ℤ) (h1 : 1 ≤ J) (h2 : J ≤ 2147483647) (h3 : -J ≤ 8 * j) (h4 : 8 * j ≤ J) :
    Same ((Coeffs.ieee l F).twoPi * (j : Ieee F) / (J : Ieee F)) ((Coeffs.binary l F.p).twoPi * (j : Binary F.p) / (J : Binary F.p)) ∧
    |((Coeffs.binary l F.p).twoPi * (j : Binary F.p) / (J : Binary F.p)).val| ≤ 8 / 10 ∧
    (((Coeffs.binary l F.p).twoPi * (j : Binary F.p) / (J : Binary F.p)).val = 0 ∨ 1 / 2 ^ 29 ≤ |((Coeffs.binary l F.p).twoPi * (j : Binary F.p) / (J : Binary F.p)).val|) := by
  have hτ : Const |Coeffs.decimal.twoPi| (Coeffs.ieee l F).twoPi (Coeffs.binary l F.p).twoPi := const_of D Coeffs.decimal.twoPi l hl (by norm_num [Coeffs.decimal, abs_of_pos]) (by norm_num [Coeffs.decimal, abs_of_pos])
  obtain ⟨lo, hi⟩ := Elementary.AtanIeee.literal_between l F.p D.wide.p hl Coeffs.decimal.twoPi 6.283 6.2833 (by norm_num [Coeffs.decimal, abs_of_pos]) (by norm_num [Coeffs.decimal, abs_of_pos])
  have sτ := hτ.1
  have eτ : (Coeffs.binary l F.p).twoPi = Binary.literal l F.p Coeffs.decimal.twoPi := rfl
  rw [← eτ] at lo hi
  generalize (Coeffs.binary l F.p).twoPi = τ' at *
  generalize (Coeffs.ieee l F).twoPi = τ at *
  have sj : Same (j : Ieee F) (j : Binary F.p) := same_int D j (by rw [abs_le]; constructor <;> omega)
  have sJ : Same (J : Ieee F) (J : Binary F.p) := same_int D J (by rw [abs_le]; constructor <;> omega)
  have ej : ((j : ℤ) : Binary F.p).val = Binary.round F.p j := rfl
  have eJ : ((J : ℤ) : Binary F.p).val = Binary.round F.p J := rfl
  have rj := round_close D (j : ℚ)
  have rJ := round_close D (J : ℚ)
  rw [← ej] at rj
  rw [← eJ] at rJ
  generalize ((j : ℤ) : Binary F.p) = j' at *
  generalize ((j : ℤ) : Ieee F) = ji at *
  generalize ((J : ℤ) : Binary F.p) = J' at *
  generalize ((J : ℤ) : Ieee F) = Ji at *
  have hJ : (1 : ℚ) ≤ J := by exact_mod_cast h1
  have hJ2 : (J : ℚ) ≤ 2147483647 := by exact_mod_cast h2
  have hj : 8 * |(j : ℚ)| ≤ J := by
    have : |8 * j| ≤ J := abs_le.mpr ⟨h3, h4⟩
    rw [abs_mul] at this
    have h : (8 : ℤ) * |j| ≤ J := by simpa using this
    exact_mod_cast h
  rw [abs_of_pos (by linarith : (0 : ℚ) < J)] at rJ
  obtain ⟨J1, J2⟩ := abs_le.mp rJ
  have J0 : 0 < J'.val := by linarith
  have aj1 := abs_sub_abs_le_abs_sub j'.val (j : ℚ)
  have aj2 := abs_sub_abs_le_abs_sub (j : ℚ) j'.val
  rw [abs_sub_comm (j : ℚ)] at aj2
  have τ0 : 0 < τ'.val := by linarith
  have hm : |τ'.val * j'.val| = τ'.val * |j'.val| := by rw [abs_mul, abs_of_pos τ0]
  have m1 : |τ'.val * j'.val| ≤ 6.2834 * |(j : ℚ)| := by
    rw [hm]
    have h0 : 0 ≤ |(j : ℚ)| := abs_nonneg _
    calc τ'.val * |j'.val| ≤ 6.2833 * (1.000001 * |(j : ℚ)|) := mul_le_mul hi (by linarith) (abs_nonneg _) (by norm_num)
      _ ≤ _ := by linarith
  have m2 : 6.2829 * |(j : ℚ)| ≤ |τ'.val * j'.val| := by
    rw [hm]
    have h0 : 0 ≤ |(j : ℚ)| := abs_nonneg _
    calc _ ≤ 6.283 * (0.999999 * |(j : ℚ)|) := by linarith
      _ ≤ _ := mul_le_mul lo (by linarith) (by positivity) τ0.le
  have jz : (j : ℚ) = 0 ∨ 1 ≤ |(j : ℚ)| := by
    by_cases h0 : j = 0
    · exact .inl (by rw [h0]; rfl)
    · right
      have h : (1 : ℤ) ≤ |j| := Int.one_le_abs h0
      exact_mod_cast h
  have sm : Same (τ * ji) (τ' * j') := same_mul D sτ sj (by
    rcases jz with h | h
    · left
      rw [h, abs_zero, mul_zero] at m1
      exact abs_nonpos_iff.mp m1
    · right
      have : (1 : ℚ) / 2 ^ 98 ≤ 1 := by norm_num
      linarith) (by linarith)
  have em : (τ' * j').val = Binary.round F.p (τ'.val * j'.val) := rfl
  have rm := round_close D (τ'.val * j'.val)
  rw [← em] at rm
  have am1 := abs_sub_abs_le_abs_sub (τ' * j').val (τ'.val * j'.val)
  have am2 := abs_sub_abs_le_abs_sub (τ'.val * j'.val) (τ' * j').val
  rw [abs_sub_comm (τ'.val * j'.val)] at am2
  have n1 : |(τ' * j').val| ≤ 6.2835 * |(j : ℚ)| := by linarith [abs_nonneg (j : ℚ)]
  have n2 : 6.2828 * |(j : ℚ)| ≤ |(τ' * j').val| := by linarith [abs_nonneg (j : ℚ)]
  generalize τ' * j' = m' at *
  generalize τ * ji = m at *
  have q1 : |m'.val / J'.val| ≤ 0.79 := by
    rw [abs_div, abs_of_pos J0, div_le_iff₀ J0]
    linarith
  have q2 : (j : ℚ) = 0 ∨ 1.0001 / 2 ^ 29 ≤ |m'.val / J'.val| := by
    refine jz.imp_right fun h => ?_
    rw [abs_div, abs_of_pos J0, le_div_iff₀ J0]
    have : J'.val ≤ 2147490000 := by linarith
    have : (1.0001 : ℚ) / 2 ^ 29 * J'.val ≤ 1.0001 / 2 ^ 29 * 2147490000 := by gcongr
    norm_num at this
    linarith
  have mz : (j : ℚ) = 0 → m'.val = 0 := by
    intro h
    rw [h, abs_zero, mul_zero] at n1
    exact abs_nonpos_iff.mp n1
  have sq : Same (m / Ji) (m' / J') := same_div D sm sJ J0.ne' (by
    rcases q2 with h | h
    · left; rw [mz h, zero_div]
    · right; exact le_trans (by norm_num) h) (by linarith)
  have eq : (m' / J').val = Binary.round F.p (m'.val / J'.val) := rfl
  have rq := round_close D (m'.val / J'.val)
  rw [← eq] at rq
  have aq1 := abs_sub_abs_le_abs_sub (m' / J').val (m'.val / J'.val)
  have aq2 := abs_sub_abs_le_abs_sub (m'.val / J'.val) (m' / J').val
  rw [abs_sub_comm (m'.val / J'.val)] at aq2
  refine ⟨sq, by linarith, ?_⟩
  rcases q2 with h | h
  · left
    have z : m'.val / J'.val = 0 := by rw [mz h, zero_div]
    rw [z, abs_zero, mul_zero, sub_zero] at rq
    exact abs_nonpos_iff.mp rq
  · right
    norm_num at h ⊢
    linarith

/-- The square of the argument. -/
theorem square_same {x : Ieee F} {x' : Binary F.p} (hx : Same x x') (h1 : |x'.val| ≤ 8 / 10) (h2 : x'.val = 0 ∨ 1 / 2 ^ 29 ≤ |x'.val|) :
    Same (x * x) (x' * x') ∧ 0 ≤ (x' * x').val ∧ (x' * x').val ≤ 7 / 10 ∧ ((x' * x').val = 0 ∨ 1 / 2 ^ 58 ≤ (x' * x').val) := by
  have e : x'.val * x'.val = |x'.val| * |x'.val| := (abs_mul_abs_self _).symm
  have a0 := abs_nonneg x'.val
  have b1 : x'.val * x'.val ≤ 64 / 100 := by rw [e]; nlinarith
  have b0 := mul_self_nonneg x'.val
  have b2 : x'.val = 0 ∨ 1 / 2 ^ 58 ≤ x'.val * x'.val := h2.imp_right fun h => by
    rw [e]
    calc (1 : ℚ) / 2 ^ 58 = 1 / 2 ^ 29 * (1 / 2 ^ 29) := by norm_num
      _ ≤ _ := mul_le_mul h h (by norm_num) a0
  have s := same_mul D hx hx (by
    rcases b2 with h | h
    · left; rw [h, zero_mul]
    · right; rw [abs_of_nonneg b0]; exact le_trans (by norm_num) h) (by rw [abs_of_nonneg b0]; linarith)
  have eq : (x' * x').val = Binary.round F.p (x'.val * x'.val) := rfl
  have r := round_close D (x'.val * x'.val)
  rw [← eq, abs_of_nonneg b0] at r
  obtain ⟨r1, r2⟩ := abs_le.mp r
  refine ⟨s, by linarith, by linarith, ?_⟩
  rcases b2 with h | h
  · left
    rw [h, zero_mul, mul_zero, sub_zero, abs_nonpos_iff] at r
    exact r
  · right
    rw [eq]
    have := Binary.round_mono F.p D.wide.pos _ _ h
    rwa [Binary.round_of_representable F.p _ ⟨1, -58, by rw [abs_one]; exact one_lt_pow₀ (by norm_num) (NeZero.ne _), by norm_num⟩] at this

/-- The last step of the cosine. -/
theorem last_cosine {x v c : Ieee F} {x' v' c' : Binary F.p} (hx : Same x x') (x0 : 0 ≤ x'.val) (x1 : x'.val ≤ 7 / 10) (xs : x'.val = 0 ∨ 1 / 2 ^ 58 ≤ x'.val) (hv : Near (1 / 2) v v') (hc : Const 1 c c') : Same (c + x * v) (c' + x' * v') := by
  obtain ⟨sv, v1, v2⟩ := hv
  obtain ⟨sc, c1, c2⟩ := hc
  have b1 : |x'.val * v'.val| ≤ 1 := by
    rw [abs_mul, abs_of_nonneg x0]
    calc x'.val * |v'.val| ≤ 7 / 10 * (3 / 2 * (1 / 2)) := mul_le_mul x1 v2 (abs_nonneg _) (by norm_num)
      _ ≤ _ := by norm_num
  have s1 : Same (x * v) (x' * v') := same_mul D hx sv (by
    rcases xs with h | h
    · left; rw [h, zero_mul]
    · right
      rw [abs_mul, abs_of_nonneg x0]
      calc (1 : ℚ) / 2 ^ 98 ≤ 1 / 2 ^ 58 * (1 / 2 / 2) := by norm_num
        _ ≤ _ := mul_le_mul h v1 (by norm_num) x0) (b1.trans (by norm_num))
  have e1 : (x' * v').val = Binary.round F.p (x'.val * v'.val) := rfl
  have r1 := round_close D (x'.val * v'.val)
  rw [← e1] at r1
  have b2 := abs_sub_abs_le_abs_sub (x' * v').val (x'.val * v'.val)
  refine same_add D sc s1 ((abs_add_le _ _).trans ?_)
  linarith

/-- The last step of the sine. -/
theorem last_sine {x v : Ieee F} {x' v' : Binary F.p} (hx : Same x x') (x1 : |x'.val| ≤ 8 / 10) (xs : x'.val = 0 ∨ 1 / 2 ^ 29 ≤ |x'.val|) (hv : Near 1 v v') : Same (x * v) (x' * v') := by
  obtain ⟨sv, v1, v2⟩ := hv
  refine same_mul D hx sv ?_ ?_
  · rcases xs with h | h
    · left; rw [h, zero_mul]
    · right
      rw [abs_mul]
      calc (1 : ℚ) / 2 ^ 98 ≤ 1 / 2 ^ 29 * (1 / 2) := by norm_num
        _ ≤ _ := mul_le_mul h v1 (by norm_num) (abs_nonneg _)
  · rw [abs_mul]
    calc |x'.val| * |v'.val| ≤ 8 / 10 * (3 / 2 * 1) := mul_le_mul x1 v2 (abs_nonneg _) (by norm_num)
      _ ≤ _ := by norm_num

theorem cosine_same (l : ℕ) (hp' : F.p ≤ 53) {x : Ieee F} {x' : Binary F.p} (hx : Same x x') (h1 : |x'.val| ≤ 8 / 10) (h2 : x'.val = 0 ∨ 1 / 2 ^ 29 ≤ |x'.val|) :
    Same (cosineApprox (Coeffs.ieee l F) x) (cosineApprox (Coeffs.binary l F.p) x') := by
  obtain ⟨sx, x0, x1, xs⟩ := square_same D hx h1 h2
  have C : ∀ q : ℚ, 1 / 2 ^ 38 ≤ |q| → |q| ≤ 100 → Const |q| (Ieee.literal (Binary.literal 53 F.p q).val : Ieee F) (Binary.literal 53 F.p q) := fun q h h' => const_of D q 53 hp' h h'
  have c1 := C Coeffs.decimal.a1 (by norm_num [Coeffs.decimal]) (by norm_num [Coeffs.decimal])
  have c2 := C Coeffs.decimal.a2 (by norm_num [Coeffs.decimal, abs_of_neg]) (by norm_num [Coeffs.decimal, abs_of_neg])
  have c4 := C Coeffs.decimal.a4 (by norm_num [Coeffs.decimal, abs_of_pos]) (by norm_num [Coeffs.decimal, abs_of_pos])
  have c6 := C Coeffs.decimal.a6 (by norm_num [Coeffs.decimal, abs_of_neg]) (by norm_num [Coeffs.decimal, abs_of_neg])
  have c8 := C Coeffs.decimal.a8 (by norm_num [Coeffs.decimal, abs_of_pos]) (by norm_num [Coeffs.decimal, abs_of_pos])
  have c10 := C Coeffs.decimal.a10 (by norm_num [Coeffs.decimal, abs_of_neg]) (by norm_num [Coeffs.decimal, abs_of_neg])
  have c12 := C Coeffs.decimal.a12 (by norm_num [Coeffs.decimal, abs_of_pos]) (by norm_num [Coeffs.decimal, abs_of_pos])
  have c14 := C Coeffs.decimal.a14 (by norm_num [Coeffs.decimal, abs_of_neg]) (by norm_num [Coeffs.decimal, abs_of_neg])
  have n0 := c14.near (abs_nonneg _)
  have n1 := n0.step D sx x0 x1 xs c12 (by norm_num [Coeffs.decimal, abs_of_neg]) (by norm_num [Coeffs.decimal, abs_of_neg, abs_of_pos]) (by norm_num [Coeffs.decimal, abs_of_pos])
  have n2 := n1.step D sx x0 x1 xs c10 (by norm_num [Coeffs.decimal, abs_of_pos]) (by norm_num [Coeffs.decimal, abs_of_neg, abs_of_pos]) (by norm_num [Coeffs.decimal, abs_of_neg])
  have n3 := n2.step D sx x0 x1 xs c8 (by norm_num [Coeffs.decimal, abs_of_neg]) (by norm_num [Coeffs.decimal, abs_of_neg, abs_of_pos]) (by norm_num [Coeffs.decimal, abs_of_pos])
  have n4 := n3.step D sx x0 x1 xs c6 (by norm_num [Coeffs.decimal, abs_of_pos]) (by norm_num [Coeffs.decimal, abs_of_neg, abs_of_pos]) (by norm_num [Coeffs.decimal, abs_of_neg])
  have n5 := n4.step D sx x0 x1 xs c4 (by norm_num [Coeffs.decimal, abs_of_neg]) (by norm_num [Coeffs.decimal, abs_of_neg, abs_of_pos]) (by norm_num [Coeffs.decimal, abs_of_pos])
  have n6 := n5.step D sx x0 x1 xs c2 (by norm_num [Coeffs.decimal, abs_of_pos]) (by norm_num [Coeffs.decimal, abs_of_neg, abs_of_pos]) (by norm_num [Coeffs.decimal, abs_of_neg])
  have k2 : |Coeffs.decimal.a2| = 1 / 2 := by norm_num [Coeffs.decimal, abs_of_neg]
  have k1 : |Coeffs.decimal.a1| = 1 := by norm_num [Coeffs.decimal]
  rw [k2] at n6
  rw [k1] at c1
  exact last_cosine D sx x0 x1 xs n6 c1

theorem sine_same (l : ℕ) (hp' : F.p ≤ 53) {x : Ieee F} {x' : Binary F.p} (hx : Same x x') (h1 : |x'.val| ≤ 8 / 10) (h2 : x'.val = 0 ∨ 1 / 2 ^ 29 ≤ |x'.val|) :
    Same (sineApprox (Coeffs.ieee l F) x) (sineApprox (Coeffs.binary l F.p) x') := by
  obtain ⟨sx, x0, x1, xs⟩ := square_same D hx h1 h2
  have C : ∀ q : ℚ, 1 / 2 ^ 38 ≤ |q| → |q| ≤ 100 → Const |q| (Ieee.literal (Binary.literal 53 F.p q).val : Ieee F) (Binary.literal 53 F.p q) := fun q h h' => const_of D q 53 hp' h h'
  have c1 := C Coeffs.decimal.a1 (by norm_num [Coeffs.decimal]) (by norm_num [Coeffs.decimal])
  have c3 := C Coeffs.decimal.a3 (by norm_num [Coeffs.decimal, abs_of_neg]) (by norm_num [Coeffs.decimal, abs_of_neg])
  have c5 := C Coeffs.decimal.a5 (by norm_num [Coeffs.decimal, abs_of_pos]) (by norm_num [Coeffs.decimal, abs_of_pos])
  have c7 := C Coeffs.decimal.a7 (by norm_num [Coeffs.decimal, abs_of_neg]) (by norm_num [Coeffs.decimal, abs_of_neg])
  have c9 := C Coeffs.decimal.a9 (by norm_num [Coeffs.decimal, abs_of_pos]) (by norm_num [Coeffs.decimal, abs_of_pos])
  have c11 := C Coeffs.decimal.a11 (by norm_num [Coeffs.decimal, abs_of_neg]) (by norm_num [Coeffs.decimal, abs_of_neg])
  have c13 := C Coeffs.decimal.a13 (by norm_num [Coeffs.decimal, abs_of_pos]) (by norm_num [Coeffs.decimal, abs_of_pos])
  have n0 := c13.near (abs_nonneg _)
  have n1 := n0.step D sx x0 x1 xs c11 (by norm_num [Coeffs.decimal, abs_of_neg, abs_of_pos]) (by norm_num [Coeffs.decimal, abs_of_neg, abs_of_pos]) (by norm_num [Coeffs.decimal, abs_of_neg, abs_of_pos])
  have n2 := n1.step D sx x0 x1 xs c9 (by norm_num [Coeffs.decimal, abs_of_neg, abs_of_pos]) (by norm_num [Coeffs.decimal, abs_of_neg, abs_of_pos]) (by norm_num [Coeffs.decimal, abs_of_neg, abs_of_pos])
  have n3 := n2.step D sx x0 x1 xs c7 (by norm_num [Coeffs.decimal, abs_of_neg, abs_of_pos]) (by norm_num [Coeffs.decimal, abs_of_neg, abs_of_pos]) (by norm_num [Coeffs.decimal, abs_of_neg, abs_of_pos])
  have n4 := n3.step D sx x0 x1 xs c5 (by norm_num [Coeffs.decimal, abs_of_neg, abs_of_pos]) (by norm_num [Coeffs.decimal, abs_of_neg, abs_of_pos]) (by norm_num [Coeffs.decimal, abs_of_neg, abs_of_pos])
  have n5 := n4.step D sx x0 x1 xs c3 (by norm_num [Coeffs.decimal, abs_of_neg, abs_of_pos]) (by norm_num [Coeffs.decimal, abs_of_neg, abs_of_pos]) (by norm_num [Coeffs.decimal, abs_of_neg, abs_of_pos])
  have n6 := n5.step D sx x0 x1 xs c1 (by norm_num [Coeffs.decimal, abs_of_neg, abs_of_pos]) (by norm_num [Coeffs.decimal, abs_of_neg, abs_of_pos]) (by norm_num [Coeffs.decimal, abs_of_neg, abs_of_pos])
  have k1 : |Coeffs.decimal.a1| = 1 := by norm_num [Coeffs.decimal]
  rw [k1] at n6
  exact last_sine D hx h1 h2 n6

/-- Both arithmetics give the same numbers. -/
theorem results_same (l : ℕ) (hp : F.p ≤ 53) (hl : F.p ≤ l) (n N : ℤ) (h1 : 1 ≤ N) (h2 : N ≤ 268435455) (h3 : -N ≤ n) (h4 : n ≤ N) :
    (∃ a b, cos (Kernels.of (Coeffs.ieee l F)) n N = .ok a ∧ cos (Kernels.of (Coeffs.binary l F.p)) n N = .ok b ∧ Same a b) ∧
      ∃ a b, sin (Kernels.of (Coeffs.ieee l F)) n N = .ok a ∧ sin (Kernels.of (Coeffs.binary l F.p)) n N = .ok b ∧ Same a b := by
  refine related _ _ Same ?_ ?_ ?_ n N h1 h2 h3 h4
  · intro a b h
    exact h.agree.neg (neg_finite a h.1)
  · intro j J i1 i2 i3 i4
    obtain ⟨s, b1, b2⟩ := rad_same D l hl j J i1 i2 i3 i4
    exact cosine_same D l hp s b1 b2
  · intro j J i1 i2 i3 i4
    obtain ⟨s, b1, b2⟩ := rad_same D l hl j J i1 i2 i3 i4
    exact sine_same D l hp s b1 b2

/-- **C134** In IEEE arithmetic, with overflow and underflow, the cosine and the sine of `n / N` of a turn are finite numbers of the format, within `9` units of the true values and within `13` units times
the true values. -/
theorem C134_accurate (l : ℕ) (hp : F.p ≤ 53) (hl : F.p ≤ l) (n N : ℤ) (h1 : 1 ≤ N) (h2 : N ≤ 268435455) (h3 : -N ≤ n) (h4 : n ≤ N) :
    (∃ a, cos (Kernels.of (Coeffs.ieee l F)) n N = .ok a ∧ a.Finite ∧ a.Valid ∧ |(a.val : ℝ) - Real.cos (2 * Real.pi * n / N)| ≤ 9 / 2 ^ F.p ∧
      |(a.val : ℝ) - Real.cos (2 * Real.pi * n / N)| ≤ 13 / 2 ^ F.p * |Real.cos (2 * Real.pi * n / N)|) ∧
    ∃ a, sin (Kernels.of (Coeffs.ieee l F)) n N = .ok a ∧ a.Finite ∧ a.Valid ∧ |(a.val : ℝ) - Real.sin (2 * Real.pi * n / N)| ≤ 9 / 2 ^ F.p ∧
      |(a.val : ℝ) - Real.sin (2 * Real.pi * n / N)| ≤ 13 / 2 ^ F.p * |Real.sin (2 * Real.pi * n / N)| := by
  have h10 : 10 ≤ F.p := by have := D.wide.p; omega
  obtain ⟨⟨a, b, e1, e2, s⟩, ⟨a', b', e1', e2', s'⟩⟩ := results_same D l hp hl n N h1 h2 h3 h4
  obtain ⟨⟨c, f1, g1⟩, ⟨c', f1', g1'⟩⟩ := C68_binary l F.p h10 hp hl n N h1 h2 h3 h4
  obtain ⟨⟨d, f2, g2⟩, ⟨d', f2', g2'⟩⟩ := C84_binary l F.p h10 hp hl n N h1 h2 h3 h4
  rw [e2] at f1 f2
  rw [e2'] at f1' f2'
  cases f1; cases f2; cases f1'; cases f2'
  exact ⟨⟨a, e1, s.1, s.2.1, by rw [s.2.2]; exact g1, by rw [s.2.2]; exact g2⟩, a', e1', s'.1, s'.2.1, by rw [s'.2.2]; exact g1', by rw [s'.2.2]; exact g2'⟩

/-- A number of the format as a constant is that number. -/
theorem literal_same {a : Ieee F} {b : Binary F.p} (h : Same a b) : (Ieee.literal b.val : Ieee F).val = a.val := by
  have hp : 0 < F.p := by have := D.wide.p; omega
  obtain ⟨hf, hv, e⟩ := h
  rw [← e]
  have r : roundTo F a.val = a.val := roundTo_of_fits hp _ (valid_fits hv)
  have f : (Ieee.literal a.val : Ieee F).Finite := (pack_finite _ _).mpr (by rw [r]; exact val_lt hv)
  show (pack (decide (a.val < 0)) a.val : Ieee F).val = _
  rw [pack_val hp _ _ f, signed_decide, r]

/-- **C134** (transform). The factors that C114 and C117 use for the transforms, made without limits of the exponent, are the numbers that the code computes. -/
theorem C134_factors (l : ℕ) (hp : F.p ≤ 53) (hl : F.p ≤ l) (n N : ℕ) (h1 : 1 ≤ N) (h2 : N ≤ 268435455) (h4 : n ≤ N) :
    (∃ a, cos (Kernels.of (Coeffs.ieee l F)) n N = .ok a ∧ ((FFT.Trig.ieee l F).cos n N).val = a.val) ∧
      ∃ a, sin (Kernels.of (Coeffs.ieee l F)) n N = .ok a ∧ ((FFT.Trig.ieee l F).sin n N).val = a.val := by
  obtain ⟨⟨a, b, e1, e2, s⟩, ⟨a', b', e1', e2', s'⟩⟩ := results_same D l hp hl n N (by omega) (by omega) (by omega) (by omega)
  refine ⟨⟨a, e1, ?_⟩, a', e1', ?_⟩
  · show (Ieee.literal (FFT.defined (cos (Kernels.of (Coeffs.binary l F.p)) n N)).val : Ieee F).val = _
    rw [e2]
    exact literal_same D s
  · show (Ieee.literal (FFT.defined (sin (Kernels.of (Coeffs.binary l F.p)) n N)).val : Ieee F).val = _
    rw [e2']
    exact literal_same D s'

/-- The factors of the transform. -/
theorem factors_near (l : ℕ) (hp : F.p ≤ 53) (hl : F.p ≤ l) (n N : ℕ) (h1 : n < N) (h2 : N ≤ 268435455) :
    (((FFT.Trig.code l F).cos n N).Finite ∧ ((FFT.Trig.code l F).cos n N).Valid ∧ |(((FFT.Trig.code l F).cos n N).val : ℝ) - Real.cos (2 * Real.pi * n / N)| ≤ (11 : ℕ) / 2 ^ F.p) ∧
      ((FFT.Trig.code l F).sin n N).Finite ∧ ((FFT.Trig.code l F).sin n N).Valid ∧ |(((FFT.Trig.code l F).sin n N).val : ℝ) - Real.sin (2 * Real.pi * n / N)| ≤ (11 : ℕ) / 2 ^ F.p := by
  obtain ⟨⟨a, ha, f, v, b, -⟩, ⟨a', ha', f', v', b', -⟩⟩ := C134_accurate D l hp hl n N (by omega) (by omega) (by omega) (by omega)
  have e : (FFT.Trig.code l F).cos n N = a := by simp only [FFT.Trig.code, ha, FFT.defined]
  have e' : (FFT.Trig.code l F).sin n N = a' := by simp only [FFT.Trig.code, ha', FFT.defined]
  have h9 : (9 : ℝ) / 2 ^ F.p ≤ (11 : ℕ) / 2 ^ F.p := by gcongr; norm_num
  rw [e, e']
  push_cast at b b' h9 ⊢
  exact ⟨⟨f, v, b.trans h9⟩, f', v', b'.trans h9⟩

/-- **C134** (transform). The transform with all of its factors made in IEEE arithmetic by unit_circle.hh: if six times the sum of the magnitudes of the inputs (plus the smallest normal number, for each)
is within half the range, then all bins are finite and off by at most `72 log2(N) / 2^p` times that sum. -/
theorem C134_transform (l : ℕ) (hp' : F.p ≤ 53) (hl : F.p ≤ l) (s : ℤ) (hs : s = 1 ∨ s = -1)
    (N : ℕ) (hN : 0 < N) (hL : N ≤ 268435455) (hN' : ∀ p, p.Prime → p ∣ N → p ≤ 31) (out inp : List (Cplx (Ieee F))) (ho : N ≤ out.length) (hi : N ≤ inp.length)
    (hfin : ∀ n < N, FiniteParts (inp.getD n 0) ∧ (inp.getD n 0).re.Valid ∧ (inp.getD n 0).im.Valid)
    (hrange : 6 * ∑ n ∈ Finset.range N, (‖(inp.getD n 0).toComplex fun a => (a.val : ℝ)‖ + 2 ^ (F.emin + F.p)) ≤ (2 : ℝ) ^ (F.emax - 1)) :
    ∃ X : List (Cplx (Ieee F)), FFT.call (Trig.code l F) s N out inp = .ok (X ++ out.drop N) ∧ X.length = N ∧ ∀ k < N, FiniteParts (X.getD k 0) ∧
      ‖((X.getD k 0).toComplex fun a => (a.val : ℝ)) - Spec.dft s N (fun n => (inp.getD n 0).toComplex fun a => (a.val : ℝ)) k‖ ≤
        72 * Real.logb 2 N / 2 ^ F.p * ∑ n ∈ Finset.range N, (‖(inp.getD n 0).toComplex fun a => (a.val : ℝ)‖ + 2 ^ (F.emin + F.p)) := by
  have U := NCO.usual_of_wide D.wide
  have hp : 10 ≤ F.p := by have := D.wide.p; omega
  have hA := Trig.binary_accurate l F.p hp hp' hl
  have h10 : (2 : ℝ) ^ 10 ≤ 2 ^ F.p := pow_le_pow_right₀ (by norm_num) hp
  have h9 : ((9 : ℕ) : ℝ) / 2 ^ F.p ≤ 1 / 2 := by
    rw [div_le_div_iff₀ (by positivity) (by norm_num)]
    push_cast
    linarith
  have hsq : |1 / √2| ≤ 1 := by
    rw [abs_of_nonneg (by positivity), div_le_one (by positivity)]
    exact Real.one_le_sqrt.mpr (by norm_num)
  have h11' : roundings 11 N ≤ 28 * 36 := by
    have h := (roundings11_le N hN hN').trans (Nat.pow_le_pow_left (show N ≤ 2 ^ 28 by omega) 36)
    rw [← pow_mul] at h
    exact (Nat.pow_le_pow_iff_right (by norm_num)).mp h
  have hlog : (roundings 11 N : ℝ) ≤ 36 * Real.logb 2 N := by
    have h : (2 : ℝ) ^ roundings 11 N ≤ (N : ℝ) ^ 36 := by exact_mod_cast roundings11_le N hN hN'
    have h' := (Real.logb_le_logb (by norm_num : (1 : ℝ) < 2) (by positivity) (by positivity)).mpr h
    rw [Real.logb_pow, Real.logb_pow, Real.logb_self_eq_one (by norm_num)] at h'
    simpa using h'
  have hE : ((roundings 11 N : ℕ) : ℝ) ≤ 1008 := by exact_mod_cast h11'
  have hb := pow_sub_one_le (1 / 2 ^ F.p) (by positivity) (roundings 11 N) (by
    rw [mul_one_div, div_le_one (by positivity)]
    linarith)
  rw [mul_one_div] at hb
  have hb2 : 2 * (roundings 11 N : ℝ) / 2 ^ F.p ≤ 2 := by
    rw [div_le_iff₀ (by positivity)]
    linarith
  have hS : 0 ≤ ∑ n ∈ Finset.range N, (‖(inp.getD n 0).toComplex fun a => (a.val : ℝ)‖ + 2 ^ (F.emin + F.p)) := Finset.sum_nonneg fun n _ => by positivity
  obtain ⟨X, e, hX, h⟩ := C114_range U (Trig.code l F) 11 268435455 (by
      calc 11 ≤ 2 ^ 10 := by norm_num
        _ ≤ _ := Nat.pow_le_pow_right (by norm_num) hp)
    (fun n N h1 h2 => (factors_near D l hp' hl n N h1 h2).1)
    (fun n N h1 h2 => (factors_near D l hp' hl n N h1 h2).2)
    (literal_range U 9 _ _ hsq h9 (by have := hA.invSqrtTwo; rwa [mul_one_div] at this)) s hs N hN hL hN' out inp ho hi hfin (by
      refine le_trans ?_ hrange
      have : (1 + 1 / 2 ^ F.p : ℝ) ^ roundings 11 N ≤ 3 := by linarith
      have := mul_le_mul_of_nonneg_right this hS
      linarith)
  refine ⟨X, e, hX, fun k hk => ⟨(h k hk).1, (h k hk).2.trans ?_⟩⟩
  refine mul_le_mul_of_nonneg_right (hb.trans (div_le_div_of_nonneg_right ?_ (by positivity))) hS
  linarith

omit D in
theorem pow_apart (a b : ℂ) (ha : ‖a‖ ≤ 1) (hb : ‖b‖ ≤ 1) (k : ℕ) : ‖a ^ k - b ^ k‖ ≤ k * ‖a - b‖ := by
  induction k with
  | zero => simp
  | succ k ih =>
    have e : a ^ (k + 1) - b ^ (k + 1) = (a ^ k - b ^ k) * a + b ^ k * (a - b) := by ring
    have hbk : ‖b ^ k‖ ≤ 1 := by rw [norm_pow]; exact pow_le_one₀ (norm_nonneg _) hb
    rw [e]
    calc _ ≤ ‖(a ^ k - b ^ k) * a‖ + ‖b ^ k * (a - b)‖ := norm_add_le _ _
      _ = ‖a ^ k - b ^ k‖ * ‖a‖ + ‖b ^ k‖ * ‖a - b‖ := by rw [norm_mul, norm_mul]
      _ ≤ (k * ‖a - b‖) * 1 + 1 * ‖a - b‖ := by gcongr
      _ = _ := by push_cast; ring

/-- **C134** (oscillator). An oscillator set to `n / N` of the sampling rate gives after `k` calls a finite number within `(35 k + 4) / 2^p` of the phasor of `k n / N` turns. -/
theorem C134_oscillator (l : ℕ) (hp : F.p ≤ 53) (hl : F.p ≤ l) (n N : ℤ) (h1 : 1 ≤ N) (h2 : N ≤ 268435455) (h3 : -N ≤ n) (h4 : n ≤ N) (old : Cplx (Ieee F)) :
    ∃ q : NCO (Ieee F), NCO.omegaInt (Kernels.of (Coeffs.ieee l F)) ⟨⟨1, 0⟩, old⟩ n N = .ok q ∧ ∀ k : ℕ, (q.outputIeee k).re.Finite ∧ (q.outputIeee k).im.Finite ∧
      ‖((q.outputIeee k).toComplex fun a => (a.val : ℝ)) - Complex.exp (2 * Real.pi * k * n / N * Complex.I)‖ ≤ (35 * k + 4) / 2 ^ F.p := by
  obtain ⟨⟨c, ec, fc, vc, -, rc⟩, ⟨s, es, fs, vs, -, rs⟩⟩ := C134_accurate D l hp hl n N h1 h2 h3 h4
  refine ⟨⟨⟨1, 0⟩, ⟨c, s⟩⟩, ?_, ?_⟩
  · simp only [NCO.omegaInt, bind, Except.bind, ec, es]
    rfl
  have hu := NCO.unit_tiny D.wide
  obtain ⟨θ, hθ⟩ : ∃ θ : ℝ, θ = 2 * Real.pi * n / N := ⟨_, rfl⟩
  rw [← hθ] at rc rs
  obtain ⟨d, hd⟩ : ∃ d : ℂ, d = (⟨c, s⟩ : Cplx (Ieee F)).toComplex fun a => (a.val : ℝ) := ⟨_, rfl⟩
  obtain ⟨e, he⟩ : ∃ e : ℂ, e = Complex.exp (θ * Complex.I) := ⟨_, rfl⟩
  have ne : ‖e‖ = 1 := by rw [he]; exact Complex.norm_exp_ofReal_mul_I θ
  have u0 : (0 : ℝ) ≤ 1 / 2 ^ F.p := by positivity
  have hde : ‖d - e‖ ≤ 13 * (1 / 2 ^ F.p) := by
    have q1 : (d - e).re = (c.val : ℝ) - Real.cos θ := by
      rw [hd, he, Complex.sub_re, Complex.exp_ofReal_mul_I_re]; rfl
    have q2 : (d - e).im = (s.val : ℝ) - Real.sin θ := by
      rw [hd, he, Complex.sub_im, Complex.exp_ofReal_mul_I_im]; rfl
    rw [← abs_of_nonneg (norm_nonneg (d - e)), ← abs_of_nonneg (by positivity : (0 : ℝ) ≤ 13 * (1 / 2 ^ F.p)), ← sq_le_sq, ← Complex.normSq_eq_norm_sq, Complex.normSq_apply, q1, q2]
    have s1 := mul_self_le_mul_self (abs_nonneg _) rc
    have s2 := mul_self_le_mul_self (abs_nonneg _) rs
    rw [abs_mul_abs_self] at s1 s2
    have cs := Real.sin_sq_add_cos_sq θ
    have t1 := sq_abs (Real.cos θ)
    have t2 := sq_abs (Real.sin θ)
    calc _ ≤ (13 / 2 ^ F.p * |Real.cos θ|) * (13 / 2 ^ F.p * |Real.cos θ|) + (13 / 2 ^ F.p * |Real.sin θ|) * (13 / 2 ^ F.p * |Real.sin θ|) := add_le_add s1 s2
      _ = (13 / 2 ^ F.p) ^ 2 * (|Real.sin θ| ^ 2 + |Real.cos θ| ^ 2) := by ring
      _ = (13 * (1 / 2 ^ F.p)) ^ 2 := by rw [t1, t2, cs]; ring
  have n1 : |‖d‖ - 1| ≤ 13 * (1 / 2 ^ F.p) := by
    have := abs_norm_sub_norm_le d e
    rw [ne] at this
    exact this.trans hde
  obtain ⟨n2, n3⟩ := abs_le.mp n1
  have d0 : 0 < ‖d‖ := by linarith
  have hdir : ‖d / ‖d‖ - e‖ ≤ 26 * (1 / 2 ^ F.p) := by
    have x1 : d / ‖d‖ - d = ((1 - ‖d‖ : ℝ) : ℂ) * (d / ‖d‖) := by
      have : (‖d‖ : ℂ) ≠ 0 := by exact_mod_cast d0.ne'
      push_cast; field_simp
    have x2 : ‖d / ‖d‖‖ = 1 := by rw [norm_div, Complex.norm_real, norm_norm, div_self d0.ne']
    calc _ = ‖(d / ‖d‖ - d) + (d - e)‖ := by congr 1; ring
      _ ≤ _ := norm_add_le _ _
      _ ≤ 13 * (1 / 2 ^ F.p) + 13 * (1 / 2 ^ F.p) := by
        refine add_le_add ?_ hde
        rw [x1, norm_mul, x2, mul_one, Complex.norm_real, Real.norm_eq_abs, abs_sub_comm]
        exact n1
      _ = _ := by ring
  intro k
  obtain ⟨f1, f2, -, b⟩ := NCO.C133_oscillator D.wide (⟨⟨1, 0⟩, ⟨c, s⟩⟩ : NCO (Ieee F)) rfl ⟨fc, vc⟩ ⟨fs, vs⟩ (by rw [← hd]; linarith) (by rw [← hd]; linarith) k
  refine ⟨f1, f2, ?_⟩
  rw [← hd] at b
  have ek : Complex.exp (2 * Real.pi * k * n / N * Complex.I) = e ^ k := by
    rw [he, ← Complex.exp_nat_mul, hθ]
    congr 1
    push_cast
    ring
  rw [ek]
  have x2 : ‖d / ‖d‖‖ ≤ 1 := by rw [norm_div, Complex.norm_real, norm_norm, div_self d0.ne']
  have pk := (pow_apart (d / ‖d‖) e x2 ne.le k).trans (mul_le_mul_of_nonneg_left hdir (Nat.cast_nonneg k))
  refine (norm_sub_le_norm_sub_add_norm_sub _ ((d / ‖d‖) ^ k) _).trans ((add_le_add b pk).trans (le_of_eq ?_))
  ring

end

/-- Single precision: a third of a turn, and a thousand calls of an oscillator at that frequency. -/
example : (∃ a, cos (Kernels.of (Coeffs.ieee 64 Format.single)) 1 3 = .ok a ∧ a.Finite ∧ |(a.val : ℝ) - -(1 / 2)| ≤ 1 / 10 ^ 6) ∧
    ∃ q : NCO (Ieee Format.single), NCO.omegaInt (Kernels.of (Coeffs.ieee 64 Format.single)) ⟨⟨1, 0⟩, ⟨1, 0⟩⟩ 1 3 = .ok q ∧
      ‖((q.outputIeee 999).toComplex fun a => (a.val : ℝ)) - 1‖ ≤ 1 / 400 := by
  have hp : Format.single.p = 24 := rfl
  have : NeZero Format.single.p := ⟨by decide⟩
  constructor
  · obtain ⟨⟨a, h, f, -, b, -⟩, -⟩ := C134_accurate deep_single 64 (by rw [hp]; norm_num) (by rw [hp]; norm_num) 1 3 (by norm_num) (by norm_num) (by norm_num) (by norm_num)
    refine ⟨a, h, f, ?_⟩
    have e : Real.cos (2 * Real.pi * ((1 : ℤ) : ℝ) / ((3 : ℤ) : ℝ)) = -(1 / 2) := by
      push_cast
      rw [show 2 * Real.pi * 1 / 3 = Real.pi - Real.pi / 3 by ring, Real.cos_pi_sub, Real.cos_pi_div_three]
    rw [e, hp] at b
    exact b.trans (by norm_num)
  · obtain ⟨q, h, b⟩ := C134_oscillator deep_single 64 (by rw [hp]; norm_num) (by rw [hp]; norm_num) 1 3 (by norm_num) (by norm_num) (by norm_num) (by norm_num) ⟨1, 0⟩
    refine ⟨q, h, ?_⟩
    obtain ⟨-, -, b⟩ := b 999
    have e : Complex.exp (2 * Real.pi * (999 : ℕ) * ((1 : ℤ) : ℂ) / ((3 : ℤ) : ℂ) * Complex.I) = 1 := by
      rw [Complex.exp_eq_one_iff]
      exact ⟨333, by push_cast; ring⟩
    rw [e, hp] at b
    exact b.trans (by norm_num)

end UnitCircle
end DSP
