import Verif.Lemmas.DFT
import Verif.Model.FFT
import Mathlib.Tactic.IntervalCases

/-!
# The butterflies of fft.hh compute short Fourier transforms
-/

namespace DSP
namespace FFT

open Complex

/-- The trigonometric functions and constants fft.hh relies on are exact. -/
structure Trig.Exact (T : Trig ℝ) : Prop where
  cos : ∀ n N, T.cos n N = Real.cos (2 * Real.pi * n / N)
  sin : ∀ n N, T.sin n N = Real.sin (2 * Real.pi * n / N)
  invSqrtTwo : T.invSqrtTwo = 1 / √2

/-- The exact trigonometric functions. -/
noncomputable def Trig.real : Trig ℝ where
  cos n N := Real.cos (2 * Real.pi * n / N)
  sin n N := Real.sin (2 * Real.pi * n / N)
  invSqrtTwo := 1 / √2

theorem Trig.real_exact : Trig.real.Exact := ⟨fun _ _ => rfl, fun _ _ => rfl, rfl⟩

theorem twiddle_eq (a b : ℂ) : twiddle a b = -I * (a - b) := by
  apply Complex.ext <;> simp [twiddle, Parts.make, Parts.re, Parts.im]

theorem fiddle_eq (a b : ℂ) : fiddle a b = (a - b) - I * (a + b) := by
  apply Complex.ext <;> simp [fiddle, Parts.make, Parts.re, Parts.im]
  ring

theorem cx_eq (T : Trig ℝ) (n N : ℕ) (a : ℂ) : cx T n N a = (T.cos n N : ℂ) * a := Complex.real_smul

theorem sx_eq (T : Trig ℝ) (n N : ℕ) (a : ℂ) : sx T n N a = (T.sin n N : ℂ) * a := Complex.real_smul

theorem rsqrt2_eq (T : Trig ℝ) (a : ℂ) : rsqrt2 T a = (T.invSqrtTwo : ℂ) * a := rfl

theorem foldl_add (f : ℕ → ℂ) (n : ℕ) (b : ℂ) : (List.range n).foldl (fun s j => s + f j) b = b + ∑ j ∈ Finset.range n, f j := by
  induction n with
  | zero => simp
  | succ n ih => rw [List.range_succ, List.foldl_append, ih, Finset.sum_range_succ, List.foldl_cons, List.foldl_nil, add_assoc]

theorem foldl_add' (f : ℕ → ℂ) (h : ℕ) (h0 : 0 < h) :
    (List.range (h - 1)).foldl (fun s j => s + f (j + 2)) (f 1) = ∑ j ∈ Finset.range h, f (j + 1) := by
  obtain ⟨n, rfl⟩ : ∃ n, h = n + 1 := ⟨h - 1, by omega⟩
  rw [Nat.add_sub_cancel, foldl_add (fun j => f (j + 2)), Finset.sum_range_succ', add_comm]

/-- What an index table of an odd radix has to look like. -/
def tableOk (R : Nat) (ctab : List (List Nat)) (stab : List (List Int)) : Bool :=
  (List.range ((R - 1) / 2)).all fun k => (List.range ((R - 1) / 2)).all fun j =>
    let r := ((j + 1) * (k + 1)) % R
    let c := (ctab.getD k []).getD j 0
    let s := (stab.getD k []).getD j 0
    (c == r || c + r == R) && (s == (r : Int) || s == (r : Int) - R) && (j != 0 || decide (0 ≤ s))

theorem cos_table (R c r : ℕ) (hR : 0 < R) (h : c = r ∨ c + r = R) :
    Real.cos (2 * Real.pi * c / R) = Real.cos (2 * Real.pi * r / R) := by
  rcases h with h | h
  · rw [h]
  · have hR' : (R : ℝ) ≠ 0 := by exact_mod_cast hR.ne'
    have : (c : ℝ) = R - r := by rw [← h]; push_cast; ring
    rw [this, show 2 * Real.pi * ((R : ℝ) - r) / R = 2 * Real.pi - 2 * Real.pi * r / R by field_simp]
    rw [Real.cos_two_pi_sub]

theorem sin_table (R r : ℕ) (v : ℤ) (hR : 0 < R) (h : v = r ∨ v = (r : ℤ) - R) :
    (if v < 0 then -Real.sin (2 * Real.pi * v.natAbs / R) else Real.sin (2 * Real.pi * v.natAbs / R)) = Real.sin (2 * Real.pi * r / R) := by
  have hR' : (R : ℝ) ≠ 0 := by exact_mod_cast hR.ne'
  have e : (if v < 0 then -Real.sin (2 * Real.pi * v.natAbs / R) else Real.sin (2 * Real.pi * v.natAbs / R)) = Real.sin (2 * Real.pi * v / R) := by
    split_ifs with hv
    · rw [← Real.sin_neg]
      congr 1
      have : ((v.natAbs : ℕ) : ℝ) = -(v : ℝ) := by
        have : ((v.natAbs : ℕ) : ℤ) = -v := by omega
        rw [← Int.cast_natCast, this, Int.cast_neg]
      rw [this]; ring
    · congr 2
      have : ((v.natAbs : ℕ) : ℝ) = (v : ℝ) := by
        have : ((v.natAbs : ℕ) : ℤ) = v := by omega
        rw [← Int.cast_natCast, this]
      rw [this]
  rw [e]
  rcases h with h | h
  · rw [h]; norm_num
  · rw [h]; push_cast
    rw [show 2 * Real.pi * ((r : ℝ) - R) / R = 2 * Real.pi * r / R - 2 * Real.pi by field_simp]
    rw [Real.sin_sub_two_pi]

theorem oddDft_eq (T : Trig ℝ) (hT : T.Exact) (h : ℕ) (ctab : List (List Nat)) (stab : List (List Int))
    (h0 : 0 < h) (ht : tableOk (2 * h + 1) ctab stab = true) (x : ℕ → ℂ) :
    oddDft T (2 * h + 1) ctab stab x = (List.range (2 * h + 1)).map (Spec.dft 1 (2 * h + 1) x) := by
  have hh : (2 * h + 1 - 1) / 2 = h := by omega
  have hR : 0 < 2 * h + 1 := by omega
  have htab : ∀ k < h, ∀ j < h,
      ((ctab.getD k []).getD j 0 = ((j + 1) * (k + 1)) % (2 * h + 1) ∨ (ctab.getD k []).getD j 0 + ((j + 1) * (k + 1)) % (2 * h + 1) = 2 * h + 1) ∧
      ((stab.getD k []).getD j 0 = ((((j + 1) * (k + 1)) % (2 * h + 1) : ℕ) : ℤ) ∨
        (stab.getD k []).getD j 0 = ((((j + 1) * (k + 1)) % (2 * h + 1) : ℕ) : ℤ) - ((2 * h + 1 : ℕ) : ℤ)) ∧ (j = 0 → 0 ≤ (stab.getD k []).getD j 0) := by
    intro k hk j hj
    unfold tableOk at ht
    rw [hh] at ht
    have := List.all_eq_true.mp (List.all_eq_true.mp ht k (List.mem_range.mpr hk)) j (List.mem_range.mpr hj)
    simp only [Bool.and_eq_true, Bool.or_eq_true, beq_iff_eq, bne_iff_ne, decide_eq_true_eq] at this
    exact ⟨this.1.1, this.1.2, fun e => this.2.resolve_left (by simp [e])⟩
  -- the two sums
  have hc : ∀ k, 0 < k → k ≤ h →
      (∑ j ∈ Finset.range h, cx T ((ctab.getD (k - 1) []).getD j 0) (2 * h + 1) (x (j + 1) + x (2 * h + 1 - (j + 1)))) =
      ∑ j ∈ Finset.range h, ((Spec.unit 1 (2 * h + 1) ((j + 1) * k)).re : ℂ) * (x (j + 1) + x (2 * h + 1 - (j + 1))) := by
    intro k hk hk'
    apply Finset.sum_congr rfl
    intro j hj
    obtain ⟨h1, -⟩ := htab (k - 1) (by omega) j (Finset.mem_range.mp hj)
    rw [Nat.sub_add_cancel hk] at h1
    rw [cx_eq, hT.cos, cos_table _ _ _ hR h1, ← Spec.unit_mod, Spec.unit_one]
  have hs : ∀ k, 0 < k → k ≤ h →
      (∑ j ∈ Finset.range h, (if (stab.getD (k - 1) []).getD j 0 < 0 then
          -sx T ((stab.getD (k - 1) []).getD j 0).natAbs (2 * h + 1) (twiddle (x (j + 1)) (x (2 * h + 1 - (j + 1))))
        else sx T ((stab.getD (k - 1) []).getD j 0).natAbs (2 * h + 1) (twiddle (x (j + 1)) (x (2 * h + 1 - (j + 1)))))) =
      ∑ j ∈ Finset.range h, ((Spec.unit 1 (2 * h + 1) ((j + 1) * k)).im : ℂ) * (-I * (x (j + 1) - x (2 * h + 1 - (j + 1)))) := by
    intro k hk hk'
    apply Finset.sum_congr rfl
    intro j hj
    obtain ⟨-, h2, -⟩ := htab (k - 1) (by omega) j (Finset.mem_range.mp hj)
    rw [Nat.sub_add_cancel hk] at h2
    simp only [sx_eq]
    have := sin_table _ _ _ hR h2
    rw [hT.sin, twiddle_eq, ← Spec.unit_mod, Spec.unit_one, ← this]
    split_ifs
    · push_cast; ring
    · rfl
  -- the target
  have key : ∀ k ≤ h, 0 < k → (Spec.dft 1 (2 * h + 1) x k = x 0
      + ∑ j ∈ Finset.range h, ((Spec.unit 1 (2 * h + 1) ((j + 1) * k)).re : ℂ) * (x (j + 1) + x (2 * h + 1 - (j + 1)))
      - ∑ j ∈ Finset.range h, ((Spec.unit 1 (2 * h + 1) ((j + 1) * k)).im : ℂ) * (-I * (x (j + 1) - x (2 * h + 1 - (j + 1))))) ∧
      (Spec.dft (-1) (2 * h + 1) x k = x 0
      + ∑ j ∈ Finset.range h, ((Spec.unit 1 (2 * h + 1) ((j + 1) * k)).re : ℂ) * (x (j + 1) + x (2 * h + 1 - (j + 1)))
      + ∑ j ∈ Finset.range h, ((Spec.unit 1 (2 * h + 1) ((j + 1) * k)).im : ℂ) * (-I * (x (j + 1) - x (2 * h + 1 - (j + 1))))) := by
    intro k _ _
    have hu : ∀ j ∈ Finset.range h, Spec.unit 1 (2 * h + 1) ((2 * h + 1 - (j + 1)) * k) = (starRingEnd ℂ) (Spec.unit 1 (2 * h + 1) ((j + 1) * k)) := by
      intro j hj
      have := Finset.mem_range.mp hj
      rw [mul_comm _ k, Spec.unit_rev 1 _ _ _ (by omega), Spec.unit_neg_conj, mul_comm k]
    constructor
    · unfold Spec.dft
      rw [Spec.sum_pairs, add_sub_assoc, ← Finset.sum_sub_distrib]
      congr 1
      · rw [Nat.zero_mul, Spec.unit_zero, mul_one]
      · apply Finset.sum_congr rfl
        intro j hj
        rw [hu j hj]
        generalize Spec.unit 1 (2 * h + 1) ((j + 1) * k) = u
        apply Complex.ext <;> simp <;> ring
    · unfold Spec.dft
      rw [Spec.sum_pairs, add_assoc, ← Finset.sum_add_distrib]
      congr 1
      · rw [Nat.zero_mul, Spec.unit_zero, mul_one]
      · apply Finset.sum_congr rfl
        intro j hj
        rw [Spec.unit_neg_conj, Spec.unit_neg_conj, hu j hj]
        generalize Spec.unit 1 (2 * h + 1) ((j + 1) * k) = u
        apply Complex.ext <;> simp <;> ring
  have hfc : ∀ k, (List.range (h - 1)).foldl (fun sum j => sum + cx T ((ctab.getD (k - 1) []).getD (j + 2 - 1) 0) (2 * h + 1) (x (j + 2) + x (2 * h + 1 - (j + 2))))
      (cx T ((ctab.getD (k - 1) []).getD (1 - 1) 0) (2 * h + 1) (x 1 + x (2 * h + 1 - 1))) =
      ∑ j ∈ Finset.range h, cx T ((ctab.getD (k - 1) []).getD j 0) (2 * h + 1) (x (j + 1) + x (2 * h + 1 - (j + 1))) := fun k =>
    foldl_add' (fun j => cx T ((ctab.getD (k - 1) []).getD (j - 1) 0) (2 * h + 1) (x j + x (2 * h + 1 - j))) h h0
  have hfs : ∀ k, 0 < k → k ≤ h → (List.range (h - 1)).foldl
      (fun sum j => if (stab.getD (k - 1) []).getD (j + 2 - 1) 0 < 0 then
          sum - sx T ((stab.getD (k - 1) []).getD (j + 2 - 1) 0).natAbs (2 * h + 1) (twiddle (x (j + 2)) (x (2 * h + 1 - (j + 2))))
        else sum + sx T ((stab.getD (k - 1) []).getD (j + 2 - 1) 0).natAbs (2 * h + 1) (twiddle (x (j + 2)) (x (2 * h + 1 - (j + 2)))))
      (sx T ((stab.getD (k - 1) []).getD (1 - 1) 0).natAbs (2 * h + 1) (twiddle (x 1) (x (2 * h + 1 - 1)))) =
      ∑ j ∈ Finset.range h, (if (stab.getD (k - 1) []).getD j 0 < 0 then
          -sx T ((stab.getD (k - 1) []).getD j 0).natAbs (2 * h + 1) (twiddle (x (j + 1)) (x (2 * h + 1 - (j + 1))))
        else sx T ((stab.getD (k - 1) []).getD j 0).natAbs (2 * h + 1) (twiddle (x (j + 1)) (x (2 * h + 1 - (j + 1))))) := by
    intro k hk hk'
    have e := foldl_add' (fun j => if (stab.getD (k - 1) []).getD (j - 1) 0 < 0 then
          -sx T ((stab.getD (k - 1) []).getD (j - 1) 0).natAbs (2 * h + 1) (twiddle (x j) (x (2 * h + 1 - j)))
        else sx T ((stab.getD (k - 1) []).getD (j - 1) 0).natAbs (2 * h + 1) (twiddle (x j) (x (2 * h + 1 - j)))) h h0
    simp only [Nat.add_sub_cancel] at e
    rw [← e, if_neg (not_lt.mpr ((htab (k - 1) (by omega) 0 h0).2.2 rfl))]
    congr 1
    funext sum j
    split_ifs
    · rw [sub_eq_add_neg]
    · rfl
  unfold oddDft
  simp only [hh]
  apply List.map_congr_left
  intro k hk
  have hk := List.mem_range.mp hk
  by_cases k0 : k = 0
  · rw [if_pos k0, k0, foldl_add (fun j => x (j + 1) + x (2 * h + 1 - (j + 1)))]
    unfold Spec.dft
    rw [Spec.sum_pairs]
    simp [Spec.unit_zero]
  · rw [if_neg k0]
    by_cases k1 : k ≤ h
    · rw [if_pos k1, hfc k, hfs k (by omega) k1, hc k (by omega) k1, hs k (by omega) k1, (key k k1 (by omega)).1]
    · rw [if_neg k1, hfc (2 * h + 1 - k), hfs (2 * h + 1 - k) (by omega) (by omega), hc (2 * h + 1 - k) (by omega) (by omega), hs (2 * h + 1 - k) (by omega) (by omega),
        ← (key (2 * h + 1 - k) (by omega) (by omega)).2, ← Spec.dft_rev 1 _ _ _ (by omega)]
      congr 1
      omega

theorem unit_quarter (k : ℕ) : Spec.unit 1 4 k = I ^ k := by
  induction k with
  | zero => rw [Spec.unit_zero, pow_zero]
  | succ k ih =>
    rw [Spec.unit_add, ih, pow_succ]
    congr 1
    rw [Spec.unit_one]
    rw [show 2 * Real.pi * ((1 : ℕ) : ℝ) / ((4 : ℕ) : ℝ) = Real.pi / 2 by push_cast; ring]
    rw [Real.cos_pi_div_two, Real.sin_pi_div_two]
    rfl

/-- Powers of the eighth root of unity -/
noncomputable def eighth : ℕ → ℂ
  | 0 => 1
  | 1 => ((1 / √2 : ℝ) : ℂ) * (1 + I)
  | 2 => I
  | 3 => ((1 / √2 : ℝ) : ℂ) * (-1 + I)
  | 4 => -1
  | 5 => ((1 / √2 : ℝ) : ℂ) * (-1 - I)
  | 6 => -I
  | _ => ((1 / √2 : ℝ) : ℂ) * (1 - I)

theorem half_sq : (((1 / √2 : ℝ) : ℂ)) * ((1 / √2 : ℝ) : ℂ) = 1 / 2 := by
  rw [← Complex.ofReal_mul, div_mul_div_comm, Real.mul_self_sqrt (by norm_num)]
  norm_num

theorem unit_eighth (k : ℕ) : Spec.unit 1 8 k = eighth (k % 8) := by
  have h1 : Spec.unit 1 8 1 = ((1 / √2 : ℝ) : ℂ) * (1 + I) := by
    rw [Spec.unit_one]
    rw [show 2 * Real.pi * ((1 : ℕ) : ℝ) / ((8 : ℕ) : ℝ) = Real.pi / 4 by push_cast; ring]
    rw [Real.cos_pi_div_four, Real.sin_pi_div_four]
    have : √2 / 2 = 1 / √2 := by
      rw [div_eq_div_iff (by norm_num) (by positivity)]
      rw [Real.mul_self_sqrt (by norm_num)]; norm_num
    rw [← this]
    apply Complex.ext <;> simp
  have hs : ∀ n, Spec.unit 1 8 (n + 1) = Spec.unit 1 8 n * (((1 / √2 : ℝ) : ℂ) * (1 + I)) := by
    intro n; rw [Spec.unit_add, h1]
  have hq := half_sq
  have hI : I * I = -1 := Complex.I_mul_I
  have e0 : Spec.unit 1 8 0 = eighth 0 := Spec.unit_zero 1 8
  have e1 : Spec.unit 1 8 1 = eighth 1 := h1
  have e2 : Spec.unit 1 8 2 = eighth 2 := by
    rw [hs 1, e1]; simp only [eighth]; linear_combination (1 + I) * (1 + I) * hq + 1 / 2 * hI
  have e3 : Spec.unit 1 8 3 = eighth 3 := by
    rw [hs 2, e2]; simp only [eighth]; linear_combination ((1 / √2 : ℝ) : ℂ) * hI
  have e4 : Spec.unit 1 8 4 = eighth 4 := by
    rw [hs 3, e3]; simp only [eighth]; linear_combination (-1 + I) * (1 + I) * hq + 1 / 2 * hI
  have e5 : Spec.unit 1 8 5 = eighth 5 := by
    rw [hs 4, e4]; simp only [eighth]; ring
  have e6 : Spec.unit 1 8 6 = eighth 6 := by
    rw [hs 5, e5]; simp only [eighth]; linear_combination (-1 - I) * (1 + I) * hq - 1 / 2 * hI
  have e7 : Spec.unit 1 8 7 = eighth 7 := by
    rw [hs 6, e6]; simp only [eighth]; linear_combination (-((1 / √2 : ℝ) : ℂ)) * hI
  rw [← Spec.unit_mod]
  have : k % 8 < 8 := Nat.mod_lt _ (by norm_num)
  interval_cases k % 8 <;> assumption

theorem dft2_eq (x : ℕ → ℂ) (s : ℤ) (hs : s = 1 ∨ s = -1) : dft2 x = (List.range 2).map (Spec.dft s 2 x) := by
  have h1 : Spec.unit s 2 1 = -1 := by
    rcases hs with h | h <;> subst h
    · rw [Spec.unit_one]
      apply Complex.ext <;> simp
    · rw [Spec.unit_neg]
      apply Complex.ext <;> simp
  simp [dft2, List.range_succ, Spec.dft, Finset.sum_range_succ, Spec.unit_zero, h1, sub_eq_add_neg]

theorem dft4_eq (x : ℕ → ℂ) : dft4 x = (List.range 4).map (Spec.dft 1 4 x) := by
  have h2 : I ^ 2 = -1 := Complex.I_sq
  have h3 : I ^ 3 = -I := by rw [pow_succ, h2]; ring
  have h4 : I ^ 4 = 1 := by rw [show 4 = 2 * 2 by norm_num, pow_mul, h2]; norm_num
  have h6 : I ^ 6 = -1 := by rw [show 6 = 4 + 2 by norm_num, pow_add, h2, h4]; norm_num
  have h9 : I ^ 9 = I := by rw [show 9 = 4 + 4 + 1 by norm_num, pow_add, pow_add, h4]; norm_num
  simp only [dft4, List.range_succ, List.range_zero, List.nil_append, List.map_cons, List.map_nil, List.cons_append,
    Spec.dft, Finset.sum_range_succ, Finset.sum_range_zero, unit_quarter, twiddle_eq]
  norm_num [h2, h3, h4, h6, h9]
  refine ⟨?_, ?_, ?_, ?_⟩ <;> ring

theorem dft8_eq (T : Trig ℝ) (hT : T.Exact) (x : ℕ → ℂ) : dft8 T x = (List.range 8).map (Spec.dft 1 8 x) := by
  have hI : I * I = -1 := Complex.I_mul_I
  simp only [dft8, List.range_succ, List.range_zero, List.nil_append, List.map_cons, List.map_nil, List.cons_append,
    Spec.dft, Finset.sum_range_succ, Finset.sum_range_zero, unit_eighth, twiddle_eq, fiddle_eq, rsqrt2_eq, hT.invSqrtTwo,
    Nat.reduceMul, Nat.reduceMod, eighth, List.cons.injEq]
  generalize ((1 / √2 : ℝ) : ℂ) = c
  refine ⟨?_, ?_, ?_, ?_, ?_, ?_, ?_, ?_, trivial⟩
  all_goals ring

theorem take_drop_rev (f : ℕ → ℂ) (n : ℕ) : ((List.range (n + 1)).map f).take 1 ++ (((List.range (n + 1)).map f).drop 1).reverse =
    (List.range (n + 1)).map fun k => f (if k = 0 then 0 else n + 1 - k) := by
  rw [List.range_succ_eq_map]
  simp only [List.map_cons, List.take_succ_cons, List.take_zero, List.drop_succ_cons, List.drop_zero, List.cons_append, List.nil_append,
    List.map_map, if_true]
  congr 1
  apply List.ext_getElem
  · simp
  · intro i h1 h2
    have : i < n := by simpa using h2
    simp only [List.getElem_reverse, List.getElem_map, List.getElem_range, List.length_map, List.length_range, Function.comp]
    congr 1
    simp
    omega

/-- The radices that have a butterfly. -/
def radices : List ℕ := [2, 3, 4, 5, 7, 8, 11, 13, 17, 19, 23, 29, 31]

theorem dftPos_eq (T : Trig ℝ) (hT : T.Exact) (R : ℕ) (hR : R ∈ radices) (x : ℕ → ℂ) : dftPos T R x = (List.range R).map (Spec.dft 1 R x) := by
  simp only [radices, List.mem_cons, List.not_mem_nil, or_false] at hR
  unfold dftPos
  rcases hR with h | h | h | h | h | h | h | h | h | h | h | h | h <;> subst h <;> norm_num only
  · exact dft2_eq x 1 (Or.inl rfl)
  · exact oddDft_eq T hT 1 c3 s3 (by norm_num) (by decide +kernel) x
  · exact dft4_eq x
  · exact oddDft_eq T hT 2 c5 s5 (by norm_num) (by decide +kernel) x
  · exact oddDft_eq T hT 3 c7 s7 (by norm_num) (by decide +kernel) x
  · exact dft8_eq T hT x
  · exact oddDft_eq T hT 5 c11 s11 (by norm_num) (by decide +kernel) x
  · exact oddDft_eq T hT 6 c13 s13 (by norm_num) (by decide +kernel) x
  · exact oddDft_eq T hT 8 c17 s17 (by norm_num) (by decide +kernel) x
  · exact oddDft_eq T hT 9 c19 s19 (by norm_num) (by decide +kernel) x
  · exact oddDft_eq T hT 11 c23 s23 (by norm_num) (by decide +kernel) x
  · exact oddDft_eq T hT 14 c29 s29 (by norm_num) (by decide +kernel) x
  · exact oddDft_eq T hT 15 c31 s31 (by norm_num) (by decide +kernel) x

theorem dft_eq (T : Trig ℝ) (hT : T.Exact) (s : ℤ) (hs : s = 1 ∨ s = -1) (R : ℕ) (hR : R ∈ radices) (x : ℕ → ℂ) :
    dft T s R x = (List.range R).map (Spec.dft s R x) := by
  unfold dft
  simp only
  by_cases h2 : R = 2
  · subst h2
    rw [if_neg (by simp)]
    exact dft2_eq x s hs
  rw [dftPos_eq T hT R hR]
  rcases hs with h | h <;> subst h
  · rw [if_neg (by simp)]
  · rw [if_pos ⟨rfl, h2⟩]
    obtain ⟨n, rfl⟩ : ∃ n, R = n + 1 := by
      refine ⟨R - 1, ?_⟩
      have : R ≠ 0 := by rintro rfl; simp [radices] at hR
      omega
    rw [take_drop_rev]
    apply List.map_congr_left
    intro k hk
    have := List.mem_range.mp hk
    by_cases h0 : k = 0
    · rw [if_pos h0, h0]
      unfold Spec.dft
      simp only [Nat.mul_zero, Spec.unit_zero]
    · rw [if_neg h0, Spec.dft_rev 1 _ _ _ (by omega)]

end FFT
end DSP
