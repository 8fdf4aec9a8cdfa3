import Verif.Model.AtanRounded
import Verif.Model.ElementaryRounded
import Verif.Model.HilbertRounded
import Verif.Model.SplineRounded
import Verif.Model.CoeffsRounded
import Verif.Model.DemodRounded
import Verif.Model.Demod
import Verif.Model.Spline
import Verif.Model.LMS
import Verif.Model.LMSRounded
import Verif.Model.PhasorRounded
import Verif.Props.Kaiser

/-!
# C119: the models for machine numbers and those in exact arithmetic are the same programs

Most headers are modelled twice: once in exact arithmetic, with the functions and constants of mathematics, and once for numbers of any type, with everything that type provides as a parameter. Here the second kind is given the
real numbers, and comes out as the first kind, faults included.
-/

namespace DSP

/-! ### Filters, windows -/

theorem fdiv_real (a b : ℝ) : Fir.Rounded.fdiv a b = fdiv a b := by
  unfold Fir.Rounded.fdiv fdiv M.ite
  by_cases h : b = 0
  · simp [h]
  · simp [h]
    rfl

theorem sinc_real (x : ℝ) : Fir.Rounded.sinc Real.sin Real.pi x = .ok (sinc x) := by
  unfold Fir.Rounded.sinc sinc M.ite
  by_cases h : x = 0
  · simp [h]
    rfl
  · have hp : Real.pi * x ≠ 0 := mul_ne_zero Real.pi_ne_zero h
    simp only [fdiv_real, fdiv]
    rw [if_neg (by simpa using h), if_neg hp, if_neg (fun e => h e.symm)]

theorem mite_prop {α : Type} (c : Prop) [Decidable c] (b : Bool) (h : b = true ↔ c) (t e : M α) : M.ite b t e = if c then t else e := by
  unfold M.ite
  by_cases hc : c
  · rw [if_pos hc, if_pos (h.mpr hc)]
  · rw [if_neg hc, if_neg (fun hb => hc (h.mp hb))]

/-- **C119** The filters of filter.hh. -/
theorem C119_fir (K : Kernels) (n N : ℤ) :
    (∀ c, Fir.Rounded.lowPass Real.sin Real.pi 0.5 c n N = Fir.lowPass c n N) ∧ (∀ c, Fir.Rounded.highPass Real.sin Real.pi 0.5 c n N = Fir.highPass c n N) ∧
      (∀ c d, Fir.Rounded.bandPass Real.sin Real.pi 0.5 c d n N = Fir.bandPass c d n N) ∧ (∀ num den, Fir.Rounded.lowPass2 K (Real.pi / 2) num den n N = Fir.lowPass2 K num den n N) ∧
      (∀ num den, Fir.Rounded.highPass2 K (Real.pi / 2) num den n N = Fir.highPass2 K num den n N) ∧ Fir.Rounded.hilbert Real.pi 0.5 n N = Fir.hilbert n N := by
  have hc : Fir.Rounded.centred (0.5 : ℝ) n N = Fir.centred n N := rfl
  have hr : ∀ num den fac t, Fir.Rounded.ratio K (Real.pi / 2) num den fac t = Fir.ratio K num den fac t := by
    intro num den fac t
    unfold Fir.Rounded.ratio Fir.ratio
    simp only [fdiv_real]
  have hf : ∀ num den, (Fir.Rounded.factor num den : M ℝ) = Fir.factor num den := by
    intro num den
    unfold Fir.Rounded.factor Fir.factor
    simp only [fdiv_real]
  have ht : Fir.Rounded.twoX n N = Fir.twoX n N := rfl
  have ok : ∀ {α β : Type} (a : α) (f : α → M β), (Except.ok a >>= f) = f a := fun _ _ => rfl
  refine ⟨fun c => ?_, fun c => ?_, fun c d => ?_, fun num den => ?_, fun num den => ?_, ?_⟩
  · unfold Fir.Rounded.lowPass Fir.lowPass
    simp only [hc, sinc_real, ok, Int.cast_ofNat]
  · unfold Fir.Rounded.highPass Fir.highPass
    simp only [hc, sinc_real, ok, Int.cast_ofNat]
  · unfold Fir.Rounded.bandPass Fir.bandPass
    simp only [hc, sinc_real, ok, Int.cast_ofNat]
  · unfold Fir.Rounded.lowPass2 Fir.lowPass2
    simp only [hf, ht, hr]
    congr 1
    funext fac
    congr 1
    funext t
    exact mite_prop _ _ (by simp) _ _
  · unfold Fir.Rounded.highPass2 Fir.highPass2
    simp only [hf, ht, hr, fdiv_real, Int.cast_one]
    congr 1
    funext fac
    congr 1
    funext t
    exact mite_prop _ _ (by simp) _ _
  · unfold Fir.Rounded.hilbert Fir.hilbert
    simp only [hc, fdiv_real, Int.cast_one, Int.cast_ofNat]
    rw [mite_prop (N % 2 = 1) _ (by simp)]
    congr 2
    funext N1
    congr 1
    funext x
    exact mite_prop _ _ (by simp) _ _

/-- A half band filter of seven taps. -/
example : Fir.Rounded.lowPass2 Kernels.exact (Real.pi / 2) 1 4 3 7 = .ok (1 / 2) := by
  rw [(C119_fir Kernels.exact 3 7).2.2.2.1 1 4]
  simp [Fir.lowPass2, Fir.factor, Fir.twoX, int32, fdiv, bind, Except.bind, pure, Except.pure]
  norm_num


theorem i0Loop_real (x : ℝ) (l : List ℕ) (hl : ∀ n ∈ l, 0 < n) : ∀ (s : Kahan ℝ) (v : ℝ), Win.i0Loop x l s v = .ok (Win.Rounded.i0Loop x l s v) := by
  induction l with
  | nil => exact fun s v => rfl
  | cons n l ih =>
    intro s v
    have hn : ((2 * n : ℕ) : ℝ) ≠ 0 := by
      have := hl n List.mem_cons_self
      exact_mod_cast (by omega : 2 * n ≠ 0)
    unfold Win.i0Loop Win.Rounded.i0Loop
    simp only [fdiv, if_neg hn, bind, Except.bind, Int.cast_natCast]
    split_ifs with h
    · rfl
    · exact ih (fun m hm => hl m (List.mem_cons_of_mem _ hm)) _ _

theorem i0_real (x : ℝ) : Win.i0 x = .ok (Win.Rounded.i0 1 x) := i0Loop_real x _ (by simp) _ _

/-- **C119** The windows of window.hh. -/
theorem C119_windows (K : Kernels) (n N : ℤ) :
    Win.Rounded.hann K 1 0.5 n N = Win.hann K n N ∧ Win.Rounded.hamming K 0.54 0.46 n N = Win.hamming K n N ∧ Win.Rounded.lanczos K Real.pi 1 n N = Win.lanczos K n N ∧
      (∀ a0 a1 a2, Win.Rounded.blackman K a0 a1 a2 n N = Win.blackman K a0 a1 a2 n N) ∧ (∀ a, Win.Rounded.blackmanA K 1 0.5 a n N = Win.blackmanA K a n N) ∧
      (∀ o, Win.Rounded.gauss Real.exp (fun a b => a ^ b) 0.5 o n N = Win.gauss o n N) ∧ (∀ a, Win.Rounded.kaiser Real.sqrt Real.pi 1 a n N = Win.kaiser a n N) := by
  refine ⟨rfl, rfl, ?_, fun _ _ _ => rfl, fun a => ?_, fun o => ?_, fun a => ?_⟩
  · unfold Win.Rounded.lanczos Win.lanczos
    congr 1
    funext n2
    congr 1
    funext N1
    rw [mite_prop (n2 = N1) _ (by simp)]
    congr 2
    funext d
    congr 1
    funext e
    congr 1
    funext s
    rw [mite_prop (N1 = 0) _ (by simp)]
    unfold fdiv
    by_cases h : N1 = 0
    · rw [if_pos h, if_pos (by exact_mod_cast h)]
      rfl
    · rw [if_neg h, if_neg (by exact_mod_cast h)]
      simp only [bind, Except.bind]
      rw [mite_prop (Real.pi * (d : ℝ) / N1 = 0) _ (by simp)]
      split_ifs <;> rfl
  · unfold Win.Rounded.blackmanA Win.blackmanA
    simp only [Int.cast_ofNat]
    rfl
  · unfold Win.Rounded.gauss Win.gauss
    congr 1
    funext N1
    simp only [Int.cast_ofNat]
    rw [mite_prop (o * (N1 : ℝ) / 2 = 0) _ (by simp)]
    unfold fdiv
    split_ifs <;> rfl
  · unfold Win.Rounded.kaiser Win.kaiser Win.Rounded.offset2
    simp only [bind_assoc, i0_real]
    congr 1
    funext n2
    congr 1
    funext N1
    rw [mite_prop (N1 = 0) _ (by simp)]
    have hp : ∀ x : ℝ, Win.Rounded.i0 1 x ≠ 0 := by
      intro x
      obtain ⟨f, hf, -, h1, -⟩ := Win.C63_i0
      have e : Win.Rounded.i0 1 x = f x := Except.ok.inj ((i0_real x).symm.trans (hf x))
      rw [e]
      exact (lt_of_lt_of_le one_pos (h1 x)).ne'
    by_cases h : N1 = 0
    · rw [if_pos h, fdiv, if_pos (by exact_mod_cast h)]
      rfl
    · rw [if_neg h, fdiv, if_neg (by exact_mod_cast h)]
      simp only [bind, Except.bind, pure, Except.pure, fdiv, if_neg (hp _)]

/-- The middle of a Hann window. -/
example : Win.Rounded.hann Kernels.exact 1 0.5 2 5 = Win.hann Kernels.exact 2 5 := (C119_windows Kernels.exact 2 5).1

/-! ### Elementary functions -/

/-- **C119** The functions of atan2.hh, exp.hh and decibel.hh. -/
theorem C119_functions (x y : ℝ) (s : Bool) :
    Atan.atan x = .ok (Elementary.atan .real x) ∧ Atan.atan2 s y x = .ok (Elementary.atan2 .real s y x) ∧ decibel x = .ok (Elementary.decibel Real.sqrt .real x) ∧
      (∀ n v, Exp.ldexp x n = .ok v → Elementary.ldexp x n = .ok v) ∧ (∀ v, Exp.exp10 x = .ok v → Elementary.exp10 Pnm.nearbyint .real x = .ok v) ∧
      (∀ v, idecibel x = .ok v → Elementary.idecibel Pnm.nearbyint .real x = .ok v) := by
  have hl : ∀ (x : ℝ) n v, Exp.ldexp x n = .ok v → Elementary.ldexp x n = .ok v := by
    intro x n v h
    unfold Exp.ldexp at h
    unfold Elementary.ldexp
    cases h1 : (if n < 0 then int32 (-n) else pure n : M ℤ) with
    | error e => rw [h1] at h; cases h
    | ok a =>
      rw [h1] at h
      simp only [bind, Except.bind] at h ⊢
      cases h2 : Exp.shl (a.tdiv 8) with
      | error e => rw [h2] at h; cases h
      | ok b =>
        rw [h2] at h
        simp only at h ⊢
        cases h3 : Exp.shl (a - a.tdiv 8 * 8) with
        | error e => rw [h3] at h; cases h
        | ok c =>
          rw [h3] at h
          simp only at h ⊢
          split_ifs at h ⊢ with hn
          · unfold fdiv at h
            split_ifs at h with h0
            exact h
          · exact h
  have he : ∀ (x : ℝ) v, Exp.exp10 x = .ok v → Elementary.exp10 Pnm.nearbyint .real x = .ok v := by
    intro x v h
    unfold Exp.exp10 at h
    unfold Elementary.exp10
    have e1 : Elementary.ExpConsts.real.LOG210 = 3.32192809488736234787e0 := by norm_num [Elementary.ExpConsts.real, Elementary.ExpConsts.map, Elementary.ExpConsts.decimal]
    have e2 : Elementary.ExpConsts.real.LG102A = 3.01025390625000000000E-1 := by norm_num [Elementary.ExpConsts.real, Elementary.ExpConsts.map, Elementary.ExpConsts.decimal]
    have e3 : Elementary.ExpConsts.real.LG102B = 4.60503898119521373889E-6 := by norm_num [Elementary.ExpConsts.real, Elementary.ExpConsts.map, Elementary.ExpConsts.decimal]
    have e4 : Elementary.ExpConsts.real.P0 = 4.09962519798587023075E-2 := by norm_num [Elementary.ExpConsts.real, Elementary.ExpConsts.map, Elementary.ExpConsts.decimal]
    have e5 : Elementary.ExpConsts.real.P1 = 1.17452732554344059015E1 := by norm_num [Elementary.ExpConsts.real, Elementary.ExpConsts.map, Elementary.ExpConsts.decimal]
    have e6 : Elementary.ExpConsts.real.P2 = 4.06717289936872725516E2 := by norm_num [Elementary.ExpConsts.real, Elementary.ExpConsts.map, Elementary.ExpConsts.decimal]
    have e7 : Elementary.ExpConsts.real.P3 = 2.39423741207388267439E3 := by norm_num [Elementary.ExpConsts.real, Elementary.ExpConsts.map, Elementary.ExpConsts.decimal]
    have e8 : Elementary.ExpConsts.real.Q0 = 8.50936160849306532625E1 := by norm_num [Elementary.ExpConsts.real, Elementary.ExpConsts.map, Elementary.ExpConsts.decimal]
    have e9 : Elementary.ExpConsts.real.Q1 = 1.27209271178345121210E3 := by norm_num [Elementary.ExpConsts.real, Elementary.ExpConsts.map, Elementary.ExpConsts.decimal]
    have e10 : Elementary.ExpConsts.real.Q2 = 2.07960819286001865907E3 := by norm_num [Elementary.ExpConsts.real, Elementary.ExpConsts.map, Elementary.ExpConsts.decimal]
    rw [e1, e2, e3, e4, e5, e6, e7, e8, e9, e10]
    simp only [bind, Except.bind, Int.cast_one, Int.cast_ofNat] at h ⊢
    unfold fdiv at h
    split_ifs at h with h0
    simp only at h
    cases h1 : int32 (Pnm.nearbyint (x * 3.32192809488736234787e0)) with
    | error e => rw [h1] at h; cases h
    | ok n =>
      rw [h1] at h
      exact hl _ _ _ h
  refine ⟨Elementary.atan_real x, Elementary.atan2_real s y x, Elementary.decibel_real x, hl x, he x, fun v h => ?_⟩
  unfold idecibel fdiv at h
  rw [if_neg (by norm_num)] at h
  unfold Elementary.idecibel
  simp only [Int.cast_ofNat]
  exact he _ _ h

/-- Eight. -/
example : Elementary.ldexp (1 : ℝ) 3 = .ok 8 := by
  refine (C119_functions 1 1 false).2.2.2.1 3 8 ?_
  norm_num [Exp.ldexp, Exp.shl, bind, Except.bind, pure, Except.pure, Int.tdiv, show Int.toNat 3 = 3 from rfl]

/-! ### coeffs.hh -/

/-- **C119** The coefficients of coeffs.hh. -/
theorem C119_coeffs (TAPS : ℕ) (NORMALIZE : Bool) (f g : ℤ → ℤ → ℝ) (w : List ℝ) (hw : w.length = TAPS) :
    Coeffs.Rounded.make abs TAPS NORMALIZE (fun n N => .ok (f n N)) w = Coeffs.w <$> Coeffs.make TAPS NORMALIZE f w ∧
      Coeffs.Rounded.make2 abs TAPS NORMALIZE (fun n N => .ok (f n N)) (fun n N => .ok (g n N)) w = Coeffs.w <$> Coeffs.make2 TAPS NORMALIZE f g w := by
  have hn : ∀ v : List ℝ, v.length = TAPS → Coeffs.Rounded.normalize abs TAPS v ((1 : ℤ) : ℝ) = Coeffs.w <$> Coeffs.normalize ⟨v⟩ 1 := by
    intro v hv
    unfold Coeffs.Rounded.normalize Coeffs.normalize
    simp only [hv, fdiv_real, Int.cast_zero, Int.cast_one, map_bind, map_pure, bind_pure]
  have hl : ∀ h : ℕ → ℝ, ∃ v : List ℝ, (List.range TAPS).foldlM (fun w (n : ℕ) => wr w n (h n)) w = .ok v ∧ v.length = TAPS := by
    intro h
    obtain ⟨b, e, hb⟩ := foldlM_inv (fun _ (b : List ℝ) => b.length = TAPS) (fun w (n : ℕ) => wr w n (h n)) TAPS w hw (fun a ha b hb => ⟨_, wr_nat (by omega), by simp [hb]⟩)
    exact ⟨b, e, hb⟩
  constructor
  · unfold Coeffs.Rounded.make Coeffs.make
    obtain ⟨v, e, hv⟩ := hl fun n => f n TAPS
    have e' : (List.range TAPS).foldlM (fun w (n : ℕ) => do
      let v ← (Except.ok (f n TAPS) : M ℝ)
      wr w n v) w = .ok v := e
    simp only [e]
    rw [e']
    cases NORMALIZE
    · rfl
    · exact hn v hv
  · unfold Coeffs.Rounded.make2 Coeffs.make2
    obtain ⟨v, e, hv⟩ := hl fun n => f n TAPS * g n TAPS
    have e' : (List.range TAPS).foldlM (fun w (n : ℕ) => do
      let a ← (Except.ok (f n TAPS) : M ℝ)
      let b ← (Except.ok (g n TAPS) : M ℝ)
      wr w n (a * b)) w = .ok v := e
    simp only [e]
    rw [e']
    cases NORMALIZE
    · rfl
    · exact hn v hv

/-- Two taps and what was in the array before. -/
example : Coeffs.Rounded.make abs 2 true (fun _ _ => .ok 1) [5, 7] = .ok [(1 / 2 : ℝ), 1 / 2] := by
  rw [(C119_coeffs 2 true (fun _ _ => 1) (fun _ _ => 1) [5, 7] rfl).1]
  norm_num [Coeffs.make, Coeffs.normalize, wr, rd, fdiv, List.range_succ, bind, Except.bind, pure, Except.pure, Functor.map, Except.map]

/-! ### Objects -/

/-- The same steps on the same numbers, kept in another structure. -/
theorem foldlM_hom {α β γ : Type} (F : α → β) (f : α → γ → M α) (g : β → γ → M β) (h : ∀ a c, g (F a) c = F <$> f a c) (l : List γ) : ∀ a, l.foldlM g (F a) = F <$> l.foldlM f a := by
  induction l with
  | nil => exact fun a => rfl
  | cons c l ih =>
    intro a
    rw [List.foldlM_cons, List.foldlM_cons, h, map_bind]
    cases e : f a c with
    | error e => rfl
    | ok v => exact ih v

/-- The same for calls of an object. -/
theorem run_hom {σ τ ι κ ω ψ : Type} (F : σ → τ) (I : ι → κ) (O : ω → ψ) (f : σ → ι → M (σ × ω)) (g : τ → κ → M (τ × ψ)) (h : ∀ s i, g (F s) (I i) = (fun r => (F r.1, O r.2)) <$> f s i) (l : List ι) :
    ∀ s, run g (F s) (l.map I) = (fun r => (F r.1, r.2.map O)) <$> run f s l := by
  induction l with
  | nil => exact fun s => rfl
  | cons i l ih =>
    intro s
    rw [List.map_cons]
    unfold run
    rw [h]
    cases e : f s i with
    | error e => rfl
    | ok r =>
      obtain ⟨s', o⟩ := r
      simp only [Functor.map, Except.map]
      rw [ih s']
      cases e' : run f s' l with
      | error e => rfl
      | ok r => rfl

/-- The members of the natural spline. -/
def NaturalSpline.Rounded.plain (s : NaturalSpline.Rounded ℝ) : NaturalSpline := ⟨s.A, s.B, s.C, s.D, s.x0, s.dx⟩

/-- **C119** The splines of spline.hh. -/
theorem C119_splines :
    (∀ KNOTS junk Y x0 dx STRIDE, NaturalSpline.make KNOTS junk Y x0 dx STRIDE = NaturalSpline.Rounded.plain <$> NaturalSpline.Rounded.make KNOTS junk Y x0 dx STRIDE) ∧
      (∀ s KNOTS x, NaturalSpline.Rounded.call (fun x : ℝ => if 0 ≤ x then ⌊x⌋ else ⌈x⌉) s KNOTS x = s.plain.call KNOTS x) ∧
      (∀ X Y x, HermiteSpline.Rounded.eval (1 / 2) (fun a b : ℝ => decide (a < b)) X Y x = HermiteSpline.eval X Y x) ∧
      (∀ Y x x0 dx, HermiteSpline.Rounded.evalU (1 / 2) (fun x : ℝ => if 0 ≤ x then ⌊x⌋ else ⌈x⌉) Y x x0 dx = HermiteSpline.evalU Y x x0 dx) := by
  have c1 : ((1 : ℤ) : ℝ) = 1 := by norm_num
  have c2 : ((2 : ℤ) : ℝ) = 2 := by norm_num
  have c3 : ((3 : ℤ) : ℝ) = 3 := by norm_num
  have c4 : ((4 : ℤ) : ℝ) = 4 := by norm_num
  refine ⟨fun KNOTS junk Y x0 dx STRIDE => ?_, fun s KNOTS x => ?_, fun X Y x => ?_, fun Y x x0 dx => ?_⟩
  · have hf : NaturalSpline.Rounded.forward (V := ℝ) = NaturalSpline.forward := by
      funext Y S s i
      unfold NaturalSpline.Rounded.forward NaturalSpline.forward
      simp only [fdiv_real, c1, c2, c3, c4]
    let G : NaturalSpline.Rounded.Tables ℝ → NaturalSpline.Tables := fun t => ⟨t.A, t.B, t.C, t.D, t.c⟩
    have hb : ∀ Y S U Z t i, NaturalSpline.backward Y S U Z (G t) i = G <$> NaturalSpline.Rounded.backward Y S U Z t i := by
      intro Y S U Z t i
      unfold NaturalSpline.Rounded.backward NaturalSpline.backward
      simp only [fdiv_real, c2, c3, map_bind, map_pure, G]
    unfold NaturalSpline.Rounded.make NaturalSpline.make
    simp only [hf, Int.cast_zero, map_bind, map_pure]
    congr 1
    funext U
    congr 1
    funext Z
    congr 1
    funext UZ
    have := foldlM_hom G (fun s (j : ℕ) => NaturalSpline.Rounded.backward Y STRIDE UZ.1 UZ.2 s (KNOTS - 2 - j)) (fun s (j : ℕ) => NaturalSpline.backward Y STRIDE UZ.1 UZ.2 s (KNOTS - 2 - j))
      (fun t j => hb _ _ _ _ _ _) (List.range (KNOTS - 1)) ⟨junk, junk, junk, junk, 0⟩
    obtain ⟨U', Z'⟩ := UZ
    simp only at this ⊢
    rw [show (⟨junk, junk, junk, junk, 0⟩ : NaturalSpline.Tables) = G ⟨junk, junk, junk, junk, 0⟩ from rfl, this]
    rw [bind_map_left]
    rfl
  · unfold NaturalSpline.Rounded.call NaturalSpline.call
    simp only [fdiv_real, NaturalSpline.Rounded.plain]
    have hl : ∀ (tx : ℝ) k, NaturalSpline.Rounded.locate KNOTS tx k = NaturalSpline.locate KNOTS tx k := by
      intro tx k
      unfold NaturalSpline.Rounded.locate NaturalSpline.locate
      simp only [Int.cast_sub, Int.cast_natCast, Int.cast_ofNat]
    simp only [hl]
    rfl
  · have hleft : HermiteSpline.Rounded.left (V := ℝ) = HermiteSpline.left := by
      funext X Y p
      unfold HermiteSpline.Rounded.left HermiteSpline.left
      simp only [fdiv_real]
    have hright : HermiteSpline.Rounded.right (V := ℝ) = HermiteSpline.right := by
      funext X Y p
      unfold HermiteSpline.Rounded.right HermiteSpline.right
      simp only [fdiv_real]
    have hcentral : HermiteSpline.Rounded.central (1 / 2 : ℝ) = HermiteSpline.central := by
      funext X Y p
      unfold HermiteSpline.Rounded.central HermiteSpline.central
      simp only [hleft, hright]
    have hblend : HermiteSpline.Rounded.blend (V := ℝ) = HermiteSpline.blend := by
      funext t y0 y1 w m0 m1
      unfold HermiteSpline.Rounded.blend HermiteSpline.blend HermiteSpline.Rounded.h00 HermiteSpline.Rounded.h10 HermiteSpline.Rounded.h01 HermiteSpline.Rounded.h11 HermiteSpline.h00 HermiteSpline.h10
        HermiteSpline.h01 HermiteSpline.h11
      simp only [c1, c2, c3]
    have hseg : HermiteSpline.Rounded.segment (1 / 2 : ℝ) = HermiteSpline.segment := by
      funext X Y t k n
      unfold HermiteSpline.Rounded.segment HermiteSpline.segment
      simp only [hleft, hright, hcentral, hblend]
    have hpos : HermiteSpline.Rounded.position (V := ℝ) = HermiteSpline.position := by
      funext X x a b
      unfold HermiteSpline.Rounded.position HermiteSpline.position
      simp only [fdiv_real]
    unfold HermiteSpline.Rounded.eval HermiteSpline.eval
    simp only [hseg, hpos]
  · have hblend : HermiteSpline.Rounded.blendU (V := ℝ) = HermiteSpline.blendU := by
      funext t y0 y1 m0 m1
      unfold HermiteSpline.Rounded.blendU HermiteSpline.blendU HermiteSpline.Rounded.h00 HermiteSpline.Rounded.h10 HermiteSpline.Rounded.h01 HermiteSpline.Rounded.h11 HermiteSpline.h00 HermiteSpline.h10
        HermiteSpline.h01 HermiteSpline.h11
      simp only [c1, c2, c3]
    have hseg : HermiteSpline.Rounded.segmentU (1 / 2 : ℝ) = HermiteSpline.segmentU := by
      funext Y t k n
      unfold HermiteSpline.Rounded.segmentU HermiteSpline.segmentU
      simp only [hblend]
      rfl
    unfold HermiteSpline.Rounded.evalU HermiteSpline.evalU
    simp only [hseg, fdiv_real]
    rfl

/-- Beyond the last knot. -/
example (trunc : ℝ → ℤ) (h : trunc = fun x => if 0 ≤ x then ⌊x⌋ else ⌈x⌉) : HermiteSpline.Rounded.evalU (1 / 2) trunc [0, 1, 4] 7 0 1 = HermiteSpline.evalU [0, 1, 4] 7 0 1 := by
  rw [h]
  exact C119_splines.2.2.2 _ _ _ _

/-- The members of the Hilbert transform. -/
def Hilbert.Rounded.State.plain (s : Hilbert.Rounded.State ℝ) : Hilbert := ⟨s.real, s.imco, s.reco⟩

/-- The members of the down converter. -/
def CDC.Rounded.State.plain (s : CDC.Rounded.State ℝ) : CDC := ⟨s.real, s.imag, s.imco, s.reco, s.sign⟩

theorem hilbert_call_real (TAPS : ℕ) (h : Hilbert.Rounded.State ℝ) (x : ℝ) :
    h.plain.call TAPS x = (fun r => (r.1.plain, (⟨r.2.1, r.2.2⟩ : ℂ))) <$> Hilbert.Rounded.call TAPS h x := by
  unfold Hilbert.Rounded.call Hilbert.call
  simp only [map_bind, map_pure]
  rfl

theorem cdc_call_real (TAPS : ℕ) (c : CDC.Rounded.State ℝ) (x : ℝ × ℝ) :
    c.plain.call TAPS x = (fun r => (r.1.plain, (⟨r.2.1, r.2.2⟩ : ℂ))) <$> CDC.Rounded.call TAPS c x := by
  unfold CDC.Rounded.call CDC.call
  simp only [map_bind, map_pure]
  rfl

/-- **C119** The Hilbert transform of hilbert.hh, from the constructor to the last call. -/
theorem C119_hilbert (TAPS : ℕ) (a : ℝ) (real imco xs : List ℝ) :
    (do let h ← Hilbert.make TAPS a real imco
        let r ← run (Hilbert.call TAPS) h xs
        return r.2) =
      (do let h ← Hilbert.Rounded.make (Win.Rounded.kaiser Real.sqrt Real.pi 1 a) Real.pi TAPS real imco
          let r ← run (Hilbert.Rounded.call TAPS) h xs
          return r.2.map fun y => (⟨y.1, y.2⟩ : ℂ)) := by
  have hm : Hilbert.make TAPS a real imco = Hilbert.Rounded.State.plain <$> Hilbert.Rounded.make (Win.Rounded.kaiser Real.sqrt Real.pi 1 a) Real.pi TAPS real imco := by
    unfold Hilbert.Rounded.make Hilbert.make
    simp only [fdiv_real, map_bind, map_pure, (C119_windows Kernels.exact _ _).2.2.2.2.2.2, Int.cast_ofNat]
    push_cast
    rfl
  rw [hm, bind_map_left]
  congr 1
  funext h
  have := run_hom Hilbert.Rounded.State.plain id (fun y : ℝ × ℝ => (⟨y.1, y.2⟩ : ℂ)) (Hilbert.Rounded.call TAPS) (Hilbert.call TAPS) (fun s i => hilbert_call_real TAPS s i) xs h
  rw [List.map_id] at this
  rw [this, bind_map_left]

/-- **C119** The down converter of cdc.hh, from the constructor to the last call. -/
theorem C119_cdc (K : Kernels) (TAPS : ℕ) (a : ℝ) (real imag imco : List ℝ) (xs : List (ℝ × ℝ)) :
    (do let c ← CDC.make K TAPS a real imag imco
        let r ← run (CDC.call TAPS) c xs
        return r.2) =
      (do let c ← CDC.Rounded.make (Win.Rounded.kaiser Real.sqrt Real.pi 1 a) (Fir.Rounded.lowPass2 K (Real.pi / 2) 1 4) TAPS real imag imco
          let r ← run (CDC.Rounded.call TAPS) c xs
          return r.2.map fun y => (⟨y.1, y.2⟩ : ℂ)) := by
  have hm : CDC.make K TAPS a real imag imco = CDC.Rounded.State.plain <$> CDC.Rounded.make (Win.Rounded.kaiser Real.sqrt Real.pi 1 a) (Fir.Rounded.lowPass2 K (Real.pi / 2) 1 4) TAPS real imag imco := by
    unfold CDC.Rounded.make CDC.make
    simp only [map_bind, map_pure, (C119_windows K _ _).2.2.2.2.2.2, (C119_fir K _ _).2.2.2.1]
    rfl
  rw [hm, bind_map_left]
  congr 1
  funext h
  have := run_hom CDC.Rounded.State.plain id (fun y : ℝ × ℝ => (⟨y.1, y.2⟩ : ℂ)) (CDC.Rounded.call TAPS) (CDC.call TAPS) (fun s i => cdc_call_real TAPS s i) xs h
  rw [List.map_id] at this
  rw [this, bind_map_left]

end DSP
