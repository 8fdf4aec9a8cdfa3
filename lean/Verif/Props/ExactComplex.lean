import Verif.Props.Exact
import Verif.Model.HalfComplexRounded
import Mathlib.Analysis.SpecialFunctions.Complex.Arg

/-!
# C119: the complex numbers of complex.hh

Over the real numbers they are the complex numbers, and so the models for machine numbers are those in exact arithmetic here as well.
-/

namespace DSP

open FFT

/-- The same complex number. -/
def Cplx.plain (z : Cplx ℝ) : ℂ := ⟨z.re, z.im⟩

namespace Cplx

theorem plain_zero : (0 : Cplx ℝ).plain = 0 := rfl

theorem plain_add (a b : Cplx ℝ) : (a + b).plain = a.plain + b.plain := rfl

theorem plain_sub (a b : Cplx ℝ) : (a - b).plain = a.plain - b.plain := rfl

theorem plain_mul (a b : Cplx ℝ) : (a * b).plain = a.plain * b.plain := by
  apply Complex.ext
  · rw [Complex.mul_re]; rfl
  · rw [Complex.mul_im]; rfl

theorem plain_smul (r : ℝ) (a : Cplx ℝ) : (r • a).plain = r • a.plain := by
  apply Complex.ext
  · rw [Complex.smul_re]; rfl
  · rw [Complex.smul_im]; rfl

theorem plain_smul' (r : ℝ) (a : Cplx ℝ) : (r • a).plain = (r : ℂ) * a.plain := by rw [plain_smul, Complex.real_smul]

theorem plain_conj (a : Cplx ℝ) : a.conj.plain = (starRingEnd ℂ) a.plain := rfl

theorem plain_addAssign (a b : Cplx ℝ) : (a.addAssign b).plain = a.plain + b.plain := by
  show (b + a).plain = _
  rw [plain_add, add_comm]

theorem plain_smulAssign (r : ℝ) (a : Cplx ℝ) : (a.smulAssign r).plain = (r : ℂ) * a.plain := plain_smul' r a

theorem plain_ofReal (r : ℝ) : (Cplx.ofReal r).plain = r := rfl

theorem norm_plain (a : Cplx ℝ) : a.norm = Complex.normSq a.plain := by rw [Complex.normSq_apply]; rfl

theorem abs_plain (a : Cplx ℝ) : a.abs Real.sqrt = ‖a.plain‖ := by
  rw [Complex.norm_def, Cplx.abs, norm_plain]

theorem arg_plain (a : Cplx ℝ) : a.arg (fun y x => Complex.arg ⟨x, y⟩) = Complex.arg a.plain := rfl

theorem plain_inj {a b : Cplx ℝ} (h : a.plain = b.plain) : a = b := by
  cases a; cases b
  have h1 := congrArg Complex.re h
  have h2 := congrArg Complex.im h
  simp only [plain] at h1 h2
  rw [h1, h2]

end Cplx

/-! ### Memory -/

theorem rd_map {α β : Type} (f : α → β) (l : List α) (i : ℤ) : rd (l.map f) i = f <$> rd l i := by
  unfold rd
  split_ifs with h
  · rw [List.getElem?_map]
    cases l[i.toNat]? <;> rfl
  · rfl

theorem wr_map {α β : Type} (f : α → β) (l : List α) (i : ℤ) (v : α) : wr (l.map f) i (f v) = List.map f <$> wr l i v := by
  unfold wr
  rw [List.length_map]
  split_ifs with h
  · show Except.ok _ = Except.ok _
    rw [List.map_set]
  · rfl

theorem mapM_hom {α β γ : Type} (F : α → β) (f : γ → M α) (g : γ → M β) (h : ∀ c, g c = F <$> f c) (l : List γ) : l.mapM g = List.map F <$> l.mapM f := by
  induction l with
  | nil => rfl
  | cons c l ih => simp only [List.mapM_cons, h, ih, map_bind, map_pure, bind_map_left, List.map_cons]

theorem foldl_plain {γ : Type} (f : Cplx ℝ → γ → Cplx ℝ) (g : ℂ → γ → ℂ) (h : ∀ a c, g a.plain c = (f a c).plain) (l : List γ) : ∀ a : Cplx ℝ, l.foldl g a.plain = (l.foldl f a).plain := by
  induction l with
  | nil => exact fun a => rfl
  | cons c l ih =>
    intro a
    rw [List.foldl_cons, List.foldl_cons, h, ih]

/-! ### The transforms -/

theorem twiddle_plain (a b : Cplx ℝ) : twiddle a.plain b.plain = (twiddle a b).plain := rfl

theorem fiddle_plain (a b : Cplx ℝ) : fiddle a.plain b.plain = (fiddle a b).plain := rfl

theorem rsqrt2_plain (T : Trig ℝ) (a : Cplx ℝ) : rsqrt2 T a.plain = (rsqrt2 T a).plain := by
  unfold rsqrt2
  rw [Cplx.plain_mul]
  rfl

theorem cx_plain (T : Trig ℝ) (n N : ℕ) (a : Cplx ℝ) : cx T n N a.plain = (cx T n N a).plain := (Cplx.plain_smul _ _).symm

theorem sx_plain (T : Trig ℝ) (n N : ℕ) (a : Cplx ℝ) : sx T n N a.plain = (sx T n N a).plain := (Cplx.plain_smul _ _).symm

theorem oddDft_plain (T : Trig ℝ) (R : ℕ) (ctab : List (List ℕ)) (stab : List (List ℤ)) (x : ℕ → Cplx ℝ) :
    oddDft T R ctab stab (fun n => (x n).plain) = (oddDft T R ctab stab x).map Cplx.plain := by
  unfold oddDft
  simp only [← Cplx.plain_add, twiddle_plain, cx_plain, sx_plain]
  rw [List.map_map]
  refine List.map_congr_left fun k _ => ?_
  have key : ∀ k : ℕ, (List.range ((R - 1) / 2 - 1)).foldl (fun sum j => sum + (cx T ((ctab.getD (k - 1) []).getD (j + 2 - 1) 0) R (x (j + 2) + x (R - (j + 2)))).plain)
      (cx T ((ctab.getD (k - 1) []).getD (1 - 1) 0) R (x 1 + x (R - 1))).plain = ((List.range ((R - 1) / 2 - 1)).foldl (fun sum j => sum + cx T ((ctab.getD (k - 1) []).getD (j + 2 - 1) 0) R (x (j + 2) + x (R - (j + 2))))
      (cx T ((ctab.getD (k - 1) []).getD (1 - 1) 0) R (x 1 + x (R - 1)))).plain := fun k => foldl_plain _ _ (fun a c => rfl) _ _
  have key' : ∀ k : ℕ, (List.range ((R - 1) / 2 - 1)).foldl (fun sum j => if (stab.getD (k - 1) []).getD (j + 2 - 1) 0 < 0
        then sum - (sx T ((stab.getD (k - 1) []).getD (j + 2 - 1) 0).natAbs R (twiddle (x (j + 2)) (x (R - (j + 2))))).plain
        else sum + (sx T ((stab.getD (k - 1) []).getD (j + 2 - 1) 0).natAbs R (twiddle (x (j + 2)) (x (R - (j + 2))))).plain)
      (sx T ((stab.getD (k - 1) []).getD (1 - 1) 0).natAbs R (twiddle (x 1) (x (R - 1)))).plain =
      ((List.range ((R - 1) / 2 - 1)).foldl (fun sum j => if (stab.getD (k - 1) []).getD (j + 2 - 1) 0 < 0
        then sum - sx T ((stab.getD (k - 1) []).getD (j + 2 - 1) 0).natAbs R (twiddle (x (j + 2)) (x (R - (j + 2))))
        else sum + sx T ((stab.getD (k - 1) []).getD (j + 2 - 1) 0).natAbs R (twiddle (x (j + 2)) (x (R - (j + 2)))))
      (sx T ((stab.getD (k - 1) []).getD (1 - 1) 0).natAbs R (twiddle (x 1) (x (R - 1))))).plain := fun k => foldl_plain _ _ (fun a c => by split_ifs <;> rfl) _ _
  have key0 : (List.range ((R - 1) / 2)).foldl (fun sum j => sum + (x (j + 1) + x (R - (j + 1))).plain) (x 0).plain =
      ((List.range ((R - 1) / 2)).foldl (fun sum j => sum + (x (j + 1) + x (R - (j + 1)))) (x 0)).plain := foldl_plain _ _ (fun a c => rfl) _ _
  rw [key0, key, key', key, key']
  simp only [Function.comp]
  split_ifs <;> rfl

theorem dft_plain (T : Trig ℝ) (s : ℤ) (R : ℕ) (x : ℕ → Cplx ℝ) : FFT.dft T s R (fun n => (x n).plain) = (FFT.dft T s R x).map Cplx.plain := by
  have key : dftPos T R (fun n => (x n).plain) = (dftPos T R x).map Cplx.plain := by
    unfold dftPos
    have h2 : dft2 (fun n => (x n).plain) = (dft2 x).map Cplx.plain := rfl
    have h4 : dft4 (fun n => (x n).plain) = (dft4 x).map Cplx.plain := rfl
    have h8 : dft8 T (fun n => (x n).plain) = (dft8 T x).map Cplx.plain := by
      unfold dft8
      simp only [← Cplx.plain_add, ← Cplx.plain_sub, twiddle_plain, fiddle_plain, rsqrt2_plain]
      rfl
    rw [h2, h4, h8, oddDft_plain T 3 c3 s3, oddDft_plain T 5 c5 s5, oddDft_plain T 7 c7 s7, oddDft_plain T 11 c11 s11, oddDft_plain T 13 c13 s13, oddDft_plain T 17 c17 s17, oddDft_plain T 19 c19 s19, oddDft_plain T 23 c23 s23, oddDft_plain T 29 c29 s29, oddDft_plain T 31 c31 s31]
    iterate 13 rw [apply_ite (List.map Cplx.plain)]
    rfl
  unfold FFT.dft
  simp only [key]
  split_ifs
  · simp
  · rfl

theorem getD_plain (l : List (Cplx ℝ)) (a : ℕ) : (l.map Cplx.plain).getD a 0 = (l.getD a 0).plain := by
  rw [List.getD_eq_getElem?_getD, List.getD_eq_getElem?_getD, List.getElem?_map]
  cases l[a]? <;> rfl

theorem store_plain (out : List (Cplx ℝ)) (o step : ℕ) (y : List (Cplx ℝ)) : store (out.map Cplx.plain) o step (y.map Cplx.plain) = List.map Cplx.plain <$> store out o step y := by
  unfold store
  rw [List.length_map]
  refine foldlM_hom (List.map Cplx.plain) _ _ (fun a c => ?_) _ out
  rw [getD_plain, wr_map]

theorem dit_plain (T : Trig ℝ) (s : ℤ) (inp z : List (Cplx ℝ)) : ∀ (fuel BINS STRIDE : ℕ) (out : List (Cplx ℝ)) (o i : ℕ),
    dit T s fuel BINS STRIDE (out.map Cplx.plain) o (inp.map Cplx.plain) i (z.map Cplx.plain) = List.map Cplx.plain <$> dit T s fuel BINS STRIDE out o inp i z := by
  intro fuel
  induction fuel with
  | zero => intros; rfl
  | succ fuel ih =>
    intro B S out o i
    unfold dit
    simp only
    split_ifs with h1 h2 h3
    · rw [rd_map, bind_map_left, map_bind]
      simp only [wr_map]
    · rfl
    · rw [mapM_hom Cplx.plain (fun a => rd inp ((i + a * S : ℕ) : ℤ)) _ (fun a => rd_map _ _ _), bind_map_left, map_bind]
      simp only [getD_plain, dft_plain, store_plain]
    · rw [foldlM_hom (List.map Cplx.plain) (fun out a => dit T s fuel (B / split B) (split B * S) out (o + a * (B / split B)) inp (i + a * S) z) _ (fun out a => ih _ _ _ _ _) _ out, bind_map_left, map_bind]
      congr 1
      funext out
      refine foldlM_hom (List.map Cplx.plain) _ _ (fun out k0 => ?_) _ out
      rw [mapM_hom Cplx.plain (fun a => do
          let v ← rd out ((o + k0 + a * (B / split B) : ℕ) : ℤ)
          if a = 0 then return v else
          let w ← rd z ((k0 * (a * S) : ℕ) : ℤ)
          return w * v) _ (fun a => ?_), bind_map_left, map_bind]
      · simp only [getD_plain, dft_plain, store_plain]
      · rw [rd_map, bind_map_left, map_bind]
        congr 1
        funext v
        split_ifs with h
        · rfl
        · rw [rd_map, bind_map_left, map_bind]
          congr 1

theorem factors_plain (T : Trig ℝ) (s : ℤ) (N : ℕ) : (factors T s N : List ℂ) = (factors T s N : List (Cplx ℝ)).map Cplx.plain := by
  unfold factors
  rw [List.map_map]
  rfl

/-- **C119** The transform of fft.hh. -/
theorem C119_transform (T : Trig ℝ) (s : ℤ) (N : ℕ) (out inp : List (Cplx ℝ)) : FFT.call T s N (out.map Cplx.plain) (inp.map Cplx.plain) = List.map Cplx.plain <$> FFT.call T s N out inp := by
  unfold FFT.call
  rw [factors_plain, dit_plain]

theorem halfFactors_plain (T : Trig ℝ) (N : ℕ) : (factors T (-1) N : List ℂ) = (FFT.Rounded.factors T N).map Cplx.plain := by
  unfold factors FFT.Rounded.factors
  rw [List.map_map]
  refine List.map_congr_left fun n _ => ?_
  apply Complex.ext
  · rfl
  · show ((-1 : ℤ) : ℝ) * T.sin n N = -T.sin n N
    push_cast
    ring

theorem halfA_plain (T : Trig ℝ) (B n : ℕ) : halfA T B n = (FFT.Rounded.halfA T 1 (1 / 2) B n).plain := by
  unfold halfA FFT.Rounded.halfA
  rw [Cplx.plain_smul', Cplx.plain_sub, Cplx.plain_ofReal, Complex.ofReal_one]
  rfl

theorem halfB_plain (T : Trig ℝ) (B n : ℕ) : halfB T B n = (FFT.Rounded.halfB T 1 (1 / 2) B n).plain := by
  unfold halfB FFT.Rounded.halfB
  rw [Cplx.plain_smul', Cplx.plain_add, Cplx.plain_ofReal, Complex.ofReal_one]
  rfl

/-- **C119** The real transform of fft.hh. -/
theorem C119_real (T : Trig ℝ) (B : ℕ) (out : List (Cplx ℝ)) (inp : List ℝ) : halfComplex T B (out.map Cplx.plain) inp = List.map Cplx.plain <$> FFT.Rounded.halfComplex T 1 (1 / 2) B out inp := by
  unfold halfComplex FFT.Rounded.halfComplex
  have hA : (List.range (B / 2)).map (halfA T B) = ((List.range (B / 2)).map (FFT.Rounded.halfA T 1 (1 / 2) B)).map Cplx.plain := by
    rw [List.map_map]
    exact List.map_congr_left fun n _ => halfA_plain T B n
  have hB : (List.range (B / 2)).map (halfB T B) = ((List.range (B / 2)).map (FFT.Rounded.halfB T 1 (1 / 2) B)).map Cplx.plain := by
    rw [List.map_map]
    exact List.map_congr_left fun n _ => halfB_plain T B n
  have hp : (List.range (inp.length / 2)).map (fun n => (⟨inp.getD (2 * n) 0, inp.getD (2 * n + 1) 0⟩ : ℂ)) =
      ((List.range (inp.length / 2)).map (fun n => (⟨inp.getD (2 * n) 0, inp.getD (2 * n + 1) 0⟩ : Cplx ℝ))).map Cplx.plain := by
    rw [List.map_map]
    rfl
  simp only [hA, hB, hp, halfFactors_plain, dit_plain, map_bind, bind_map_left, rd_map]
  congr 1
  funext out
  congr 1
  funext out0
  rw [show (((1 / 2 : ℝ) * (out0.plain.re - out0.plain.im) : ℝ) : ℂ) = (⟨1 / 2 * (out0.re - out0.im), 0⟩ : Cplx ℝ).plain from rfl, wr_map, bind_map_left]
  congr 1
  funext out
  rw [rd_map, bind_map_left]
  congr 1
  funext out0
  rw [show (((1 / 2 : ℝ) * (out0.plain.re + out0.plain.im) : ℝ) : ℂ) = (⟨1 / 2 * (out0.re + out0.im), 0⟩ : Cplx ℝ).plain from rfl, wr_map, bind_map_left]
  congr 1
  funext out
  refine foldlM_hom (List.map Cplx.plain) (FFT.Rounded.combine (B / 2) _ _) _ (fun out i => ?_) _ out
  unfold FFT.Rounded.combine
  simp only [rd_map, map_bind, bind_map_left, ← Cplx.plain_conj, ← Cplx.plain_mul, ← Cplx.plain_add, wr_map]

/-- **C119** The zero padding of fdzp.hh. -/
theorem C119_padding (T : Trig ℝ) (OUTPUT INPUT : ℕ) (tmp output input : List (Cplx ℝ)) :
    FDZP.call T OUTPUT INPUT (tmp.map Cplx.plain) (output.map Cplx.plain) (input.map Cplx.plain) =
      (fun r => (r.1.map Cplx.plain, r.2.map Cplx.plain)) <$> FDZP.Rounded.call T 1 (1 / 2) OUTPUT INPUT tmp output input := by
  unfold FDZP.call FDZP.Rounded.call
  simp only [C119_transform, map_bind, bind_map_left]
  congr 1
  funext tmp
  have h1 : M.ite (INPUT % 2 == 0) (do
      let t ← rd (tmp.map Cplx.plain) ((INPUT / 2 : ℕ) : ℤ)
      let tmp ← wr (tmp.map Cplx.plain) ((INPUT / 2 : ℕ) : ℤ) (((1 / 2 : ℝ) : ℂ) * t)
      let t ← rd tmp ((INPUT / 2 : ℕ) : ℤ)
      wr tmp ((OUTPUT - INPUT / 2 : ℕ) : ℤ) t) (return tmp.map Cplx.plain) = List.map Cplx.plain <$> M.ite (INPUT % 2 == 0) (do
      let t ← rd tmp ((INPUT / 2 : ℕ) : ℤ)
      let tmp ← wr tmp ((INPUT / 2 : ℕ) : ℤ) (t.smulAssign (1 / 2 : ℝ))
      let t ← rd tmp ((INPUT / 2 : ℕ) : ℤ)
      wr tmp ((OUTPUT - INPUT / 2 : ℕ) : ℤ) t) (return tmp) := by
    unfold M.ite
    split_ifs
    · simp only [rd_map, map_bind, bind_map_left, ← Cplx.plain_smulAssign, wr_map]
    · rfl
  rw [h1, bind_map_left]
  congr 1
  funext tmp
  rw [foldlM_hom (List.map Cplx.plain) (fun tmp (a : ℕ) => do
    let t ← rd tmp (((INPUT + 1) / 2 + 1 + a : ℕ) : ℤ)
    wr tmp ((OUTPUT - INPUT + ((INPUT + 1) / 2 + 1 + a) : ℕ) : ℤ) t) _ (fun tmp a => by simp only [rd_map, map_bind, bind_map_left, wr_map]) _ tmp, bind_map_left]
  congr 1
  funext tmp
  rw [foldlM_hom (List.map Cplx.plain) (fun tmp (a : ℕ) => wr tmp (((INPUT + 1) / 2 + 1 + a : ℕ) : ℤ) 0) _ (fun tmp a => by rw [← Cplx.plain_zero, wr_map]) _ tmp, bind_map_left]
  congr 1
  funext tmp
  rw [C119_transform, bind_map_left]
  congr 1
  funext output
  rw [foldlM_hom (List.map Cplx.plain) (fun output (i : ℕ) => do
    let v ← rd output (i : ℤ)
    wr output (i : ℤ) (v.smulAssign (FDZP.Rounded.scale (1 : ℝ) INPUT))) _ (fun output a => by
      simp only [rd_map, map_bind, bind_map_left]
      congr 1
      funext v
      rw [← wr_map, Cplx.plain_smulAssign]
      unfold FDZP.Rounded.scale
      push_cast
      rfl) _ output, bind_map_left]
  rfl

/-- An odd size, for which the padding is not the interpolant. -/
example (T : Trig ℝ) (x : List (Cplx ℝ)) : FDZP.call T 5 3 (FDZP.init 5) (List.replicate 5 0) (x.map Cplx.plain) =
    (fun r => (r.1.map Cplx.plain, r.2.map Cplx.plain)) <$> FDZP.Rounded.call T 1 (1 / 2) 5 3 (FDZP.Rounded.init 5) (List.replicate 5 0) x := C119_padding T 5 3 (FDZP.Rounded.init 5) (List.replicate 5 0) x

/-! ### Adaptive filters -/

/-- The members of the adaptive filter. -/
def NLMS.Rounded.plain (f : NLMS.Rounded ℝ) : NLMS := ⟨f.history, f.filter⟩

theorem nlms_call_real (f : NLMS.Rounded ℝ) (args : ℝ × ℝ × ℝ) : f.plain.call args = (fun r => (r.1.plain, r.2)) <$> NLMS.Rounded.call f args := by
  obtain ⟨input, desired, mu⟩ := args
  unfold NLMS.Rounded.call NLMS.call
  simp only [NLMS.Rounded.plain, map_bind]
  congr 1
  funext history
  congr 1
  funext estimate
  congr 1
  funext power
  rw [mite_prop (power = 0) _ (by simp)]
  unfold fdiv
  split_ifs with h
  · rfl
  · simp only [map_bind, map_pure]
    rfl

/-- **C119** The adaptive filter of lms.hh. -/
theorem C119_lms (SIZE : ℕ) (xs : List (ℝ × ℝ × ℝ)) :
    run NLMS.call (NLMS.init SIZE) xs = (fun r => (r.1.plain, r.2)) <$> run NLMS.Rounded.call (NLMS.Rounded.init SIZE) xs := by
  have := run_hom NLMS.Rounded.plain id id NLMS.Rounded.call NLMS.call (fun s i => nlms_call_real s i) xs (NLMS.Rounded.init SIZE)
  simp only [List.map_id] at this
  exact this

/-- The cells of a buffer. -/
def BipBuffer.plain (b : BipBuffer (Cplx ℝ)) : BipBuffer ℂ := ⟨b.num, b.buf.map Cplx.plain, b.pos0, b.pos1⟩

theorem put_plain (b : BipBuffer (Cplx ℝ)) (x : Cplx ℝ) : b.plain.put x.plain = BipBuffer.plain <$> b.put x := by
  unfold BipBuffer.put
  simp only [BipBuffer.plain, wr_map, map_bind, bind_map_left, map_pure]
  rfl

/-- The members of the complex adaptive filter. -/
def NCLMS.Rounded.plain (f : NCLMS.Rounded ℝ) : NCLMS := ⟨f.history.plain, f.filter.map Cplx.plain⟩

theorem nclms_call_real (f : NCLMS.Rounded ℝ) (args : Cplx ℝ × Cplx ℝ × ℝ) :
    f.plain.call (args.1.plain, args.2.1.plain, args.2.2) = (fun r => (r.1.plain, r.2.plain)) <$> NCLMS.Rounded.call f args := by
  obtain ⟨input, desired, mu⟩ := args
  unfold NCLMS.Rounded.call NCLMS.call
  simp only [NCLMS.Rounded.plain, map_bind]
  rw [← Cplx.plain_conj, put_plain, bind_map_left]
  congr 1
  funext history
  have h1 := foldlM_hom Cplx.plain (fun (acc : Cplx ℝ) (i : ℕ) => do
    let c ← rd f.filter i
    let h ← rd history.buf (history.ptr + i)
    return acc.addAssign (c.conj * h)) (fun (acc : ℂ) (i : ℕ) => do
    let c ← rd (f.filter.map Cplx.plain) i
    let h ← rd (history.buf.map Cplx.plain) (history.ptr + i)
    return acc + starRingEnd ℂ c * h) (fun a i => by simp only [rd_map, map_bind, bind_map_left, map_pure, Cplx.plain_addAssign, Cplx.plain_mul, Cplx.plain_conj]) (List.range history.num) (Cplx.ofReal 0)
  have h2 : (List.range history.num).foldlM (fun (acc : ℝ) (i : ℕ) => do
    let h ← rd (history.buf.map Cplx.plain) (history.ptr + i)
    return acc + Complex.normSq h) (0 : ℝ) = (List.range history.num).foldlM (fun (acc : ℝ) (i : ℕ) => do
    let h ← rd history.buf (history.ptr + i)
    return acc + h.norm) (0 : ℝ) := by
    simp only [rd_map, bind_map_left, ← Cplx.norm_plain]
  show (List.foldlM (fun (acc : ℂ) (i : ℕ) => do
    let c ← rd (f.filter.map Cplx.plain) i
    let h ← rd (history.buf.map Cplx.plain) (history.ptr + i)
    return acc + starRingEnd ℂ c * h) (Cplx.ofReal 0).plain (List.range history.num) >>= fun estimate => _) = _
  rw [h1, bind_map_left]
  congr 1
  funext estimate
  show ((List.range history.num).foldlM (fun (acc : ℝ) (i : ℕ) => do
    let h ← rd (history.buf.map Cplx.plain) (history.ptr + i)
    return acc + Complex.normSq h) (0 : ℝ) >>= fun power => _) = _
  rw [h2]
  congr 1
  funext power
  have he : (starRingEnd ℂ) (desired.conj.plain - estimate.plain) = (desired.conj - estimate).conj.plain := rfl
  rw [mite_prop (power = 0) _ (by simp)]
  unfold fdiv
  split_ifs with h
  · rfl
  · simp only [map_bind, map_pure]
    have h3 := foldlM_hom (List.map Cplx.plain) (fun (filter : List (Cplx ℝ)) (i : ℕ) => do
      let c ← rd filter i
      let h ← rd history.buf (history.ptr + i)
      wr filter i (c.addAssign ((mu / power) • (desired.conj - estimate).conj * h))) (fun (filter : List ℂ) (i : ℕ) => do
      let c ← rd filter i
      let h ← rd (history.buf.map Cplx.plain) (history.ptr + i)
      wr filter i (c + ((mu / power : ℝ) : ℂ) * (starRingEnd ℂ) (desired.conj.plain - estimate.plain) * h)) (fun a i => by
        simp only [rd_map, map_bind, bind_map_left, he, ← Cplx.plain_smul', ← Cplx.plain_mul, ← Cplx.plain_addAssign, wr_map]) (List.range history.num) f.filter
    show (List.foldlM (fun (filter : List ℂ) (i : ℕ) => do
      let c ← rd filter i
      let h ← rd (history.buf.map Cplx.plain) (history.ptr + i)
      wr filter i (c + ((mu / power : ℝ) : ℂ) * (starRingEnd ℂ) (desired.conj.plain - estimate.plain) * h)) (f.filter.map Cplx.plain) (List.range history.num) >>= fun filter => _) = _
    rw [h3, bind_map_left]
    rfl

/-- **C119** The complex adaptive filter of lms.hh. -/
theorem C119_clms (SIZE : ℕ) (xs : List (Cplx ℝ × Cplx ℝ × ℝ)) :
    run NCLMS.call (NCLMS.init SIZE) (xs.map fun a => (a.1.plain, a.2.1.plain, a.2.2)) = (fun r => (r.1.plain, r.2.map Cplx.plain)) <$> run NCLMS.Rounded.call (NCLMS.Rounded.init SIZE) xs := by
  have := run_hom NCLMS.Rounded.plain (fun a => (a.1.plain, a.2.1.plain, a.2.2)) Cplx.plain NCLMS.Rounded.call NCLMS.call (fun s i => nclms_call_real s i) xs (NCLMS.Rounded.init SIZE)
  rw [← this]
  congr 1
  unfold NCLMS.init NCLMS.Rounded.init NCLMS.Rounded.plain BipBuffer.plain BipBuffer.init
  simp only [List.map_replicate]
  rfl

/-! ### Demodulators, normaliser, oscillator -/

/-- The members of the amplitude demodulator. -/
def AMDRounded.plain (f : AMDRounded ℝ) : AMD := ⟨f.avg, f.att, f.dec, f.lo, f.hi, f.idx⟩

/-- The members of the normaliser. -/
def NormalizeRounded.plain (f : NormalizeRounded ℝ) : NormalizeSine := ⟨f.hpf, f.lpf⟩

/-- The members of the oscillator. -/
def NCO.plain (q : NCO ℝ) : Phasor := ⟨q.prev.plain, q.delta.plain⟩

theorem amd_call_real (f : AMDRounded ℝ) (z : Cplx ℝ) : f.plain.call z.plain = (fun r => (r.1.plain, r.2)) <$> AMDRounded.call Real.sqrt f z := by
  unfold AMDRounded.call AMD.call
  simp only [Cplx.abs_plain, fdiv_real, map_bind, map_pure]
  rfl

/-- **C119** The amplitude demodulator of amd.hh, with any settings. -/
theorem C119_amd (idx attack decay low high : ℝ) (xs : List (Cplx ℝ)) :
    run AMD.call ((AMD.init.index idx).agc attack decay low high) (xs.map Cplx.plain) = (fun r => (r.1.plain, r.2)) <$> run (AMDRounded.call Real.sqrt) (((AMDRounded.init 0.001).index idx).agc attack decay low high) xs := by
  have := run_hom AMDRounded.plain Cplx.plain id (AMDRounded.call Real.sqrt) AMD.call (fun s i => amd_call_real s i) xs (((AMDRounded.init 0.001).index idx).agc attack decay low high)
  simp only [List.map_id] at this
  exact this

theorem normalize_call_real (f : NormalizeRounded ℝ) (x : ℝ) : f.plain.call x = (fun r => (r.1.plain, r.2)) <$> NormalizeRounded.call Real.sqrt f x := by
  unfold NormalizeRounded.call NormalizeSine.call
  simp only [fdiv_real, map_bind, map_pure]
  rfl

/-- **C119** The normaliser of normalize.hh. -/
theorem C119_normalize (s : ℤ) (xs : List ℝ) :
    run NormalizeSine.call (NormalizeSine.init.samples s) xs = (fun r => (r.1.plain, r.2)) <$> run (NormalizeRounded.call Real.sqrt) ((NormalizeRounded.init 0.5).samples s) xs := by
  have := run_hom NormalizeRounded.plain id id (NormalizeRounded.call Real.sqrt) NormalizeSine.call (fun s i => normalize_call_real s i) xs ((NormalizeRounded.init 0.5).samples s)
  simp only [List.map_id] at this
  rw [← this]
  congr 1

/-- **C119** The oscillator of phasor.hh. -/
theorem C119_phasor (q : NCO ℝ) : q.plain.call = (fun r => (r.1.plain, r.2.plain)) <$> NCO.call Real.sqrt q := by
  unfold NCO.call Phasor.call
  have e : q.plain.delta * q.plain.prev = (q.prev.mulAssign q.delta).plain := (Cplx.plain_mul _ _).symm
  simp only [e, ← Cplx.abs_plain]
  unfold cdiv
  by_cases h : (q.prev.mulAssign q.delta).abs Real.sqrt = 0
  · rw [if_pos (by exact_mod_cast h), if_pos h]
    rfl
  · rw [if_neg (by exact_mod_cast h), if_neg h]
    simp only [bind, Except.bind, pure, Except.pure, Functor.map, Except.map]
    congr 2
    unfold NCO.plain
    congr 1
    apply Complex.ext
    · rw [Complex.div_ofReal_re]; rfl
    · rw [Complex.div_ofReal_im]; rfl

theorem cdiv_plain (a b : Cplx ℝ) : cdiv a.plain b.plain = Cplx.plain <$> FMDRounded.cdiv a b := by
  unfold cdiv FMDRounded.cdiv
  simp only [fdiv_real]
  have hn : b.re * b.re + b.im * b.im = Complex.normSq b.plain := Cplx.norm_plain b
  unfold fdiv
  by_cases h : b.plain = 0
  · rw [if_pos h, if_pos (by rw [hn, h, map_zero])]
    rfl
  · rw [if_neg h, if_neg (by rw [hn]; exact fun e => h (Complex.normSq_eq_zero.mp e))]
    simp only [bind, Except.bind]
    rw [if_neg (by rw [hn]; exact fun e => h (Complex.normSq_eq_zero.mp e))]
    show Except.ok _ = Except.ok _
    congr 1
    rw [hn]
    apply Complex.ext
    · rw [Complex.div_re]
      simp only [Cplx.plain]
      ring
    · rw [Complex.div_im]
      simp only [Cplx.plain]
      ring

/-- **C119** The frequency demodulators of fmd.hh: the scale, and one call of each of them from any state. -/
theorem C119_fmd (bw s p : ℝ) (a b x : Cplx ℝ) :
    FMD1.bandwidth ⟨p, s⟩ bw = (fun r => ⟨p, r⟩) <$> FMDRounded.scale Real.pi bw ∧ FMD.bandwidth ⟨a.plain, s⟩ bw = (fun r => ⟨a.plain, r⟩) <$> FMDRounded.scale Real.pi bw ∧
      FMD5.bandwidth ⟨a.plain, b.plain, s⟩ bw = (fun r => ⟨a.plain, b.plain, r⟩) <$> FMDRounded.scale (2 * Real.pi) bw ∧
      FMD1.call ⟨p, s⟩ x.plain = .ok (⟨(FMDRounded.call1 (fun y x => Complex.arg ⟨x, y⟩) Real.pi (2 * Real.pi) s p x).1, s⟩, (FMDRounded.call1 (fun y x => Complex.arg ⟨x, y⟩) Real.pi (2 * Real.pi) s p x).2) ∧
      FMD.call2 ⟨a.plain, s⟩ x.plain = (fun r => (⟨r.1.plain, s⟩, r.2)) <$> FMDRounded.call2 (fun y x => Complex.arg ⟨x, y⟩) s a x ∧
      FMD.call3 ⟨a.plain, s⟩ x.plain = (fun r => (⟨r.1.plain, s⟩, r.2)) <$> FMDRounded.call3 (fun y x => Complex.arg ⟨x, y⟩) s a x ∧
      FMD.call4 ⟨a.plain, s⟩ x.plain = (fun r => (⟨r.1.plain, s⟩, r.2)) <$> FMDRounded.call4 s a x ∧
      FMD5.call ⟨a.plain, b.plain, s⟩ x.plain = (fun r => (⟨r.1.1.plain, r.1.2.plain, s⟩, r.2)) <$> FMDRounded.call5 s (a, b) x := by
  refine ⟨?_, ?_, ?_, rfl, ?_, ?_, ?_, ?_⟩
  · unfold FMD1.bandwidth FMDRounded.scale
    rw [fdiv_real]
    rfl
  · unfold FMD.bandwidth FMDRounded.scale
    rw [fdiv_real]
    rfl
  · unfold FMD5.bandwidth FMDRounded.scale
    rw [fdiv_real]
    rfl
  · unfold FMD.call2 FMDRounded.call2
    simp only [cdiv_plain, map_bind, bind_map_left, map_pure]
    rfl
  · unfold FMD.call3 FMDRounded.call3
    simp only [map_pure, Cplx.arg_plain, Cplx.plain_mul, Cplx.plain_conj]
  · unfold FMD.call4 FMDRounded.call4
    simp only [fdiv_real, map_bind, map_pure, Cplx.norm_plain]
    rfl
  · unfold FMD5.call FMDRounded.call5
    simp only [fdiv_real, map_bind, map_pure, Cplx.norm_plain]
    rfl

end DSP
