import Verif.Model.Window
import Mathlib.Data.Complex.Basic

/-!
# Models of hilbert.hh and cdc.hh

`TYPE` is `ℂ`, `value_type` is `ℝ`, with exact arithmetic. Arrays hold anything before the constructors set them. `TAPS` is at least one, so
that `(TAPS-1)/2` and `(TAPS-1)/4` are divisions of natural numbers.
-/

namespace DSP

/-- `for (int i = 0; i < L-1; ++i) r[i] = r[i+1]; r[L-1] = v;` hilbert.hh:38-40, cdc.hh:42-44,45-47, resampler.hh:78-80 -/
def shiftIn {A : Type} (r : List A) (L : ℕ) (v : A) : M (List A) := do
  let r ← (List.range (L - 1)).foldlM (fun r (i : ℕ) => do
    let u ← rd r (i + 1)
    wr r i u) r
  wr r (L - 1) v

/-- `for (int i = 0; i < L; ++i) r[i] = 0;` hilbert.hh:29-30, cdc.hh:33-34,35-36 -/
def clear {A : Type} [Zero A] (r : List A) (L : ℕ) : M (List A) := (List.range L).foldlM (fun r (i : ℕ) => wr r i 0) r

/-- hilbert.hh:19-21 -/
structure Hilbert where
  real : List ℝ
  imco : List ℝ
  reco : ℝ

namespace Hilbert

/-- The constructor; `real` and `imco` are the arrays before it. hilbert.hh:23-31 -/
noncomputable def make (TAPS : ℕ) (a : ℝ) (real imco : List ℝ) : M Hilbert := do
  let reco ← Win.kaiser a ((TAPS - 1) / 2 : ℕ) TAPS
  let imco ← (List.range ((TAPS - 1) / 4)).foldlM (fun imco (i : ℕ) => do
    let w ← Win.kaiser a ((2 * i + 1) + (TAPS - 1) / 2 : ℕ) TAPS
    let v ← fdiv (w * 2) (((2 * i + 1 : ℕ) : ℝ) * Real.pi)
    wr imco i v) imco
  let real ← clear real TAPS
  return ⟨real, imco, reco⟩

/-- One term of the imaginary part. hilbert.hh:35,37 -/
noncomputable def term (h : Hilbert) (TAPS i : ℕ) : M ℝ := do
  let c ← rd h.imco i
  let u ← rd h.real (((TAPS - 1) / 2 : ℕ) - (2 * i + 1 : ℕ))
  let v ← rd h.real (((TAPS - 1) / 2 : ℕ) + (2 * i + 1 : ℕ))
  return c * (u - v)

/-- The loop starts with one, the first term is outside of it. hilbert.hh:32-42 -/
noncomputable def call (TAPS : ℕ) (h : Hilbert) (input : ℝ) : M (Hilbert × ℂ) := do
  let r ← rd h.real ((TAPS - 1) / 2 : ℕ)
  let re := h.reco * r
  let im ← h.term TAPS 0
  let im ← (List.range ((TAPS - 1) / 4 - 1)).foldlM (fun im (i : ℕ) => do
    let t ← h.term TAPS (i + 1)
    return im + t) im
  let real ← shiftIn h.real TAPS input
  return ({ h with real }, ⟨re, im⟩)

end Hilbert

/-- cdc.hh:20-24 -/
structure CDC where
  real : List ℝ
  imag : List ℝ
  imco : List ℝ
  reco : ℝ
  sign : Bool

namespace CDC

/-- The constructor; `real`, `imag` and `imco` are the arrays before it. cdc.hh:26-37 -/
noncomputable def make (K : Kernels) (TAPS : ℕ) (a : ℝ) (real imag imco : List ℝ) : M CDC := do
  let w ← Win.kaiser a ((TAPS - 1) / 2 : ℕ) TAPS
  let h ← Fir.lowPass2 K 1 4 ((TAPS - 1) / 2 : ℕ) TAPS
  let imco ← (List.range ((TAPS - 1) / 4)).foldlM (fun imco (i : ℕ) => do
    let w ← Win.kaiser a (2 * i + (TAPS - 1) / 2 + 1 : ℕ) TAPS
    let h ← Fir.lowPass2 K 1 4 (2 * i + (TAPS - 1) / 2 + 1 : ℕ) TAPS
    wr imco i (w * h)) imco
  let real ← clear real ((TAPS - 1) / 4)
  let imag ← clear imag ((TAPS - 1) / 2)
  return ⟨real, imag, imco, w * h, false⟩

/-- One term of the imaginary part. cdc.hh:48,50 -/
noncomputable def term (c : CDC) (TAPS i : ℕ) : M ℝ := do
  let k ← rd c.imco i
  let u ← rd c.imag (((TAPS - 1) / 4 : ℕ) - 1 - i)
  let v ← rd c.imag (((TAPS - 1) / 4 : ℕ) + i)
  return k * (u + v)

/-- The loop starts with one, the first term is outside of it. cdc.hh:38-52 -/
noncomputable def call (TAPS : ℕ) (c : CDC) (input : ℝ × ℝ) : M (CDC × ℂ) := do
  let sign := !c.sign
  let r ← rd c.real 0
  let re := c.reco * r
  let real ← shiftIn c.real ((TAPS - 1) / 4) (if sign then input.2 else -input.2)
  let imag ← shiftIn c.imag ((TAPS - 1) / 2) (if sign then input.1 else -input.1)
  let c := { c with real, imag, sign }
  let im ← c.term TAPS 0
  let im ← (List.range ((TAPS - 1) / 4 - 1)).foldlM (fun im (i : ℕ) => do
    let t ← c.term TAPS (i + 1)
    return im + t) im
  return (c, ⟨re, im⟩)

end CDC
end DSP
