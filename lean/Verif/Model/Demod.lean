import Verif.Model.Base
import Verif.Model.Filters
import Verif.Model.Utils
import Verif.Spec.Circle
import Mathlib.Analysis.SpecialFunctions.Complex.Arg

/-!
# Models of phasor.hh, fmd.hh, amd.hh and normalize.hh

Exact real and complex arithmetic (complex.hh is tied to Mathlib's complex numbers by C30); `sqrt`, `cos`, `sin`, `arg` and the
constants are the exact functions. Every division checks its divisor.
-/

namespace DSP

/-- `a / b` for complex `a` and `b`. complex.hh:117-122 -/
noncomputable def cdiv (a b : ℂ) : M ℂ := open Classical in if b = 0 then .error .divZero else .ok (a / b)

/-! ### phasor.hh -/

/-- phasor.hh:18 -/
structure Phasor where
  prev : ℂ
  delta : ℂ

namespace Phasor

/-- phasor.hh:20-22 -/
def init : Phasor := ⟨1, 1⟩

/-- phasor.hh:23-28 -/
noncomputable def omegaInt (p : Phasor) (n N : ℤ) : Phasor := { p with delta := ⟨exactCos n N, exactSin n N⟩ }

/-- phasor.hh:29-32 -/
noncomputable def omega (p : Phasor) (v : ℝ) : Phasor := { p with delta := ⟨Real.cos v, Real.sin v⟩ }

/-- phasor.hh:33-36 -/
noncomputable def freq (p : Phasor) (v : ℝ) : Phasor := p.omega (2 * Real.pi * v)

/-- phasor.hh:37-40 -/
def reset (p : Phasor) : Phasor := { p with prev := 1 }

/-- `operator()`. phasor.hh:41-47 -/
noncomputable def call (p : Phasor) : M (Phasor × ℂ) := do
  let tmp := p.prev
  let prev := p.delta * p.prev
  let prev ← cdiv prev (‖prev‖ : ℝ)
  return ({ p with prev }, tmp)

end Phasor

/-! ### fmd.hh -/

/-- fmd.hh:16-17 -/
structure FMD1 where
  prev : ℝ
  scale : ℝ

namespace FMD1

/-- fmd.hh:18-25 -/
noncomputable def wrapAround (angle : ℝ) : ℝ :=
  if angle < -Real.pi then angle + 2 * Real.pi
  else if angle > Real.pi then angle - 2 * Real.pi
  else angle

/-- fmd.hh:27-29 -/
def init : FMD1 := ⟨0, 0⟩

/-- fmd.hh:30-33 -/
noncomputable def bandwidth (f : FMD1) (bw : ℝ) : M FMD1 := do
  let scale ← fdiv 1 (bw * Real.pi)
  return { f with scale }

/-- fmd.hh:34-41 -/
noncomputable def call (f : FMD1) (input : ℂ) : M (FMD1 × ℝ) := do
  let phase := Complex.arg input
  let delta := phase - f.prev
  let delta := wrapAround delta
  return ({ f with prev := phase }, f.scale * delta)

end FMD1

/-- The members of `FMD2`, `FMD3` and `FMD4`. fmd.hh:49-50,72-73,95-96 -/
structure FMD where
  prev : ℂ
  scale : ℝ

namespace FMD

/-- fmd.hh:52-54,75-77,98-100 -/
def init : FMD := ⟨1, 0⟩

/-- fmd.hh:55-58,78-81,101-104 -/
noncomputable def bandwidth (f : FMD) (bw : ℝ) : M FMD := do
  let scale ← fdiv 1 (bw * Real.pi)
  return { f with scale }

/-- `FMD2::operator()`. fmd.hh:59-64 -/
noncomputable def call2 (f : FMD) (input : ℂ) : M (FMD × ℝ) := do
  let q ← cdiv input f.prev
  let phase := Complex.arg q
  return ({ f with prev := input }, f.scale * phase)

/-- `FMD3::operator()`. fmd.hh:82-87 -/
noncomputable def call3 (f : FMD) (input : ℂ) : M (FMD × ℝ) := do
  let phase := Complex.arg (input * (starRingEnd ℂ) f.prev)
  return ({ f with prev := input }, f.scale * phase)

/-- `FMD4::operator()`. fmd.hh:105-113 -/
noncomputable def call4 (f : FMD) (input : ℂ) : M (FMD × ℝ) := do
  let phase := f.prev.re * input.im - f.prev.im * input.re
  let phase ← fdiv phase (Complex.normSq input)
  return ({ f with prev := input }, f.scale * phase)

end FMD

/-- fmd.hh:121-122 -/
structure FMD5 where
  prev1 : ℂ
  prev2 : ℂ
  scale : ℝ

namespace FMD5

/-- fmd.hh:124-126 -/
def init : FMD5 := ⟨1, 1, 0⟩

/-- fmd.hh:127-130 -/
noncomputable def bandwidth (f : FMD5) (bw : ℝ) : M FMD5 := do
  let scale ← fdiv 1 (bw * (2 * Real.pi))
  return { f with scale }

/-- fmd.hh:131-140 -/
noncomputable def call (f : FMD5) (input : ℂ) : M (FMD5 × ℝ) := do
  let diff := input - f.prev2
  let phase := f.prev1.re * diff.im - f.prev1.im * diff.re
  let phase ← fdiv phase (Complex.normSq f.prev1)
  return ({ f with prev2 := f.prev1, prev1 := input }, f.scale * phase)

end FMD5

/-! ### amd.hh -/

/-- amd.hh:16 -/
structure AMD where
  avg : ℝ
  att : ℝ
  dec : ℝ
  lo : ℝ
  hi : ℝ
  idx : ℝ

namespace AMD

/-- amd.hh:18-20 -/
noncomputable def init : AMD := ⟨0, 0, 0, 0.001, 1, 1⟩

/-- amd.hh:21-24 -/
def index (f : AMD) (modidx : ℝ) : AMD := { f with idx := modidx }

/-- amd.hh:25-31 -/
def agc (f : AMD) (attack decay low high : ℝ) : AMD := { f with att := attack, dec := decay, lo := low, hi := high }

/-- amd.hh:32-39 -/
noncomputable def call (f : AMD) (input : ℂ) : M (AMD × ℝ) := do
  let amp := ‖input‖
  let avg := lerp f.avg amp (if amp < f.avg then f.dec else f.att)
  let avg := min (max avg f.lo) f.hi
  let amp ← fdiv amp avg
  let out ← fdiv (amp * (1 + f.idx) - 1) f.idx
  return ({ f with avg }, out)

end AMD

/-! ### normalize.hh -/

/-- normalize.hh:17-18 -/
structure NormalizeSine where
  hpf : BlockDC ℝ ℝ
  lpf : EMA ℝ ℝ

namespace NormalizeSine

/-- normalize.hh:20-22 -/
noncomputable def init : NormalizeSine := ⟨BlockDC.init, EMA.init 0.5 1⟩

/-- normalize.hh:23-27 -/
noncomputable def samples (f : NormalizeSine) (s : ℤ) : NormalizeSine := ⟨f.hpf.samples s, f.lpf.samples s⟩

/-- normalize.hh:28-33 -/
noncomputable def call (f : NormalizeSine) (input : ℝ) : M (NormalizeSine × ℝ) := do
  let (hpf, tmp) := f.hpf.call input
  let (lpf, y) := f.lpf.call (tmp * tmp)
  let amp := Real.sqrt (2 * y)
  let out ← fdiv tmp amp
  return (⟨hpf, lpf⟩, out)

end NormalizeSine

/-- normalize.hh:39 -/
structure NormalizeIQ where
  ni : NormalizeSine
  nq : NormalizeSine

namespace NormalizeIQ

/-- normalize.hh:39 -/
noncomputable def init : NormalizeIQ := ⟨NormalizeSine.init, NormalizeSine.init⟩

/-- normalize.hh:41-45 -/
noncomputable def samples (f : NormalizeIQ) (s : ℤ) : NormalizeIQ := ⟨f.ni.samples s, f.nq.samples s⟩

/-- normalize.hh:46-49 -/
noncomputable def call (f : NormalizeIQ) (iq : ℂ) : M (NormalizeIQ × ℂ) := do
  let (ni, re) ← f.ni.call iq.re
  let (nq, im) ← f.nq.call iq.im
  return (⟨ni, nq⟩, ⟨re, im⟩)

end NormalizeIQ
end DSP
