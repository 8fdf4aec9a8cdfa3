import Verif.Model.BipBuffer
import Verif.Model.Demod

/-!
# Models of lms.hh

Exact real and complex arithmetic; `TYPE` is `ℝ`, `CMPLX` is `ℂ`. A call gets the input, the desired output and `mu`.
-/

namespace DSP

/-- lms.hh:16-17 -/
structure NLMS where
  history : BipBuffer ℝ
  filter : List ℝ

namespace NLMS

/-- lms.hh:19-23 -/
noncomputable def init (SIZE : ℕ) : NLMS := ⟨BipBuffer.init SIZE 0, List.replicate SIZE 0⟩

/-- `operator()`; `hist[i]` is the cell `i` places behind the pointer into the buffer. lms.hh:28-44 -/
noncomputable def call (f : NLMS) (args : ℝ × ℝ × ℝ) : M (NLMS × ℝ) := do
  let (input, desired, mu) := args
  let history ← f.history.put input
  let hist (i : ℕ) : M ℝ := rd history.buf (history.ptr + i)
  let estimate ← (List.range history.num).foldlM (fun acc (i : ℕ) => do
    let c ← rd f.filter i
    let h ← hist i
    return acc + c * h) (0 : ℝ)
  let error := desired - estimate
  let power ← (List.range history.num).foldlM (fun acc (i : ℕ) => do
    let h ← hist i
    let h' ← hist i
    return acc + h * h') (0 : ℝ)
  if power = 0 then
    return ({ f with history }, error)
  else
    let rate ← fdiv mu power
    let filter ← (List.range history.num).foldlM (fun filter (i : ℕ) => do
      let c ← rd filter i
      let h ← hist i
      wr filter i (c + rate * error * h)) f.filter
    return ({ f with history, filter }, error)

end NLMS

/-- lms.hh:51-52 -/
structure NCLMS where
  history : BipBuffer ℂ
  filter : List ℂ

namespace NCLMS

/-- lms.hh:54-58 -/
noncomputable def init (SIZE : ℕ) : NCLMS := ⟨BipBuffer.init SIZE 0, List.replicate SIZE 0⟩

/-- `operator()`; `conj` is `starRingEnd ℂ`, `norm` the squared magnitude. lms.hh:63-79 -/
noncomputable def call (f : NCLMS) (args : ℂ × ℂ × ℝ) : M (NCLMS × ℂ) := do
  let (input, desired, mu) := args
  let history ← f.history.put (starRingEnd ℂ input)
  let hist (i : ℕ) : M ℂ := rd history.buf (history.ptr + i)
  let estimate ← (List.range history.num).foldlM (fun acc (i : ℕ) => do
    let c ← rd f.filter i
    let h ← hist i
    return acc + starRingEnd ℂ c * h) (0 : ℂ)
  let error := starRingEnd ℂ (starRingEnd ℂ desired - estimate)
  let power ← (List.range history.num).foldlM (fun acc (i : ℕ) => do
    let h ← hist i
    return acc + Complex.normSq h) (0 : ℝ)
  if power = 0 then
    return ({ f with history }, error)
  else
    let rate ← fdiv mu power
    let filter ← (List.range history.num).foldlM (fun filter (i : ℕ) => do
      let c ← rd filter i
      let h ← hist i
      wr filter i (c + (rate : ℂ) * error * h)) f.filter
    return ({ f with history, filter }, error)

end NCLMS
end DSP
