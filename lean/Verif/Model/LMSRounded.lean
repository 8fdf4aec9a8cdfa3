import Verif.Model.BipBuffer
import Verif.Model.Complex

/-!
# Models of lms.hh in rounded arithmetic

As in `Model/LMS.lean`, but the arithmetic is whatever the operations of the type are; a division by zero does not stop the program.
-/

namespace DSP

/-- lms.hh:16-17 -/
structure NLMS.Rounded (V : Type) where
  history : BipBuffer V
  filter : List V

namespace NLMS.Rounded

variable {V : Type} [Zero V] [Add V] [Sub V] [Mul V] [Div V] [BEq V]

/-- lms.hh:19-23 -/
def init (SIZE : ℕ) : NLMS.Rounded V := ⟨BipBuffer.init SIZE 0, List.replicate SIZE 0⟩

/-- `operator()`; `hist[i]` is the cell `i` places behind the pointer into the buffer. lms.hh:28-44 -/
def call (f : NLMS.Rounded V) (args : V × V × V) : M (NLMS.Rounded V × V) := do
  let (input, desired, mu) := args
  let history ← f.history.put input
  let hist (i : ℕ) : M V := rd history.buf (history.ptr + i)
  let estimate ← (List.range history.num).foldlM (fun acc (i : ℕ) => do
    let c ← rd f.filter i
    let h ← hist i
    return acc + c * h) (0 : V)
  let error := desired - estimate
  let power ← (List.range history.num).foldlM (fun acc (i : ℕ) => do
    let h ← hist i
    let h' ← hist i
    return acc + h * h') (0 : V)
  M.ite (power == 0) (return ({ f with history }, error)) do
    let rate := mu / power
    let filter ← (List.range history.num).foldlM (fun filter (i : ℕ) => do
      let c ← rd filter i
      let h ← hist i
      wr filter i (c + rate * error * h)) f.filter
    return ({ f with history, filter }, error)

end NLMS.Rounded

/-- lms.hh:51-52 -/
structure NCLMS.Rounded (V : Type) where
  history : BipBuffer (Cplx V)
  filter : List (Cplx V)

namespace NCLMS.Rounded

variable {V : Type} [Zero V] [Add V] [Sub V] [Neg V] [Mul V] [Div V] [BEq V]

/-- lms.hh:54-58 -/
def init (SIZE : ℕ) : NCLMS.Rounded V := ⟨BipBuffer.init SIZE (Cplx.ofReal 0), List.replicate SIZE (Cplx.ofReal 0)⟩

/-- `operator()`; the complex numbers are those of complex.hh. lms.hh:63-79 -/
def call (f : NCLMS.Rounded V) (args : Cplx V × Cplx V × V) : M (NCLMS.Rounded V × Cplx V) := do
  let (input, desired, mu) := args
  let history ← f.history.put input.conj
  let hist (i : ℕ) : M (Cplx V) := rd history.buf (history.ptr + i)
  let estimate ← (List.range history.num).foldlM (fun (acc : Cplx V) (i : ℕ) => do
    let c ← rd f.filter i
    let h ← hist i
    return acc.addAssign (c.conj * h)) (Cplx.ofReal 0)
  let error := (desired.conj - estimate).conj
  let power ← (List.range history.num).foldlM (fun acc (i : ℕ) => do
    let h ← hist i
    return acc + h.norm) (0 : V)
  M.ite (power == 0) (return ({ f with history }, error)) do
    let rate := mu / power
    let filter ← (List.range history.num).foldlM (fun filter (i : ℕ) => do
      let c ← rd filter i
      let h ← hist i
      wr filter i (c.addAssign (rate • error * h))) f.filter
    return ({ f with history, filter }, error)

end NCLMS.Rounded
end DSP
