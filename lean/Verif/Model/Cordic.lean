import Verif.Model.Base
import Verif.Model.Stream
import Mathlib.Data.Rat.Floor

/-!
# Model of cordic.hh

`TYPE` is a signed integer type of `BYTES` bytes. Shifts of negative numbers to the left multiply, those to the right round down; C++20 says so, C++17 leaves the former undefined and the
latter to the compiler.
-/

namespace DSP.Cordic

/-- The angles in half turns. cordic.hh:26-41 -/
def constants : List ℚ := [
  0.2500000000000000000000000000000000000000000000000000000000000000000,
  0.1475836176504332741754010762247405259511345238869178945999223128627,
  0.0779791303773693254605128897731301351165246187810070349907614355625,
  0.0395834241605655420108516713400380263836230512014484657091255843474,
  0.0198685243055408390593598828581045592395809198311117360197658161834,
  0.0099439478235892739286124987559949706675355099351305855673205197301,
  0.0049731872789504128535623156837751800756022858309425918885230220925,
  0.0024867453936697392949686323634656804594951905170750175789691381407,
  0.0012433916687141004173529641246144055092826557912518235730426698546,
  0.0006216982059233715959748655390818054931061630817558971376245115402,
  0.0003108493994100203787468007466901774427133407538770647518959302312,
  0.0001554247367611315255509951068712763232641191255978216125229683284,
  0.0000777123730125834146038201984686638046103667177724187710747868218,
  0.0000388561870852939914306938515989779351910341528053916759630446151,
  0.0000194280936150222836580154085598088977275755448309525831225639103,
  0.0000097140468165580528976715963565423783044063210250363625335628380]

/-- cordic.hh:21-22 -/
def bits (BYTES : ℕ) : ℕ := 8 * BYTES

/-- cordic.hh:24 -/
def fac (BYTES : ℕ) : ℤ := BYTES * 2 ^ bits BYTES

/-- cordic.hh:25-42; the floating-point product is taken as exact. -/
def lut (BYTES : ℕ) : List ℤ := constants.map fun (c : ℚ) => ⌊0.5 + fac BYTES * c⌋

/-- The variables of the loop. cordic.hh:46-48 -/
structure State where
  angle : ℤ
  real : ℤ
  imag : ℤ

/-- The body of the loop. cordic.hh:52-63 -/
def step (BYTES : ℕ) (s : State) (i : ℕ) : M State := do
  let l ← rd (lut BYTES) i
  if s.imag < 0 then
    let angle ← int32 (s.angle - l)
    let re ← int32 (s.real - s.imag / 2 ^ i)
    let im ← int32 (s.imag + s.real / 2 ^ i)
    return ⟨angle, re, im⟩
  else
    let angle ← int32 (s.angle + l)
    let re ← int32 (s.real + s.imag / 2 ^ i)
    let im ← int32 (s.imag - s.real / 2 ^ i)
    return ⟨angle, re, im⟩

/-- `atan2`; the conversion to `TYPE` keeps the lower bits. cordic.hh:44-68 -/
def atan2 (BYTES : ℕ) (y x : ℤ) : M ℤ := do
  let real ← int32 (x * 2)
  let imag ← int32 (y * 2)
  let real ← (if x < 0 then int32 (-real) else pure real : M ℤ)
  let s ← (List.range (bits BYTES)).foldlM (step BYTES) ⟨0, real, imag⟩
  let angle ← (if x < 0 then int32 (fac BYTES - s.angle) else pure s.angle : M ℤ)
  return (angle / 2 ^ BYTES).bmod (2 ^ bits BYTES)

end DSP.Cordic
