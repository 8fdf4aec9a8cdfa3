import Verif.Model.Utils
import Verif.Model.Stream
import Verif.Model.Pnm
import Mathlib.Analysis.Real.Sqrt
import Mathlib.Data.Real.Basic

/-!
# Models of const.hh, the constants of ema.hh, exp.hh, decibel.hh and atan2.hh

`TYPE` is `ℝ`, arithmetic is exact. The constants are the printed ones.
-/

namespace DSP

namespace Const

/-- const.hh:16-20 -/
noncomputable def eighthPi : ℝ := 0.3926990816987241548078304229099378605246461749218882276218680740384
/-- const.hh:21-25 -/
noncomputable def fourthPi : ℝ := 0.7853981633974483096156608458198757210492923498437764552437361480769
/-- const.hh:26-30 -/
noncomputable def halfPi : ℝ := 1.570796326794896619231321691639751442098584699687552910487472296153
/-- const.hh:31-35 -/
noncomputable def pi : ℝ := 3.141592653589793238462643383279502884197169399375105820974944592307
/-- const.hh:36-40 -/
noncomputable def twoPi : ℝ := 6.283185307179586476925286766559005768394338798750211641949889184615
/-- const.hh:41-45 -/
noncomputable def fourPi : ℝ := 12.56637061435917295385057353311801153678867759750042328389977836923
/-- const.hh:46-50 -/
noncomputable def sqrtPi : ℝ := 1.772453850905516027298167483341145182797549456122387128213807789852
/-- const.hh:51-55 -/
noncomputable def sqrtTwoPi : ℝ := 2.506628274631000502415765284811045253006986740609938316629923576342
/-- const.hh:56-60 -/
noncomputable def invSqrtTwo : ℝ := 0.7071067811865475244008443621048490392848359376884740365883398689953

end Const

/-- `cascade_factor`. ema.hh:47-67 -/
noncomputable def EMACascade.cascadeFactor (n : ℤ) : ℝ :=
  if n = 2 then 0.6435942529055826247354434374182098089242027424440076511561520093520
  else if n = 3 then 0.5098245285339585980866134620415975171004662971729213347866667412748
  else if n = 4 then 0.4349794420460822959023617403105260887838801269492020945122292703957
  else if n = 5 then 0.3856142567346739149847213965799930737314794827929705449459805476567
  else if n = 6 then 0.3499457790992384314823879950215014587750945565870355960474164484675
  else if n = 7 then 0.3226290651410878970708971817580301448745259798477682170908870012270
  else if n = 8 then 0.3008450309798346315492310951214492771360484456002599192820777432131
  else if n = 9 then 0.2829482972069387977799123584440613415063420296903386876512703264517
  else if n = 10 then 0.2679056970956257290860485974661891235831324413057223464282157983007
  else if n = 11 then 0.2550315459702243937103098780342370981449477556708628034249027758407
  else if n = 12 then 0.2438505574307659124524083486415529630644763241448445300317390218311
  else if n = 13 then 0.2340215299532217691188557628487431016851279721568792383213019527102
  else if n = 14 then 0.2252923404228812762935182605055552181633447787610798690912140601327
  else if n = 15 then 0.2174721196397982365782144895603276387766971846333067133969338153904
  else if n = 16 then 0.2104133608576552353576644943161359426249259240013118976757629219108
  else 1

namespace Atan

/-- `atan_kernel`. atan2.hh:17-34 -/
noncomputable def kernel (x : ℝ) : M ℝ := do
  let xx := x * x
  let q ← fdiv (x * xx * (xx * (xx * (xx * (xx * (-8.750608600031904122785E-1) + (-1.615753718733365076637E1)) + (-7.500855792314704667340E1)) +
      (-1.228866684490136173410E2)) + (-6.485021904942025371773E1)))
    (xx * (xx * (xx * (xx * (xx + 2.485846490142306297962E1) + 1.650270098316988542046E2) + 4.328810604912902668951E2) + 4.853903996359136964868E2) +
      1.945506571482613964425E2)
  return x + q

/-- atan2.hh:39-40 -/
noncomputable def morebits : ℝ := 6.123233995736765886130E-17

/-- `atan_approx`. atan2.hh:37-48 -/
noncomputable def approx (x : ℝ) : M ℝ :=
  if x ≤ 0.66 then kernel x
  else if x > 2.41421356237309504880 then do
    let t ← fdiv 1 x
    let k ← kernel t
    return Const.halfPi + morebits - k
  else do
    let t ← fdiv (x - 1) (x + 1)
    let k ← kernel t
    return Const.fourthPi + 0.5 * morebits + k

/-- atan2.hh:51-54 -/
noncomputable def atan (x : ℝ) : M ℝ :=
  if x ≥ 0 then approx x
  else do
    let a ← approx (-x)
    return -a

/-- `copysign` of a positive number; a real zero has no sign, so that is given separately. -/
noncomputable def copysign (v : ℝ) (negative : Bool) : ℝ := if negative then -v else v

/-- `negative` is the sign of `y`, which matters if it is zero. atan2.hh:57-71 -/
noncomputable def atan2 (negative : Bool) (y x : ℝ) : M ℝ :=
  if y = 0 then return (if x ≥ 0 then copysign 0 negative else copysign Const.pi negative)
  else if x = 0 then return copysign Const.halfPi negative
  else do
    let t ← fdiv y x
    let phase ← atan t
    if x < 0 then return (if phase > 0 then phase - Const.pi else phase + Const.pi)
    else return phase

end Atan

namespace Exp

/-- `1 << n` in `int`. The sign bit is set by a shift by 31 (C++14 to C++17 convert the unsigned value, C++20 wraps); more is undefined. -/
def shl (n : ℤ) : M ℤ :=
  if n < 0 ∨ 32 ≤ n then .error .shift
  else return (if n = 31 then -2147483648 else 2 ^ n.toNat)

/-- exp.hh:14-26 -/
noncomputable def ldexp (x : ℝ) (n : ℤ) : M ℝ := do
  let a ← (if n < 0 then int32 (-n) else pure n : M ℤ)
  let a8 := a.tdiv 8
  let ar := a - a8 * 8
  let s ← shl a8
  let t := (s : ℝ)
  let t := t * t
  let t := t * t
  let t := t * t
  let r ← shl ar
  let t := t * (r : ℝ)
  if n < 0 then fdiv x t else return x * t

/-- exp.hh:28-50 -/
noncomputable def exp10 (x : ℝ) : M ℝ := do
  let i := Pnm.nearbyint (x * 3.32192809488736234787e0)
  let x := x - i * 3.01025390625000000000E-1
  let x := x - i * 4.60503898119521373889E-6
  let xx := x * x
  let py := x * (xx * (xx * (xx * 4.09962519798587023075E-2 + 1.17452732554344059015E1) + 4.06717289936872725516E2) + 2.39423741207388267439E3)
  let qy := xx * (xx * (xx + 8.50936160849306532625E1) + 1.27209271178345121210E3) + 2.07960819286001865907E3
  let d ← fdiv (2 * py) (qy - py)
  let pq := 1 + d
  let n ← int32 i
  ldexp pq n

end Exp

/-- The square root of a negative number is not a number; the model is about the others. decibel.hh:13-37 -/
noncomputable def decibel (v : ℝ) : M ℝ := do
  let x := (List.range 10).foldl (fun x _ => Real.sqrt x) v
  let x ← fdiv (x - 1) (x + 1)
  let xx := x * x
  return 8894.350989378597430295120259412072085389250678859091274024013479236 * x *
    (xx * (xx * (xx * (xx * (xx * (xx * (1 / 13) + 1 / 11) + 1 / 9) + 1 / 7) + 1 / 5) + 1 / 3) + 1 / 1)

/-- decibel.hh:39-43 -/
noncomputable def idecibel (dB : ℝ) : M ℝ := do
  let x ← fdiv dB 10
  Exp.exp10 x

end DSP
