import Verif.Model.Elementary
import Verif.Model.BinaryOrder

/-!
# atan2.hh in any arithmetic

The same as in `Elementary.lean` with the constants, operations and comparisons of `TYPE`. What a division by zero gives is left to the type.
-/

namespace DSP
namespace Elementary

/-- atan2.hh:19-29, atan2.hh:39-47, const.hh:16-40 -/
structure AtanConsts (V : Type) where
  (P0 P1 P2 P3 P4 Q0 Q1 Q2 Q3 Q4 morebits low high half pi halfPi fourthPi : V)

/-- The numbers as they are written. atan2.hh:19-29, atan2.hh:39-47, const.hh:21-40 -/
def AtanConsts.decimal : AtanConsts ℚ where
  P0 := -8.750608600031904122785E-1
  P1 := -1.615753718733365076637E1
  P2 := -7.500855792314704667340E1
  P3 := -1.228866684490136173410E2
  P4 := -6.485021904942025371773E1
  Q0 := 2.485846490142306297962E1
  Q1 := 1.650270098316988542046E2
  Q2 := 4.328810604912902668951E2
  Q3 := 4.853903996359136964868E2
  Q4 := 1.945506571482613964425E2
  morebits := 6.123233995736765886130E-17
  low := 0.66
  high := 2.41421356237309504880
  half := 0.5
  pi := 3.141592653589793238462643383279502884197169399375105820974944592307
  halfPi := 1.570796326794896619231321691639751442098584699687552910487472296153
  fourthPi := 0.7853981633974483096156608458198757210492923498437764552437361480769

/-- The literals of atan2.hh are of type `double`, those of const.hh of type `long double`. -/
def AtanConsts.map {V W : Type} (f g : V → W) (c : AtanConsts V) : AtanConsts W :=
  ⟨f c.P0, f c.P1, f c.P2, f c.P3, f c.P4, f c.Q0, f c.Q1, f c.Q2, f c.Q3, f c.Q4, f c.morebits, f c.low, f c.high, f c.half, g c.pi, g c.halfPi, g c.fourthPi⟩

/-- Real numbers. -/
noncomputable def AtanConsts.real : AtanConsts ℝ := decimal.map (fun q : ℚ => (q : ℝ)) fun q : ℚ => (q : ℝ)

/-- Binary floating point: `double` has 53 bits, `long double` has `l`, and `TYPE` has `p`. -/
def AtanConsts.binary (l p : ℕ) [NeZero p] : AtanConsts (Binary p) := decimal.map (Binary.literal 53 p) (Binary.literal l p)

variable {V : Type} [Zero V] [Add V] [Sub V] [Mul V] [Div V] [Neg V] [IntCast V] [LinearOrder V]

/-- `atan_kernel`. atan2.hh:17-34 -/
def atanKernel (c : AtanConsts V) (x : V) : V :=
  let xx := x * x
  x + x * xx * (xx * (xx * (xx * (xx * c.P0 + c.P1) + c.P2) + c.P3) + c.P4) / (xx * (xx * (xx * (xx * (xx + c.Q0) + c.Q1) + c.Q2) + c.Q3) + c.Q4)

/-- `atan_approx`. atan2.hh:37-48 -/
def atanApprox (c : AtanConsts V) (x : V) : V :=
  if x ≤ c.low then atanKernel c x
  else if x > c.high then c.halfPi + c.morebits - atanKernel c (((1 : ℤ) : V) / x)
  else c.fourthPi + c.half * c.morebits + atanKernel c ((x - ((1 : ℤ) : V)) / (x + ((1 : ℤ) : V)))

/-- atan2.hh:51-54 -/
def atan (c : AtanConsts V) (x : V) : V := if x ≥ 0 then atanApprox c x else -atanApprox c (-x)

/-- `copysign` of a number that is not negative. -/
def copysign (v : V) (negative : Bool) : V := if negative then -v else v

/-- `negative` is the sign of `y`, which matters if it is zero. atan2.hh:57-71 -/
def atan2 (c : AtanConsts V) (negative : Bool) (y x : V) : V :=
  if y = 0 then (if x ≥ 0 then copysign 0 negative else copysign c.pi negative)
  else if x = 0 then copysign c.halfPi negative
  else
    let phase := atan c (y / x)
    if x < 0 then (if phase > 0 then phase - c.pi else phase + c.pi) else phase

/-- With real numbers these are the models of `Elementary.lean`. -/
theorem atanKernel_real (x : ℝ) : Atan.kernel x = .ok (atanKernel AtanConsts.real x) := by
  unfold Atan.kernel
  simp only [bind, Except.bind]
  unfold fdiv
  rw [if_neg (ne_of_gt (by have := mul_self_nonneg x; positivity))]
  simp only [pure, Except.pure, atanKernel, AtanConsts.real, AtanConsts.map, AtanConsts.decimal]
  push_cast
  rfl

theorem atan_real (x : ℝ) : Atan.atan x = .ok (atan AtanConsts.real x) := by
  have key : ∀ x : ℝ, 0 ≤ x → Atan.approx x = .ok (atanApprox AtanConsts.real x) := by
    intro x hx
    have e1 : AtanConsts.real.low = 0.66 := by norm_num [AtanConsts.real, AtanConsts.map, AtanConsts.decimal]
    have e2 : AtanConsts.real.high = 2.41421356237309504880 := by norm_num [AtanConsts.real, AtanConsts.map, AtanConsts.decimal]
    have e3 : AtanConsts.real.halfPi = Const.halfPi := by norm_num [AtanConsts.real, AtanConsts.map, AtanConsts.decimal, Const.halfPi]
    have e4 : AtanConsts.real.fourthPi = Const.fourthPi := by norm_num [AtanConsts.real, AtanConsts.map, AtanConsts.decimal, Const.fourthPi]
    have e5 : AtanConsts.real.morebits = Atan.morebits := by norm_num [AtanConsts.real, AtanConsts.map, AtanConsts.decimal, Atan.morebits]
    have e6 : AtanConsts.real.half = 0.5 := by norm_num [AtanConsts.real, AtanConsts.map, AtanConsts.decimal]
    unfold Atan.approx atanApprox
    rw [e1, e2, e3, e4, e5, e6]
    split_ifs with c1 c2
    · exact atanKernel_real x
    · have : x ≠ 0 := by intro h; subst h; norm_num at c2
      simp only [bind, Except.bind, fdiv, if_neg this, atanKernel_real, pure, Except.pure, Int.cast_one]
    · have : x + 1 ≠ 0 := by linarith
      simp only [bind, Except.bind, fdiv, if_neg this, atanKernel_real, pure, Except.pure, Int.cast_one]
  unfold Atan.atan atan
  split_ifs with c
  · exact key x c
  · rw [key (-x) (by linarith)]
    rfl

theorem atan2_real (negative : Bool) (y x : ℝ) : Atan.atan2 negative y x = .ok (atan2 AtanConsts.real negative y x) := by
  have e1 : AtanConsts.real.pi = Const.pi := by norm_num [AtanConsts.real, AtanConsts.map, AtanConsts.decimal, Const.pi]
  have e3 : AtanConsts.real.halfPi = Const.halfPi := by norm_num [AtanConsts.real, AtanConsts.map, AtanConsts.decimal, Const.halfPi]
  unfold Atan.atan2 atan2
  rw [e1, e3]
  by_cases hy : y = 0
  · rw [if_pos hy, if_pos hy]
    rfl
  by_cases hx : x = 0
  · rw [if_neg hy, if_neg hy, if_pos hx, if_pos hx]
    rfl
  rw [if_neg hy, if_neg hy, if_neg hx, if_neg hx]
  simp only [bind, Except.bind, fdiv, if_neg hx, atan_real, pure, Except.pure]
  split_ifs <;> rfl

end Elementary
end DSP
