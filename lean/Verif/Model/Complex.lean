import Mathlib.Algebra.Field.Defs

/-!
# Model of complex.hh

`T` is any type of values; its arithmetic is whatever the operations of that type are, exact or rounded. `sqrt`, `atan2`, `cos` and `sin` are found by name lookup at instantiation and are parameters here.
-/

namespace DSP

/-- complex.hh:11-16; the members are private, `re` and `im` stand for the accessors `real()` and `imag()` as well. complex.hh:20-23 -/
structure Cplx (T : Type) where
  re : T
  im : T

namespace Cplx

variable {T : Type} [Zero T] [Add T] [Sub T] [Mul T] [Neg T] [Div T]

/-- complex.hh:17 -/
def default : Cplx T := ⟨0, 0⟩

/-- complex.hh:18 -/
def ofReal (r : T) : Cplx T := ⟨r, 0⟩

/-- complex.hh:22 -/
def setReal (c : Cplx T) (r : T) : Cplx T := ⟨r, c.im⟩

/-- complex.hh:23 -/
def setImag (c : Cplx T) (i : T) : Cplx T := ⟨c.re, i⟩

/-- complex.hh:24-29 -/
def assign (_ : Cplx T) (a : T) : Cplx T := ⟨a, 0⟩

/-- complex.hh:56-60 -/
def eq [DecidableEq T] (a b : Cplx T) : Bool := a.re == b.re && a.im == b.im

/-- complex.hh:62-66 -/
def ne [DecidableEq T] (a b : Cplx T) : Bool := a.re != b.re || a.im != b.im

/-- complex.hh:68-72 -/
def add (a b : Cplx T) : Cplx T := ⟨a.re + b.re, a.im + b.im⟩

/-- complex.hh:74-78 -/
def plus (a : Cplx T) : Cplx T := a

/-- complex.hh:80-84 -/
def sub (a b : Cplx T) : Cplx T := ⟨a.re - b.re, a.im - b.im⟩

/-- complex.hh:86-90 -/
def neg (a : Cplx T) : Cplx T := ⟨-a.re, -a.im⟩

/-- complex.hh:92-96 -/
def smul (a : T) (b : Cplx T) : Cplx T := ⟨a * b.re, a * b.im⟩

/-- complex.hh:98-102 -/
def sdiv (a : Cplx T) (b : T) : Cplx T := ⟨a.re / b, a.im / b⟩

/-- complex.hh:104-108 -/
def mul (a b : Cplx T) : Cplx T := ⟨a.re * b.re - a.im * b.im, a.re * b.im + a.im * b.re⟩

/-- complex.hh:110-115 -/
def rdiv (a : T) (b : Cplx T) : Cplx T :=
  ⟨(a * b.re) / (b.re * b.re + b.im * b.im), -(a * b.im) / (b.re * b.re + b.im * b.im)⟩

/-- complex.hh:117-122 -/
def div (a b : Cplx T) : Cplx T :=
  ⟨(a.re * b.re + a.im * b.im) / (b.re * b.re + b.im * b.im), (a.im * b.re - a.re * b.im) / (b.re * b.re + b.im * b.im)⟩

/-- complex.hh:30-33 -/
def addAssign (this a : Cplx T) : Cplx T := add a this

/-- complex.hh:34-37 -/
def subAssign (this a : Cplx T) : Cplx T := sub this a

/-- complex.hh:38-41 -/
def mulAssign (this a : Cplx T) : Cplx T := mul a this

/-- complex.hh:42-45 -/
def smulAssign (this : Cplx T) (a : T) : Cplx T := smul a this

/-- complex.hh:46-49 -/
def sdivAssign (this : Cplx T) (a : T) : Cplx T := sdiv this a

/-- complex.hh:50-53 -/
def divAssign (this a : Cplx T) : Cplx T := div this a

/-- complex.hh:124-128 -/
def conj (a : Cplx T) : Cplx T := ⟨a.re, -a.im⟩

/-- complex.hh:130-134 -/
def norm (a : Cplx T) : T := a.re * a.re + a.im * a.im

/-- complex.hh:136-140 -/
def abs (sqrt : T → T) (a : Cplx T) : T := sqrt (norm a)

/-- complex.hh:142-146 -/
def arg (atan2 : T → T → T) (a : Cplx T) : T := atan2 a.im a.re

/-- complex.hh:148-152 -/
def polar (cos sin : T → T) (a b : T) : Cplx T := ⟨a * cos b, a * sin b⟩

/-! What the operators above are called in Lean. -/

instance : Zero (Cplx T) := ⟨default⟩
instance : Add (Cplx T) := ⟨add⟩
instance : Sub (Cplx T) := ⟨sub⟩
instance : Mul (Cplx T) := ⟨mul⟩
instance : SMul T (Cplx T) := ⟨smul⟩

end Cplx
end DSP
