import Verif.Model.HilbertRounded
import Verif.Model.Ieee

/-!
# The Hilbert transformer and the down-converter with the limits of the exponent

The generic models of `Model/HilbertRounded.lean` work on the numbers of a format. The constructors are those without limits of the exponent, and what they leave behind is converted;
the conversion is exact (C137).
-/

namespace DSP

/-- A number without limits of the exponent, as a number of the format. -/
def Ieee.ofBinary {F : Format} (b : Binary F.p) : Ieee F := pack (decide (b.val < 0)) b.val

/-- What the constructor leaves behind, as numbers of the format. hilbert.hh:23-31 -/
def Hilbert.Rounded.converted {F : Format} (h : State (Binary F.p)) : State (Ieee F) := ⟨h.real.map Ieee.ofBinary, h.imco.map Ieee.ofBinary, Ieee.ofBinary h.reco⟩

/-- What the constructor leaves behind, as numbers of the format. cdc.hh:26-37 -/
def CDC.Rounded.converted {F : Format} (c : State (Binary F.p)) : State (Ieee F) :=
  ⟨c.real.map Ieee.ofBinary, c.imag.map Ieee.ofBinary, c.imco.map Ieee.ofBinary, Ieee.ofBinary c.reco, c.sign⟩

end DSP
