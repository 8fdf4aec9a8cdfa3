/-! Sliding windows over a history of inputs. -/

namespace DSP.Spec

/-- The last `min NUM n` of `n` inputs, oldest first. -/
def lastN {β : Type} (NUM : Nat) (h : List β) : List β := h.drop (h.length - NUM)

/-- The last `NUM` inputs, oldest first, `fill` standing for the ones before the start. -/
def window {β : Type} (NUM : Nat) (fill : β) (h : List β) : List β := lastN NUM (List.replicate NUM fill ++ h)

end DSP.Spec
