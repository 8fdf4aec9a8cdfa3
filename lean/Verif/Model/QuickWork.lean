import Verif.Model.Quick

/-!
The recursions of `/repo/quick.hh` with a counter. The counter adds up how many elements the calls of `partition` look at: the loop quick.hh:51-57 of a call
with `l` and `h` makes `h - l + 1` passes (`Quick.partLoop_passes`). Passes of `insertion` are not counted, it handles at most 32 elements at a time.
-/

namespace DSP.Quick
variable {α : Type}

/-- `sort`, quick.hh:71-84, with the counter. -/
def sortWork (lt : α → α → Bool) : Nat → List α → Int → Int → M (List α × Nat)
  | fuel, a, l, h =>
    if l < h then
      if h - l < 32 then do
        let a ← insertion lt a l h
        return (a, 0)
      else
        match fuel with
        | 0 => .error .diverge
        | fuel + 1 => do
          let (a, l', h') ← partition lt a l h
          let (a, u) ← sortWork lt fuel a l (l' - 1)
          let (a, v) ← sortWork lt fuel a (h' + 1) h
          return (a, (h - l + 1).toNat + u + v)
    else .ok (a, 0)

/-- `select`, quick.hh:86-104, with the counter. -/
def selectWork (lt : α → α → Bool) (k : Int) : Nat → List α → Int → Int → M (List α × Nat)
  | fuel, a, l, h =>
    if l < h then
      if h - l < 32 then do
        let a ← insertion lt a l h
        return (a, 0)
      else
        match fuel with
        | 0 => .error .diverge
        | fuel + 1 => do
          let (a, l', h') ← partition lt a l h
          if k < l' then
            let (a, u) ← selectWork lt k fuel a l (l' - 1)
            return (a, (h - l + 1).toNat + u)
          else if k > h' then
            let (a, u) ← selectWork lt k fuel a (h' + 1) h
            return (a, (h - l + 1).toNat + u)
          else return (a, (h - l + 1).toNat)
    else .ok (a, 0)

end DSP.Quick
