/-
C93: a node of a sorted tree whose children are handed over before it is deleted.
-/
import Verif.SpecUnsorted

namespace Verif

/-- `a` is not there any more, and the children it had come after the children of `p` (the roots if `none`) -/
def Forest.handedOver (F : Forest) (a : Nat) (p : Option Nat) : Forest :=
  fun q => if q = some a then [] else if q = p then (F q).filter (fun k => decide (k ≠ a)) ++ F (some a) else (F q).filter (fun k => decide (k ≠ a))

/-- the nodes `cs` are moved relative to `t` one after the other, each time with freshly fetched objects, and then `a` is deleted -/
def handOps (cs : List Nat) (a t : Nat) (pos : Pos) : List Op := cs.map (fun c => .move c t (some pos)) ++ [.delete [a]]

end Verif
