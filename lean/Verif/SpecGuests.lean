/-
Specification: calls that concern only a set of guests.
-/
import Verif.SpecApi

namespace Verif

/-- The call adds, moves, edits, loads or deletes only nodes with keys in `V`; other nodes serve as targets and parents only. -/
def ApiOp.Only (V : Nat → Bool) : ApiOp → Prop
  | .tree (.addRoot k _) => V k = true
  | .tree (.addChild _ k _) => V k = true
  | .tree (.addSibling _ _ k _) => V k = true
  | .tree (.move x _ _) => V x = true
  | .tree (.delete S) => ∀ k ∈ S, V k = true
  | .edit k _ => V k = true
  | .load _ data => ∀ e ∈ data.labels, V e.1 = true
  | .fixTree _ _ => True

end Verif
