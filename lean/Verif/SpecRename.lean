/-
Specification: the same history with other primary keys.
-/
import Verif.SpecApi

namespace Verif

/-- the same call on nodes with other keys -/
def ApiOp.rekey (f : Nat → Nat) : ApiOp → ApiOp
  | .tree (.addRoot k v) => .tree (.addRoot (f k) v)
  | .tree (.addChild t k v) => .tree (.addChild (f t) (f k) v)
  | .tree (.addSibling t pos k v) => .tree (.addSibling (f t) pos (f k) v)
  | .tree (.move x t pos) => .tree (.move (f x) (f t) pos)
  | .tree (.delete S) => .tree (.delete (S.map f))
  | .edit k v => .edit (f k) v
  | .load p data => .load (p.map f) (data.map fun e => (f e.1, e.2))
  | .fixTree p paths => .fixTree (p.map f) paths

/-- the same tree with other keys -/
def Forest.Rekeyed (f : Nat → Nat) (F F' : Forest) : Prop := ∀ p, F' (p.map f) = (F p).map f

/-- the same data with other keys -/
def rekeyData (f : Nat → Nat) (D : List (Nat × Vals)) : List (Nat × Vals) := D.map fun e => (f e.1, e.2)

end Verif
