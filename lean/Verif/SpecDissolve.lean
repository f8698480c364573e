/-
Specification: a node that is taken out of the tree, with its children in its place.
-/
import Verif.Spec

namespace Verif

/-- the node `x` is gone and its children, in their order, are where it was -/
def Forest.dissolved (F : Forest) (x : Nat) : Forest :=
  fun q => if q = some x then [] else (F q).flatMap (fun k => if k = x then F (some x) else [k])

/-- some of the children of `x` are still below it and the others, in their order, are right behind it -/
def Forest.released (F : Forest) (x : Nat) (kept gone : List Nat) : Forest :=
  fun q => if q = some x then kept else (F q).flatMap (fun k => if k = x then x :: gone else [k])

end Verif
