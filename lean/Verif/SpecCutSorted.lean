/-
Specification: a branch that moves to its sorted place.
-/
import Verif.SpecSorted

namespace Verif

/-- `F'` is `F` with the branch of `x` below `p` (among the roots without one), behind all siblings that are not greater and before the greater ones; everything else is as it was -/
structure MovedSorted (ob : List (Nat × Bool)) (v : Nat → Vals) (F F' : Forest) (x : Nat) (p : Option Nat) : Prop where
  top : SortedIns ob v x (v x) (F.remove x p) (F' p)
  others : ∀ q, q ≠ p → F' q = F.remove x q

end Verif
