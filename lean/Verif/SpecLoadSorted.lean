/-
C91: a tree kept in order while many nodes are added to it.
-/
import Verif.SpecResort
import Verif.SpecShuffle

namespace Verif

/-- `F` is `G` with every group of siblings sorted by `ob`, those with equal values in the order of `G`: no node changes its parent. -/
def Forest.StablySorted (ob : List (Nat × Bool)) (v : Nat → Vals) (G F : Forest) : Prop :=
  ∀ q, (F q).Perm (G q) ∧ (F q).Pairwise (Precedes ob v (G q))

end Verif
