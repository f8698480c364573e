/-
Specification: a copy of a branch in a sorted tree.
-/
import Verif.SpecCopy
import Verif.SpecSorted

namespace Verif

/-- Like `Copied`, in a tree that is kept in order: the copy of `x` is not the last child of `p`, it stands behind all children that are not greater.  Inside of the copy, and everywhere
else in the tree, all is as it was. -/
structure CopiedSorted (ob : List (Nat × Bool)) (F F' : Forest) (D D' : List (Nat × Vals)) (v : Nat → Vals) (x : Nat) (p : Option Nat) (f : Nat → Nat) : Prop where
  new : ∀ a, F.Branch x a → f a ∉ D.map Prod.fst
  inj : ∀ a b, F.Branch x a → F.Branch x b → f a = f b → a = b
  top : SortedIns ob v (f x) (v x) (F p) (F' p)
  inside : ∀ a, F.Branch x a → F' (some (f a)) = (F (some a)).map f
  others : ∀ q, q ≠ p → (∀ a, F.Branch x a → q ≠ some (f a)) → F' q = F q
  data : ∃ l, F.DFS [x] l ∧ l.Nodup ∧ D' = D ++ l.map (fun a => (f a, v a))

end Verif
