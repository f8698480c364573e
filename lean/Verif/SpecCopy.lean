/-
Specification: a copy of a branch.
-/
import Verif.SpecDump

namespace Verif

/-- the node and everything below it -/
def Forest.Branch (F : Forest) (x a : Nat) : Prop := a = x ∨ F.Desc x a

/-- `F'`, with the data `D'`, is `F`, with the data `D`, and one more branch: a copy of the branch of `x` (as it was in `F`), the last one below `p` (the last root for `none`).  `f a` is the
copy of the node `a`; all copies are new nodes, different ones for different nodes. -/
structure Copied (F F' : Forest) (D D' : List (Nat × Vals)) (v : Nat → Vals) (x : Nat) (p : Option Nat) (f : Nat → Nat) : Prop where
  new : ∀ a, F.Branch x a → f a ∉ D.map Prod.fst
  inj : ∀ a b, F.Branch x a → F.Branch x b → f a = f b → a = b
  top : F' p = F p ++ [f x]
  inside : ∀ a, F.Branch x a → F' (some (f a)) = (F (some a)).map f
  others : ∀ q, q ≠ p → (∀ a, F.Branch x a → q ≠ some (f a)) → F' q = F q
  data : ∃ l, F.DFS [x] l ∧ l.Nodup ∧ D' = D ++ l.map (fun a => (f a, v a))

end Verif
