/-
Specification: calls of `move` that stay in trees of their own.
-/
import Verif.SpecHistory

namespace Verif

/-- `k` is in the tree of the root `r` -/
def Forest.InTreeOf (F : Forest) (r k : Nat) : Prop := k = r ∨ F.Desc r k

/-- One call of `move`: the keys of the node and of the target, and the position. -/
structure MoveCall where
  node : Nat
  target : Nat
  pos : Option Pos

/-- the call as an operation of a history -/
def MoveCall.op (m : MoveCall) : Op := .move m.node m.target m.pos

/-- Every call has a tree of its own, with the node and the target in it, and the node stays in it: the target becomes the parent, or is
not a root. -/
def Forest.OwnTrees {ι : Type} (F : Forest) (ordered : Bool) (m : ι → MoveCall) : Prop :=
  ∃ root : ι → Nat, (∀ i j, root i = root j → i = j) ∧ ∀ i, root i ∈ F none ∧ F.InTreeOf (root i) (m i).node ∧ F.InTreeOf (root i) (m i).target ∧
    ((m i).target ∈ F none → ∀ p, preparePosForMove ordered (m i).pos = .ok p → p.isChild = true)

/-- the new parent that the call asks for -/
def Forest.GoesTo (F : Forest) (ordered : Bool) (m : MoveCall) (dst : Option Nat) : Prop :=
  ∃ p, m.target ∈ F p ∧ ∀ pos, preparePosForMove ordered m.pos = .ok pos → dst = pos.dest p m.target

/-- No call moves its node into a branch that a call moves. -/
def Forest.Apart {ι : Type} (F : Forest) (m : ι → MoveCall) (dst : ι → Option Nat) : Prop :=
  ∀ i j p, dst i = some p → ¬ F.InTreeOf (m j).node p

end Verif
