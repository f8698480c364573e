/-
Specification: histories of operations, and what they ask for on an ordered forest (without node_order_by).
-/
import Verif.SpecPos

namespace Verif

/-- The operations.  Nodes are named by primary key and fetched anew for every operation; an addition carries the
key that the database gives to the new row, and its field values. -/
inductive Op where
  | addRoot (key : Nat) (vals : Vals)
  | addChild (target : Nat) (key : Nat) (vals : Vals)
  | addSibling (target : Nat) (pos : Option Pos) (key : Nat) (vals : Vals)
  | move (node target : Nat) (pos : Option Pos)
  | delete (chosen : List Nat)

/-- The place that a sibling position means, relative to `t`. -/
def sibAsked (t : Nat) : Pos → Slot
  | .firstSibling => .first
  | .left => .before t
  | .right => .after t
  | _ => .last

/-- An abstract tree: its nodes and their ordered children. -/
structure Tree where
  ids : List Nat
  F : Forest

namespace Tree

/-- the parent of a node -/
def parent (s : Tree) (t : Nat) : Option Nat := s.ids.find? (fun p => (s.F (some p)).contains t)

/-- `k` is chosen, or lies below a chosen node -/
def Doomed (F : Forest) (S : Nat → Bool) (k : Nat) : Prop := S k = true ∨ ∃ q, S q = true ∧ F.Desc q k

open Classical in
/-- What each operation asks for.  It asks for nothing when its node or target does not exist (the fetch raises), when
the key is in use, when the position is refused, and when the target is in the node's own branch. -/
noncomputable def step (s : Tree) : Op → Tree
  | .addRoot k _ => if k ∈ s.ids then s else ⟨k :: s.ids, s.F.put none .last k⟩
  | .addChild t k _ => if k ∈ s.ids ∨ t ∉ s.ids then s else ⟨k :: s.ids, s.F.put (some t) .last k⟩
  | .addSibling t pos k _ => if k ∈ s.ids ∨ t ∉ s.ids then s
    else match preparePosForAddSibling false pos with
      | .error _ => s
      | .ok pos => ⟨k :: s.ids, s.F.put (s.parent t) (sibAsked t pos) k⟩
  | .move x t pos => if x ∉ s.ids ∨ t ∉ s.ids then s
    else match preparePosForMove false pos with
      | .error _ => s
      | .ok pos => if s.F.MoveRefused x t pos then s else ⟨s.ids, s.F.moveAsked x (s.parent t) t pos⟩
  | .delete S =>
    ⟨s.ids.filter (fun k => !decide (Doomed s.F S.contains k)), s.F.prune (fun k => decide (k ∈ s.ids ∧ Doomed s.F S.contains k))⟩

/-- a whole history -/
noncomputable def run (s : Tree) (ops : List Op) : Tree := ops.foldl step s

/-- the empty tree -/
def empty : Tree := ⟨[], fun _ => []⟩

end Tree

end Verif
