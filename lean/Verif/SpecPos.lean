/-
Specification: what the position names of `add_sibling` and `move` ask for.
-/
import Verif.Spec
import Verif.Common

namespace Verif

/-- the slot asked for by a sibling position relative to `t` -/
def sibSlot (t : Nat) : Pos → Option Slot
  | .firstSibling => some .first
  | .left => some (.before t)
  | .right => some (.after t)
  | .lastSibling => some .last
  | _ => none

/-- The tree asked for by moving `x` to the sibling position `pos` of `t`, whose parent is `p`.
Moving a node to the left or right of itself asks for nothing. -/
def Forest.sibMove (F : Forest) (x : Nat) (p : Option Nat) (t : Nat) : Pos → Forest
  | .firstSibling => F.move x p .first
  | .lastSibling => F.move x p .last
  | .left => if t = x then F else F.move x p (.before t)
  | .right => if t = x then F else F.move x p (.after t)
  | _ => F

/-- The tree asked for by `move(x, t, pos)`, where `p` is the parent of `t`. -/
def Forest.moveAsked (F : Forest) (x : Nat) (p : Option Nat) (t : Nat) : Pos → Forest
  | .firstChild => F.move x (some t) .first
  | .lastChild => F.move x (some t) .last
  | pos => F.sibMove x p t pos

/-- the positions below the target -/
def Pos.isChild : Pos → Bool
  | .firstChild | .lastChild | .sortedChild => true
  | _ => false

/-- the new parent asked for, where `p` is the parent of `t` -/
def Pos.dest (p : Option Nat) (t : Nat) (pos : Pos) : Option Nat := if pos.isChild then some t else p

/-- the moves into the node's own branch: the target is below the node, or is the node and the position is
below the target -/
def Forest.MoveRefused (F : Forest) (x t : Nat) (pos : Pos) : Prop := F.Desc x t ∨ (pos.isChild = true ∧ t = x)

/-- The unsorted sibling positions. -/
def IsSibPos (pos : Pos) : Prop := pos = .firstSibling ∨ pos = .left ∨ pos = .right ∨ pos = .lastSibling

/-- The unsorted positions. -/
def IsPlainPos (pos : Pos) : Prop := IsSibPos pos ∨ pos = .firstChild ∨ pos = .lastChild

end Verif
