/-
Specification of the move form: what its two extra fields say about the place of a node.
-/
import Verif.SpecPos

namespace Verif

/-- The reference nodes a user may choose for `x`: every node except `x` and what is below it. -/
def Forest.Offered (F : Forest) (x r : Nat) : Prop := r ≠ x ∧ ¬ F.Desc x r

/-- The place among its new siblings that the form's position asks for, relative to the reference node `r`:
"first child of", "before", "after". -/
def formSlot (r : Nat) : Pos → Slot
  | .left => .before r
  | .right => .after r
  | _ => .first

/-- The form shows `ref` and `pos`, and this is where `x` is: "after r", "first child of ref" (with no `ref`: the
first root), or for sorted trees "child of ref" (with no `ref`: a root). -/
def Forest.ShowsPlace (F : Forest) (x : Nat) : Option Nat → Pos → Prop
  | some r, .right => ∃ p l₁ l₂, F p = l₁ ++ r :: x :: l₂
  | ref, .firstChild => ∃ l, F ref = x :: l
  | ref, .sortedChild => x ∈ F ref
  | _, _ => False

/-- `form.changed_data`: whether the two extra fields changed, and which model fields -/
structure Changed where
  ref : Bool
  pos : Bool
  fields : List Nat
deriving DecidableEq, Repr

/-- The submission says something about the place: the reference or the position changed, or a field the siblings are
sorted by.  (A descending field is not counted, which is what the code does: `C44_descending_unsorted`.) -/
def Changed.Touches (c : Changed) (orderBy : List (Nat × Bool)) : Prop :=
  c.ref = true ∨ c.pos = true ∨ ∃ f ∈ c.fields, (f, false) ∈ orderBy

/-- Where a submission without `node_order_by` asks the node to be: below `p` at the place `s`.  With no reference:
the first root. -/
def Forest.FormAsks (F : Forest) (ref : Option Nat) (pos : Pos) (p : Option Nat) (s : Slot) : Prop :=
  match ref with
  | none => p = none ∧ s = .first
  | some r => ∃ q, r ∈ F q ∧ p = pos.dest q r ∧ s = formSlot r pos

/-- Where a submission with `node_order_by` asks the node to be: below `p`. -/
def Forest.FormAsksBelow (F : Forest) (ref : Option Nat) (pos : Pos) (p : Option Nat) : Prop :=
  match ref with
  | none => p = none
  | some r => ∃ q, r ∈ F q ∧ p = pos.dest q r

/-- The values of the node `k` become `v`; everything else stays. -/
def editData (D : List (Nat × Vals)) (k : Nat) (v : Vals) : List (Nat × Vals) :=
  D.map (fun e => if e.1 = k then (k, v) else e)

end Verif
