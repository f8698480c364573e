/-
Specification: what the admin's tree list shows of a model that inherits from the tree model.  Some nodes of the tree are nodes of this model (`sub`), the others are not.
-/
import Verif.SpecSearch

namespace Verif

/-- The rows are the nodes of the model among the children of `p` (the roots if `none`) in order, with the right parent and level, and every row with such a node among its
children can be opened. -/
structure ListsSub (F : Forest) (sub : Nat → Bool) (p : Option Nat) (rows : List AdminRow) : Prop where
  nodes : rows.map AdminRow.node = (F p).filter sub
  parent : ∀ r ∈ rows, r.parent = p.getD 0
  level : ∀ r ∈ rows, ∃ n : Nat, r.level = n ∧ F.Level r.node n
  opens : ∀ r ∈ rows, (F (some r.node)).filter sub ≠ [] → r.hasChildren = true

/-- What the list shows: every request shows the nodes of the model among the children, a node that is not of the model is Http404, and who opens everything sees, in tree order,
the nodes of the model that have only nodes of the model above them. -/
structure SubShows (F : Forest) (ids : List Nat) (sub : Nat → Bool) (req : Option Nat → Except Err (List AdminRow)) : Prop where
  lists : ∀ p, (∀ k, p = some k → k ∈ ids ∧ sub k = true) → ∃ l, req p = .ok l ∧ ListsSub F sub p l
  unknown : ∀ k, ¬ (k ∈ ids ∧ sub k = true) → req (some k) = .error .doesNotExist
  all : ∃ top out tree, req none = .ok top ∧ Opened req top out ∧ (∀ out', Opened req top out' → out' = out) ∧
    F.DFS (F none) tree ∧ (out.map AdminRow.node).Sublist tree ∧ (out.map AdminRow.node).Nodup ∧
    (∀ k, k ∈ out.map AdminRow.node ↔ k ∈ ids ∧ F.HitPath sub k) ∧
    ∀ r ∈ out, ∃ n : Nat, r.level = n ∧ F.Level r.node n

/-- Which rows can be opened: those for which `B` holds. -/
def Buttons (req : Option Nat → Except Err (List AdminRow)) (B : Nat → Prop) : Prop :=
  ∀ p l, req p = .ok l → ∀ r ∈ l, (r.hasChildren = true ↔ B r.node)

end Verif
