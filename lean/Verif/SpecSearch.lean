/-
Specification: what the admin's tree list shows of a search, and what an action is applied to.
-/
import Verif.SpecAdmin

namespace Verif

/-- The rows are the hits among the children of `p` (the roots if `none`) in order, with the right parent and level. -/
structure ListsHits (F : Forest) (hit : Nat → Bool) (p : Option Nat) (rows : List AdminRow) : Prop where
  nodes : rows.map AdminRow.node = (F p).filter hit
  parent : ∀ r ∈ rows, r.parent = p.getD 0
  level : ∀ r ∈ rows, ∃ n : Nat, r.level = n ∧ F.Level r.node n
  hasChildren : ∀ r ∈ rows, (r.hasChildren = true ↔ F (some r.node) ≠ [])

/-- the node is a hit, and so is everything above it -/
def Forest.HitPath (F : Forest) (hit : Nat → Bool) (k : Nat) : Prop := hit k = true ∧ ∀ a, F.Desc a k → hit a = true

/-- What the list shows of a search: every request shows the hits among the children, and who opens everything sees, in tree order, the hits that have only hits above them. -/
structure SearchShows (F : Forest) (ids : List Nat) (hit : Nat → Bool) (req : Option Nat → Except Err (List AdminRow)) : Prop where
  lists : ∀ p, (∀ k, p = some k → k ∈ ids) → ∃ l, req p = .ok l ∧ ListsHits F hit p l
  unknown : ∀ k, k ∉ ids → req (some k) = .error .doesNotExist
  all : ∃ top out tree, req none = .ok top ∧ Opened req top out ∧ (∀ out', Opened req top out' → out' = out) ∧
    F.DFS (F none) tree ∧ (out.map AdminRow.node).Sublist tree ∧ (out.map AdminRow.node).Nodup ∧
    (∀ k, k ∈ out.map AdminRow.node ↔ k ∈ ids ∧ F.HitPath hit k) ∧
    ∀ r ∈ out, ∃ n : Nat, r.level = n ∧ F.Level r.node n

end Verif
