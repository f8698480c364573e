/-
Specification of the admin's tree list: what one request shows, and what a user sees who opens everything.
-/
import Verif.SpecNav

namespace Verif

/-- One row of the list: the node, what is given as its parent (0: none), its level, and whether it can be opened. -/
structure AdminRow where
  node : Nat
  parent : Nat
  level : Int
  hasChildren : Bool
deriving DecidableEq, Repr

/-- The rows are the children of `p` (the roots if `none`) in order, with the right parent and level, and exactly those
with children can be opened. -/
structure ListsChildren (F : Forest) (p : Option Nat) (rows : List AdminRow) : Prop where
  nodes : rows.map AdminRow.node = F p
  parent : ∀ r ∈ rows, r.parent = p.getD 0
  level : ∀ r ∈ rows, ∃ n : Nat, r.level = n ∧ F.Level r.node n
  hasChildren : ∀ r ∈ rows, (r.hasChildren = true ↔ F (some r.node) ≠ [])

/-- `Opened req rows l`: starting with `rows`, a user opens every row that can be opened, with the requests `req`, and the
rows of the answer appear below the opened row; at the end the screen shows `l`. -/
inductive Opened (req : Option Nat → Except Err (List AdminRow)) : List AdminRow → List AdminRow → Prop where
  | nil : Opened req [] []
  | closed {r rs l} : r.hasChildren = false → Opened req rs l → Opened req (r :: rs) (r :: l)
  | opened {r rs below l₁ l₂} : r.hasChildren = true → req (some r.node) = .ok below → Opened req below l₁ → Opened req rs l₂ →
      Opened req (r :: rs) (r :: (l₁ ++ l₂))

/-- What C54 asks for: every request shows the children of the node asked for (the roots without one), an unknown key is
Http404, and who opens everything sees every node exactly once, in tree order, at its level. -/
structure AdminShows (F : Forest) (ids : List Nat) (req : Option Nat → Except Err (List AdminRow)) : Prop where
  lists : ∀ p, (∀ k, p = some k → k ∈ ids) → ∃ l, req p = .ok l ∧ ListsChildren F p l
  unknown : ∀ k, k ∉ ids → req (some k) = .error .doesNotExist
  all : ∃ top out, req none = .ok top ∧ Opened req top out ∧ (∀ out', Opened req top out' → out' = out) ∧
    F.DFS (F none) (out.map AdminRow.node) ∧ (out.map AdminRow.node).Nodup ∧ (∀ k, k ∈ out.map AdminRow.node ↔ k ∈ ids) ∧
    ∀ r ∈ out, ∃ n : Nat, r.level = n ∧ F.Level r.node n

end Verif
