/-
What an external store that listens to the signals does with them, as the documentation of the signals says
(docs/source/mp_tree.rst:243-285, ns_tree.rst:95-180, ltree.rst:103-170): it keeps one entry per node and never looks at the
table.
-/
import Verif.MP.Model
import Verif.NS.Model
import Verif.LT.Model

namespace Verif

/-- What a listener is told: one of treebeard's signals, or Django's `post_save` for one node. -/
inductive Event (σ α : Type) where
  | sig (s : σ)
  | saved (a : α)

/-- replace the entry with this key, or add one -/
def upsert {α : Type} (key : α → Nat) (a : α) (l : List α) : List α :=
  if l.any (fun b => key b == key a) then l.map (fun b => if key b == key a then a else b) else l ++ [a]

namespace MP

/-- what the store keeps of a node -/
structure Entry where
  pk : Nat
  path : List Nat
  depth : Nat
deriving DecidableEq, Repr

/-- the entry that shows a node -/
def Row.entry (r : Row) : Entry := ⟨r.pk, r.path, r.depth⟩

/-- `path_updated`: "all nodes in the update operation have had the prefix `old_path` replaced with `new_path`.  Note that if these
paths are of different lengths, the depth of the nodes has also been updated accordingly": the depth becomes the number of steps of the
path.  With `always` the store computes the depth for paths of the same length, too.  `nodes_deleted`: the leaves are given by key,
the other nodes by path, "along with their descendants". -/
def listenSig (steplen : Nat) (always : Bool) (l : List Entry) : Sig → List Entry
  | .pathUpdated old new => l.map (fun e =>
      if old.isPrefixOf e.path then
        ⟨e.pk, new ++ e.path.drop old.length,
          if always = true ∨ old.length ≠ new.length then (new ++ e.path.drop old.length).length / steplen else e.depth⟩
      else e)
  | .nodesDeleted pks paths => l.filter (fun e => !(pks.contains e.pk || paths.any (fun p => p.isPrefixOf e.path)))

/-- the store after one event -/
def listen (steplen : Nat) (always : Bool) (l : List Entry) : Event Sig Entry → List Entry
  | .sig s => listenSig steplen always l s
  | .saved e => upsert Entry.pk e l

end MP

namespace NS

/-- what the store keeps of a node -/
structure Entry where
  pk : Nat
  tree : Int
  lft : Int
  rgt : Int
  depth : Int
deriving DecidableEq, Repr

/-- the entry that shows a node -/
def Row.entry (r : Row) : Entry := ⟨r.pk, r.tree, r.lft, r.rgt, r.depth⟩

/-- `gap_altered`: "all lft and rgt values greater than or equal to this index, within the tree identified by tree_id, were
incremented or decremented by offset"; `tree_ids_incremented`: "all tree IDs greater than or equal to this value were incremented
by 1"; `subtree_moved`: "the update operation applies to all nodes in the tree tree_id with left values greater than or equal to lft
and right values less than or equal to rgt"; `nodes_deleted`: the nodes that lie in one of the ranges. -/
def listenSig (l : List Entry) : Sig → List Entry
  | .gapAltered tree start offset => l.map (fun e =>
      if e.tree = tree then
        { e with lft := if start ≤ e.lft then e.lft + offset else e.lft, rgt := if start ≤ e.rgt then e.rgt + offset else e.rgt }
      else e)
  | .treeIdsIncremented tree => l.map (fun e => if tree ≤ e.tree then { e with tree := e.tree + 1 } else e)
  | .subtreeMoved tree lft rgt target jump depthdiff => l.map (fun e =>
      if e.tree = tree ∧ lft ≤ e.lft ∧ e.rgt ≤ rgt then ⟨e.pk, target, e.lft + jump, e.rgt + jump, e.depth + depthdiff⟩ else e)
  | .nodesDeleted ranges => l.filter (fun e => !ranges.any (fun g => decide (e.tree = g.1 ∧ g.2.1 ≤ e.lft ∧ e.rgt ≤ g.2.2)))

/-- the store after one event -/
def listen (l : List Entry) : Event Sig Entry → List Entry
  | .sig s => listenSig l s
  | .saved e => upsert Entry.pk e l

end NS

namespace LT

/-- what the store keeps of a node -/
structure Entry where
  pk : Nat
  path : Path
deriving DecidableEq, Repr

/-- the entry that shows a node -/
def Row.entry (r : Row) : Entry := ⟨r.pk, r.path⟩

/-- the path with "A" appended to its label number `n` (counted from 0) -/
def growLabel : Nat → Path → Path
  | _, [] => []
  | 0, l :: p => (l ++ [65]) :: p
  | n + 1, l :: p => l :: growLabel n p

/-- the node with this path, the siblings after it and their descendants: the path agrees with it but for its last label, and has
at that place the same label or a greater one -/
def atOrAfter : Path → Path → Bool
  | [l], m :: _ => !decide (m < l)
  | l :: start, m :: p => l == m && atOrAfter start p
  | _, _ => false

/-- `subtree_moved_right`: "the update operation applies to the node with this path, siblings after it (…), and all their
descendants.  For the targeted node and its siblings, the update operation appends an 'A' to the last element of the path; (…) for
their descendants, the path elements following the incremented one are unchanged".  `subtree_moved`: "for all nodes in the update, the
prefix `old_path` is replaced with `new_path`". -/
def listenSig (l : List Entry) : Sig → List Entry
  | .movedRight start => l.map (fun e =>
      if atOrAfter start e.path then ⟨e.pk, growLabel (start.length - 1) e.path⟩ else e)
  | .moved old new => l.map (fun e => if old.isPrefixOf e.path then ⟨e.pk, new ++ e.path.drop old.length⟩ else e)
  | .nodesDeleted paths => l.filter (fun e => !paths.any (fun p => p.isPrefixOf e.path))

/-- the store after one event -/
def listen (l : List Entry) : Event Sig Entry → List Entry
  | .sig s => listenSig l s
  | .saved e => upsert Entry.pk e l

end LT

end Verif
