/-
Specification: histories of all the calls that change the tree or the data, with any values, with or without `node_order_by`.
-/
import Verif.SpecSortedHistory
import Verif.SpecBehind
import Verif.SpecDump
import Verif.SpecForm

namespace Verif

/-- The calls.  Nodes are named by primary key and fetched anew for every call. -/
inductive ApiOp where
  /-- `add_root`, `add_child`, `add_sibling`, `move`, `delete` -/
  | tree (op : Op)
  /-- the node is fetched, gets new field values and is saved -/
  | edit (key : Nat) (vals : Vals)
  /-- `load_bulk` below a node, or as roots; the data come with the keys of the new rows -/
  | load (parent : Option Nat) (data : Nest (Nat × Vals))
  /-- `fix_tree(parent, fix_paths)` -/
  | fixTree (parent : Option Nat) (paths : Bool)

/-- The place of a node with the values `vx` among the siblings `l`: the place asked for without `node_order_by`; with it, the place before the
first sibling that comes after the node, or the last one. -/
def slotFor (ob : List (Nat × Bool)) (v : Nat → Vals) (vx : Vals) (l : List Nat) (asked : Slot) : Slot :=
  if ob = [] then asked
  else match l.find? (fun a => decide (Behind ob vx (v a))) with
    | some a => .before a
    | none => .last

namespace STree

/-- a new node -/
def addAny (ob : List (Nat × Bool)) (s : STree) (p : Option Nat) (asked : Slot) (k : Nat) (v : Vals) : STree :=
  ⟨s.data ++ [(k, v)], s.F.put p (slotFor ob (valsIn s.data) v (s.F p) asked) k⟩

/-- the forest asked for by a move -/
def moveAny (ob : List (Nat × Bool)) (s : STree) (x : Nat) (p : Option Nat) (t : Nat) (pos : Pos) : Forest :=
  if ob = [] then s.F.moveAsked x p t pos
  else s.F.move x (pos.dest p t) (slotFor ob (valsIn s.data) (valsIn s.data x) (s.F.remove x (pos.dest p t)) .last)

/-- new nodes, each one before its children and these before the next one -/
def loadAny (ob : List (Nat × Bool)) : STree → Option Nat → Nest (Nat × Vals) → STree
  | s, _, .nil => s
  | s, p, .cons (k, v) c r => loadAny ob (loadAny ob (s.addAny ob p .last k v) (some k) c) p r

/-- The data of `load_bulk` can be loaded: the parent exists, and no key is in use or given twice. -/
def Loadable (s : STree) (parent : Option Nat) (data : Nest (Nat × Vals)) : Prop :=
  (∀ t ∈ parent, t ∈ s.ids) ∧ (data.labels.map Prod.fst).Nodup ∧ ∀ e ∈ data.labels, e.1 ∉ s.ids

open Classical in
/-- What each call asks for.  It asks for nothing when its node or target does not exist, when the key is in use, when the position
is refused, and when the target is in the node's own branch. -/
noncomputable def stepApi (ob : List (Nat × Bool)) (s : STree) : ApiOp → STree
  | .tree (.addRoot k v) => if k ∈ s.ids then s else s.addAny ob none .last k v
  | .tree (.addChild t k v) => if k ∈ s.ids ∨ t ∉ s.ids then s else s.addAny ob (some t) .last k v
  | .tree (.addSibling t pos k v) => if k ∈ s.ids ∨ t ∉ s.ids then s
    else match preparePosForAddSibling (decide (ob ≠ [])) pos with
      | .error _ => s
      | .ok pos => s.addAny ob (s.parent t) (sibAsked t pos) k v
  | .tree (.move x t pos) => if x ∉ s.ids ∨ t ∉ s.ids then s
    else match preparePosForMove (decide (ob ≠ [])) pos with
      | .error _ => s
      | .ok pos => if s.F.MoveRefused x t pos then s else ⟨s.data, s.moveAny ob x (s.parent t) t pos⟩
  | .tree (.delete S) =>
    ⟨s.data.filter (fun e => !decide (Tree.Doomed s.F S.contains e.1)),
     s.F.prune (fun k => decide (k ∈ s.ids ∧ Tree.Doomed s.F S.contains k))⟩
  | .edit k v => if k ∈ s.ids then ⟨editData s.data k v, s.F⟩ else s
  | .load p data => if s.Loadable p data then s.loadAny ob p data else s
  | .fixTree _ _ => s

/-- a whole history -/
noncomputable def runApi (ob : List (Nat × Bool)) (s : STree) (ops : List ApiOp) : STree := ops.foldl (stepApi ob) s

end STree

end Verif
