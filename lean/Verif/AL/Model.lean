/-
Model of treebeard/al_tree.py: adjacency list.

Simplifications: see DESIGN.md section 3.  A table is the list of its rows in physical order.  In-memory objects are
copies of rows; the `_cached_depth` of an object is a separate argument where the code reads it.  `node.parent` and
`get_parent` read the parent row from the table (for Django's relation cache see AL/Objects.lean).  The `parent` key has a foreign
key constraint with `on_delete=CASCADE`, as in tests/models.py:77-85.  Loops and recursions run on fuel that no
terminating run exhausts; running out of it is the error `diverges`.
-/
import Verif.Common
import Verif.SpecNav
import Verif.Sorted

namespace Verif.AL

/-- A row of the table, or an in-memory copy of it (docs/source/al_tree.rst: `parent`, `sib_order`). -/
structure Row where
  pk : Nat
  /-- `parent_id` -/
  parent : Option Nat
  /-- `sib_order`; unused with `node_order_by` -/
  sib : Int
  /-- all the other fields -/
  vals : Vals
deriving DecidableEq, Repr

/-- The class attributes of an `AL_Node` model: `node_order_by` (al_tree.py:294), and how the database orders rows that
`order_by` does not distinguish: some permutation of the selected rows, of which nothing else is known. -/
structure Cfg where
  orderBy : List (Nat × Bool)
  ties : List Row → List Row := id
  ties_perm : ∀ l, (ties l).Perm l := by intro l; exact List.Perm.refl l

/-- bool(node_order_by) -/
def Cfg.ordered (cfg : Cfg) : Bool := !cfg.orderBy.isEmpty

/-- The table. -/
structure DB where
  rows : List Row
deriving DecidableEq, Repr

/-! ### Query sets -/

/-- one field of `order_by` -/
def fieldLtB (desc : Bool) (a b : Option Int) : Bool :=
  match a, b with
  | some a, some b => if desc then decide (b < a) else decide (a < b)
  | _, _ => false

/-- `order_by(*node_order_by)` compares like this (the place of nulls depends on the database: here they compare with
nothing, and the theorems exclude them) -/
def keyLtB : List (Nat × Bool) → Vals → Vals → Bool
  | [], _, _ => false
  | (f, desc) :: rest, a, b =>
    fieldLtB desc (fieldOf a f) (fieldOf b f) || (fieldOf a f == fieldOf b f && keyLtB rest a b)

/-- al_tree.py:16-22: `order_by("parent", *node_order_by)` or `order_by("parent", "sib_order")`.  All query sets of the
model select the rows of one parent, so the first key does not matter. -/
def ltB (cfg : Cfg) (a b : Row) : Bool :=
  if cfg.ordered then keyLtB cfg.orderBy a.vals b.vals else decide (a.sib < b.sib)

/-- an ordered query set -/
def order (cfg : Cfg) (l : List Row) : List Row := sortBy (ltB cfg) (cfg.ties l)

/-- `objects.get(pk=..)` -/
def DB.get? (db : DB) (pk : Nat) : Option Row := db.rows.find? (·.pk == pk)

/-- `filter(parent=p)` -/
def withParent (db : DB) (p : Option Nat) : List Row := db.rows.filter (fun r => r.parent == p)

/-- al_tree.py:155-157 `get_root_nodes` -/
def rootNodes (cfg : Cfg) (db : DB) : List Row := order cfg (withParent db none)

/-- al_tree.py:194-196 `get_children` -/
def children (cfg : Cfg) (db : DB) (node : Row) : List Row := order cfg (withParent db (some node.pk))

/-- al_tree.py:198-205 `get_siblings`.  (`if node.parent_id:` — the key 0 does not occur in automatic keys; see AL/Zero for it.) -/
def siblings (cfg : Cfg) (db : DB) (node : Row) : List Row :=
  match node.parent with
  | some p => order cfg (withParent db (some p))
  | none => rootNodes cfg db

/-- models.py:36-38 `is_leaf` -/
def isLeaf (cfg : Cfg) (db : DB) (node : Row) : Bool := (children cfg db node).isEmpty

/-- models.py:512-514 `get_children_count` -/
def childrenCount (cfg : Cfg) (db : DB) (node : Row) : Int := (children cfg db node).length

/-- models.py:545-551 `get_first_child` -/
def firstChild (cfg : Cfg) (db : DB) (node : Row) : Option Row := (children cfg db node).head?
/-- models.py:553-559 `get_last_child` -/
def lastChild (cfg : Cfg) (db : DB) (node : Row) : Option Row := (children cfg db node).getLast?
/-- models.py:561-568 `get_first_sibling` -/
def firstSibling (cfg : Cfg) (db : DB) (node : Row) : Option Row := (siblings cfg db node).head?
/-- models.py:570-577 `get_last_sibling` -/
def lastSibling (cfg : Cfg) (db : DB) (node : Row) : Option Row := (siblings cfg db node).getLast?

/-- al_tree.py:226-227 `get_prev_sibling`; a model with `node_order_by` has no `sib_order` -/
def prevSibling (cfg : Cfg) (db : DB) (node : Row) : Except Err (Option Row) :=
  if cfg.ordered then .error .attributeError
  else .ok ((siblings cfg db node).filter (fun r => decide (r.sib < node.sib))).getLast?

/-- al_tree.py:229-230 `get_next_sibling` -/
def nextSibling (cfg : Cfg) (db : DB) (node : Row) : Except Err (Option Row) :=
  if cfg.ordered then .error .attributeError
  else .ok ((siblings cfg db node).filter (fun r => decide (node.sib < r.sib))).head?

/-- al_tree.py:238-250 `get_parent`, both branches; the foreign key raises DoesNotExist for a dangling key -/
def getParent (db : DB) (node : Row) : Except Err (Option Row) :=
  match node.parent with
  | none => .ok none
  | some p => match db.get? p with
    | none => .error .doesNotExist
    | some r => .ok (some r)

/-- al_tree.py:259-263, the loop of `get_ancestors` -/
def ancestorsLoop (db : DB) : Nat → Row → List Row → Except Err (List Row)
  | 0, _, _ => .error .diverges
  | fuel + 1, node, acc =>
    match getParent db node with
    | .error e => .error e
    | .ok none => .ok acc
    | .ok (some p) => ancestorsLoop db fuel p (p :: acc)

/-- al_tree.py:252-263 `get_ancestors` -/
def ancestors (db : DB) (node : Row) : Except Err (List Row) := ancestorsLoop db (db.rows.length + 1) node []

/-- al_tree.py:232-236 `get_root` -/
def getRoot (db : DB) (node : Row) : Except Err Row :=
  match ancestors db node with
  | .error e => .error e
  | .ok [] => .ok node
  | .ok (r :: _) => .ok r

/-- al_tree.py:325-328, the loop of `get_depth` -/
def depthLoop (db : DB) : Nat → Row → Int → Except Err Int
  | 0, _, _ => .error .diverges
  | fuel + 1, node, depth =>
    match getParent db node with
    | .error e => .error e
    | .ok none => .ok (depth + 1)
    | .ok (some p) => depthLoop db fuel p (depth + 1)

/-- al_tree.py:305-330 `get_depth`; `cached` is the object's `_cached_depth` -/
def getDepth (db : DB) (node : Row) (cached : Option Int) : Except Err Int :=
  match node.parent with
  | none => .ok 1
  | some _ => match cached with
    | some d => .ok d
    | none => depthLoop db (db.rows.length + 1) node 0

/-- a `for` loop that collects lists -/
def collect {α β : Type} (f : α → Except Err (List β)) : List α → Except Err (List β)
  | [] => .ok []
  | a :: l => match f a with
    | .error e => .error e
    | .ok r => match collect f l with
      | .error e => .error e
      | .ok r' => .ok (r ++ r')

/-- the condition `max_depth and depth > max_depth` (al_tree.py:48) -/
def tooDeep (maxDepth : Option Int) (depth : Int) : Bool :=
  match maxDepth with
  | none => false
  | some m => m != 0 && decide (m < depth)

/-- al_tree.py:51-54: the nodes the recursion goes over -/
def treeNodes (cfg : Cfg) (db : DB) (parent : Option (Row × Bool)) : List Row :=
  match parent with
  | some (p, hasChildren) => if hasChildren then children cfg db p else []
  | none => rootNodes cfg db

/-- al_tree.py:47-62 `_get_tree_recursively`.  Every node comes with its depth (`_cached_depth`).  The annotation
`node_has_children` is the query whether any row has the node as parent. -/
def treeRec (cfg : Cfg) (db : DB) (maxDepth : Option Int) : Nat → Option (Row × Bool) → Int → Except Err (List (Row × Int))
  | 0, _, _ => .error .diverges
  | fuel + 1, parent, depth =>
    if tooDeep maxDepth depth then .ok []
    else
      collect (fun node =>
        match treeRec cfg db maxDepth fuel (some (node, !(withParent db (some node.pk)).isEmpty)) (depth + 1) with
        | .error e => .error e
        | .ok l => .ok ((node, depth) :: l)) (treeNodes cfg db parent)

/-- al_tree.py:24-45 `get_tree` -/
def getTree (cfg : Cfg) (db : DB) (parent : Option (Row × Option Int)) (maxDepth : Option Int) : Except Err (List (Row × Int)) :=
  match parent with
  | none => treeRec cfg db maxDepth (db.rows.length + 1) none 1
  | some (p, cached) => match getDepth db p cached with
    | .error e => .error e
    | .ok d =>
      let maxDepth := match maxDepth with
        | none => none
        | some m => if m == 0 then some 0 else some (m + d)
      match treeRec cfg db maxDepth (db.rows.length + 1) (some (p, !(children cfg db p).isEmpty)) (d + 1) with
      | .error e => .error e
      | .ok l => .ok ((p, d) :: l)

/-- al_tree.py:207-216 `get_descendants` -/
def descendants (cfg : Cfg) (db : DB) (node : Row) (cached : Option Int) (includeSelf : Bool) (maxDepth : Option Int) :
    Except Err (List (Row × Int)) :=
  match getTree cfg db (some (node, cached)) maxDepth with
  | .error e => .error e
  | .ok l => .ok (if includeSelf then l else l.tail)

/-- al_tree.py:218-224 `get_descendant_count` -/
def descendantCount (cfg : Cfg) (db : DB) (node : Row) (cached : Option Int) (maxDepth : Option Int) : Except Err Int :=
  (descendants cfg db node cached false maxDepth).map (fun l => (l.length : Int))

/-- al_tree.py:332-333 `is_root` -/
def Row.isRoot (r : Row) : Bool := r.parent.isNone
/-- al_tree.py:335-336 `is_sibling_of` -/
def Row.isSiblingOf (r node : Row) : Bool := r.parent == node.parent
/-- al_tree.py:338-339 `is_child_of` -/
def Row.isChildOf (r node : Row) : Bool := r.parent == some node.pk
/-- al_tree.py:341-346 `is_descendant_of` -/
def isDescendantOf (cfg : Cfg) (db : DB) (r node : Row) (cached : Option Int) : Except Err Bool :=
  (descendants cfg db node cached false none).map (fun l => l.any (fun e => e.1.pk == r.pk))

/-! ### Writing -/

/-- `obj.save()`: UPDATE of the row with this primary key if there is one, else INSERT; the foreign key must exist -/
def save (db : DB) (row : Row) : Except Err DB :=
  let rows := if db.rows.any (·.pk == row.pk)
    then db.rows.map (fun r => if r.pk == row.pk then row else r)
    else db.rows ++ [row]
  match row.parent with
  | none => .ok ⟨rows⟩
  | some p => if rows.any (·.pk == p) then .ok ⟨rows⟩ else .error .integrity

/-- `aggregate(Max("sib_order"))`, `or 0` -/
def maxSib (l : List Row) : Int := ((l.map Row.sib).max?).getD 0

/-- `aggregate(Min("sib_order"))`, `or 0` -/
def minSib (l : List Row) : Int := ((l.map Row.sib).min?).getD 0

/-- al_tree.py:64-74 `add_root`, after the check of the arguments; `new` is the unsaved object with the key it will get.
The code does not touch `parent`: a parent given with the other fields is kept. -/
def addRoot (cfg : Cfg) (db : DB) (new : Row) : Except Err (DB × Row) :=
  let new := if cfg.ordered then new else { new with sib := maxSib (withParent db none) + 1 }
  match save db new with
  | .error e => .error e
  | .ok db => .ok (db, new)

/-- al_tree.py:76-93 `add_child`; the last result is the new object's `_cached_depth` -/
def addChild (cfg : Cfg) (db : DB) (target : Row) (cached : Option Int) (new : Row) : Except Err (DB × Row × Option Int) :=
  let new := if cfg.ordered then new else { new with sib := maxSib (withParent db (some target.pk)) + 1 }
  let new := { new with parent := some target.pk }
  match save db new with
  | .error e => .error e
  | .ok db => .ok (db, new, cached.map (· + 1))

/-- al_tree.py:265-266 `_is_target_pos_the_last_sibling` -/
def isLastPos (cfg : Cfg) (db : DB) (pos : Pos) (target : Row) : Bool :=
  pos == .lastSibling || (pos == .right && (lastSibling cfg db target).map Row.pk == some target.pk)

/-- al_tree.py:268-281 `_make_hole_and_get_sibling_order`; another position is a KeyError -/
def makeHole (db : DB) (pos : Pos) (target : Row) : Except Err (DB × Int) :=
  let sibs := withParent db target.parent
  let chosen : Except Err (List Row × Int) := match pos with
    | .left => .ok (sibs.filter (fun r => decide (target.sib ≤ r.sib)), target.sib)
    | .right => .ok (sibs.filter (fun r => decide (target.sib < r.sib)), target.sib + 1)
    | .firstSibling => .ok (sibs, 1)
    | _ => .error .keyError
  match chosen with
  | .error e => .error e
  | .ok (sibs, o) =>
    let m := minSib sibs
    .ok (if m == 0 then db
      else ⟨db.rows.map (fun r => if r.parent == target.parent && decide (m ≤ r.sib) then { r with sib := r.sib + 1 } else r)⟩, o)

/-- al_tree.py:283-287 `_get_new_sibling_order` -/
def newSibOrder (cfg : Cfg) (db : DB) (pos : Pos) (target : Row) : Except Err (DB × Int) :=
  if isLastPos cfg db pos target then
    match lastSibling cfg db target with
    | none => .error .attributeError
    | some l => .ok (db, l.sib + 1)
  else makeHole db pos target

/-- al_tree.py:102-103 -/
def addOrder (cfg : Cfg) (db : DB) (pos : Pos) (target new : Row) : Except Err (DB × Int) :=
  if cfg.ordered then .ok (db, new.sib) else newSibOrder cfg db pos target

/-- al_tree.py:95-106 `add_sibling` -/
def addSibling (cfg : Cfg) (db : DB) (target : Row) (pos : Option Pos) (new : Row) : Except Err (DB × Row) :=
  match preparePosForAddSibling cfg.ordered pos with
  | .error e => .error e
  | .ok pos =>
    match addOrder cfg db pos target new with
    | .error e => .error e
    | .ok (db, o) =>
      let new := { new with sib := o, parent := target.parent }
      match save db new with
      | .error e => .error e
      | .ok db => .ok (db, new)

/-- the positions below the target (al_tree.py:120) -/
def isChildPos : Pos → Bool
  | .firstChild | .lastChild | .sortedChild => true
  | _ => false

/-- al_tree.py:127-129, the position among the children of a target that has children -/
def toSibPos : Pos → Pos
  | .firstChild => .firstSibling
  | .lastChild => .lastSibling
  | .sortedChild => .sortedSibling
  | p => p

/-- where `move` goes: the object named target from line 136 on, the position, `parent` and `sib_order` -/
structure Goal where
  target : Row
  pos : Pos
  parent : Option Row := none
  sibOrder : Option Int := none

/-- al_tree.py:120-136, the positions below the target -/
def moveGoal (cfg : Cfg) (db : DB) (node target : Row) (pos : Pos) : Except Err Goal :=
  if isChildPos pos then
    if node.pk == target.pk then .error .invalidMoveToDescendant
    else if !isLeaf cfg db target then
      match lastChild cfg db target with
      | none => .error .attributeError
      | some t => .ok { target := t, pos := toSibPos pos }
    else if pos == .sortedChild then .ok { target := target, pos := .sortedSibling, parent := some target }
    else .ok { target := target, pos := .firstSibling, parent := some target, sibOrder := some 1 }
  else .ok { target := target, pos := pos }

/-- al_tree.py:141-145, the moves that change nothing -/
def noMove (cfg : Cfg) (db : DB) (node target : Row) (pos : Pos) : Bool :=
  node.pk == target.pk && (pos == .left
    || ((pos == .right || pos == .lastSibling) && (lastSibling cfg db target).map Row.pk == some target.pk)
    || (pos == .firstSibling && (firstSibling cfg db target).map Row.pk == some target.pk))

/-- `sib_order or self._get_new_sibling_order(pos, target)`, lines 150-151 -/
def goalOrder (cfg : Cfg) (db : DB) (node : Row) (g : Goal) : Except Err (DB × Int) :=
  if g.pos == .sortedSibling then .ok (db, node.sib)
  else match g.sibOrder with
    | some o => .ok (db, o)
    | none => newSibOrder cfg db g.pos g.target

/-- `parent or target.parent`, line 148 -/
def goalParent (db : DB) (g : Goal) : Except Err (Option Row) :=
  match g.parent with
  | some p => .ok (some p)
  | none => getParent db g.target

/-- al_tree.py:149-153, the end of `move`: the parent is fetched, the order found, the node saved -/
def moveTo (cfg : Cfg) (db : DB) (node : Row) (g : Goal) : Except Err (DB × Row) :=
  match goalParent db g with
  | .error e => .error e
  | .ok parent => match goalOrder cfg db node g with
    | .error e => .error e
    | .ok (db, o) =>
      let node := { node with parent := parent.map Row.pk, sib := o }
      match save db node with
      | .error e => .error e
      | .ok db => .ok (db, node)

/-- al_tree.py:108-153 `move`; `cached` is the `_cached_depth` of `node`.  The result is the table and the moved object;
its `_cached_depth` and the object `target` are left as they were. -/
def move (cfg : Cfg) (db : DB) (node target : Row) (cached : Option Int) (pos : Option Pos) : Except Err (DB × Row) :=
  match preparePosForMove cfg.ordered pos with
  | .error e => .error e
  | .ok pos => match moveGoal cfg db node target pos with
    | .error e => .error e
    | .ok g => match isDescendantOf cfg db g.target node cached with
      | .error e => .error e
      | .ok true => .error .invalidMoveToDescendant
      | .ok false =>
        if noMove cfg db node g.target g.pos then .ok (db, node)
        else moveTo cfg db node g

/-- one round of the cascade: the selected keys, and the rows whose parent is selected -/
def cascadeStep (db : DB) (S : Nat → Bool) (k : Nat) : Bool :=
  S k || db.rows.any (fun r => r.pk == k && match r.parent with | none => false | some p => S p)

/-- rounds of the cascade -/
def cascade (db : DB) : Nat → (Nat → Bool) → Nat → Bool
  | 0, S => S
  | n + 1, S => cascade db n (cascadeStep db S)

/-- `queryset.delete()`: Django deletes the selected rows and, `on_delete=CASCADE`, everything below them.  (Django code,
django/db/models/deletion.py `Collector.collect`: rounds of "rows that refer to the rows collected so far"; as many rounds
as there are rows collect everything.) -/
def delete (db : DB) (S : Row → Bool) : DB :=
  let D := cascade db db.rows.length (fun k => db.rows.any (fun r => r.pk == k && S r))
  ⟨db.rows.filter (fun r => !D r.pk)⟩

/-- the forest that `get_root_nodes` and `get_children` show -/
def forest (cfg : Cfg) (db : DB) : Forest
  | none => (rootNodes cfg db).map Row.pk
  | some k => match db.get? k with
    | none => []
    | some r => (children cfg db r).map Row.pk

/-- the stored data -/
def data (rows : List Row) : List (Nat × Vals) := rows.map (fun r => (r.pk, r.vals))

end Verif.AL
