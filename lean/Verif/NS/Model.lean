/-
Model of treebeard/ns_tree.py: nested sets.

Simplifications: see DESIGN.md section 3.  A table is the list of its rows in physical order.  `lft`, `rgt`, `tree_id`
and `depth` are integers without lower bound (PositiveIntegerField: the theorems show that they stay positive).
An in-memory object is a copy of a row; the `_cached_parent_obj` of a target is a separate argument where the code
reads it.
-/
import Verif.Common

namespace Verif.NS

/-- The class attributes of a `NS_Node` model: `node_order_by` (ns_tree.py:596). -/
structure Cfg where
  orderBy : List (Nat × Bool)

/-- bool(node_order_by) -/
def Cfg.ordered (cfg : Cfg) : Bool := !cfg.orderBy.isEmpty

/-- A row of the table, or an in-memory copy of it (ns_tree.py:598-601). -/
structure Row where
  pk : Nat
  tree : Int
  lft : Int
  rgt : Int
  depth : Int
  /-- all the other fields -/
  vals : Vals
deriving DecidableEq, Repr

/-- The four signals (ns_tree.py:17-20) as sent. -/
inductive Sig where
  | gapAltered (tree start offset : Int)
  | treeIdsIncremented (minTree : Int)
  | subtreeMoved (tree lft rgt target : Int) (indexOffset depthOffset : Int)
  | nodesDeleted (ranges : List (Int × Int × Int))
deriving DecidableEq, Repr

/-- The table and the log of the signals sent. -/
structure DB where
  rows : List Row
  sigs : List Sig := []
deriving DecidableEq, Repr

/-! ### Query sets -/

/-- `order_by("tree_id", "lft")` compares like this -/
def tlLt (a b : Row) : Bool := decide (a.tree < b.tree ∨ (a.tree = b.tree ∧ a.lft < b.lft))

/-- `order_by("tree_id", "lft")`, the default order (ns_tree.py:82-84) -/
def order (l : List Row) : List Row := sortBy tlLt l

/-- `objects.get(pk=..)` -/
def DB.get? (db : DB) (pk : Nat) : Option Row := db.rows.find? (·.pk == pk)

/-- ns_tree.py:618-620 `is_leaf` -/
def Row.isLeaf (r : Row) : Bool := r.rgt - r.lft == 1

/-- ns_tree.py:622-624 `is_root` -/
def Row.isRoot (r : Row) : Bool := r.lft == 1

/-- ns_tree.py:626-631 `is_descendant_of` -/
def Row.isDescendantOf (r node : Row) : Bool :=
  r.tree == node.tree && decide (r.lft > node.lft) && decide (r.rgt < node.rgt)

/-- ns_tree.py:86-110 `get_tree`.  `if max_depth:` is false for `None` and for 0. -/
def getTree (db : DB) (parent : Option Row) (maxDepth : Option Int) : List Row :=
  match parent with
  | some p =>
    if p.isLeaf then order (db.rows.filter (·.pk == p.pk))
    else order (db.rows.filter (fun r => r.tree == p.tree && decide (p.lft ≤ r.lft) && decide (r.lft ≤ p.rgt - 1) &&
      (match maxDepth with
        | none => true
        | some k => k == 0 || decide (r.depth ≤ k + p.depth))))
  | none => order (db.rows.filter (fun r => match maxDepth with
      | none => true
      | some k => k == 0 || decide (r.depth ≤ k + 0)))

/-- ns_tree.py:551-564 `get_descendants` -/
def descendants (db : DB) (node : Row) (includeSelf : Bool) (maxDepth : Option Int) : List Row :=
  if includeSelf then getTree db (some node) maxDepth
  else if node.isLeaf then []
  else (getTree db (some node) maxDepth).filter (fun r => !(r.pk == node.pk))

/-- ns_tree.py:381-383 `get_root_nodes` -/
def rootNodes (db : DB) : List Row := order (db.rows.filter (·.lft == 1))

/-- models.py:349-355 `get_first_root_node` -/
def firstRootNode (db : DB) : Option Row := (rootNodes db).head?
/-- models.py:357-363 `get_last_root_node` -/
def lastRootNode (db : DB) : Option Row := (rootNodes db).getLast?

/-- ns_tree.py:494-496 `get_children` -/
def children (db : DB) (node : Row) : List Row :=
  (descendants db node false none).filter (fun r => r.depth == node.depth + 1)

/-- ns_tree.py:542-549 `get_ancestors` -/
def ancestors (db : DB) (node : Row) : List Row :=
  if node.isRoot then []
  else order (db.rows.filter (fun r => r.tree == node.tree && decide (r.lft < node.lft) && decide (r.rgt > node.rgt)))

/-- ns_tree.py:524-540 `get_parent`.  `cached` is the object's `_cached_parent_obj`, if any and if `update` is false.
`reverse()[0]` of an empty query set raises IndexError. -/
def getParent (db : DB) (node : Row) (cached : Option Row) : Except Err (Option Row) :=
  if node.isRoot then .ok none
  else match cached with
    | some p => .ok (some p)
    | none => match (ancestors db node).getLast? with
      | none => .error .indexError
      | some p => .ok (some p)

/-- ns_tree.py:498-505 `get_siblings`; `get_parent(node, True)` ignores the cache -/
def siblings (db : DB) (node : Row) : Except Err (List Row) :=
  if node.lft == 1 then .ok (rootNodes db)
  else match getParent db node none with
    | .error e => .error e
    | .ok none => .error .attributeError
    | .ok (some p) => .ok (children db p)

/-- models.py:545-551 `get_first_child` -/
def firstChild (db : DB) (node : Row) : Option Row := (children db node).head?
/-- models.py:553-559 `get_last_child` -/
def lastChild (db : DB) (node : Row) : Option Row := (children db node).getLast?
/-- models.py:561-568 `get_first_sibling` -/
def firstSibling (db : DB) (node : Row) : Except Err (Option Row) := (siblings db node).map List.head?
/-- models.py:570-577 `get_last_sibling` -/
def lastSibling (db : DB) (node : Row) : Except Err (Option Row) := (siblings db node).map List.getLast?

/-- `node == target` for model instances: same primary key -/
def sameNode (a : Row) (b : Option Row) : Bool :=
  match b with | none => false | some b => a.pk == b.pk

/-! ### Writing -/

/-- `obj.save()`: UPDATE of the row with this primary key if there is one, else INSERT.  No column is unique. -/
def save (db : DB) (row : Row) : DB :=
  { db with rows := if db.rows.any (·.pk == row.pk)
      then db.rows.map (fun r => if r.pk == row.pk then row else r)
      else db.rows ++ [row] }

/-- the new value of one row in `_alter_gap` -/
def gapRow (tree start offset : Int) (r : Row) : Row :=
  if start ≤ r.rgt ∧ r.tree = tree then
    { r with lft := if start ≤ r.lft then r.lft + offset else r.lft, rgt := r.rgt + offset }
  else r

/-- ns_tree.py:566-580 `_alter_gap` -/
def alterGap (db : DB) (tree start offset : Int) : DB :=
  { rows := db.rows.map (gapRow tree start offset),
    sigs := if db.rows.any (fun r => decide (start ≤ r.rgt ∧ r.tree = tree))
      then db.sigs ++ [.gapAltered tree start offset] else db.sigs }

/-- the new value of one row in `_move_tree_right` -/
def treeRightRow (tree : Int) (r : Row) : Row := if tree ≤ r.tree then { r with tree := r.tree + 1 } else r

/-- ns_tree.py:582-586 `_move_tree_right` -/
def moveTreeRight (db : DB) (tree : Int) : DB :=
  { rows := db.rows.map (treeRightRow tree),
    sigs := if db.rows.any (fun r => decide (tree ≤ r.tree)) then db.sigs ++ [.treeIdsIncremented tree] else db.sigs }

/-- ns_tree.py:588-590 `_close_gap` -/
def closeGap (db : DB) (dropLft dropRgt tree : Int) : DB := alterGap db tree dropLft (-(dropRgt - dropLft + 1))

/-! ### Adding nodes

`new` is the object to create (its `tree`, `lft`, `rgt` and `depth` are set by the function). -/

/-- ns_tree.py:229-235 and 310-316: the sibling after `target`; `target` itself if it is not found or is the last -/
def nextAfter (target : Row) : List Row → Row
  | [] => target
  | [_] => target
  | a :: b :: rest => if a.pk == target.pk then b else nextAfter target (b :: rest)

/-- ns_tree.py:221-240 and 302-321: `left`, `right` and `first-sibling` become `first-sibling`, `left` or
`last-sibling` of a sibling -/
def resolvePos (db : DB) (pos : Pos) (target : Row) : Except Err (Pos × Row) :=
  if pos = .left ∨ pos = .right ∨ pos = .firstSibling then
    match siblings db target with
    | .error e => .error e
    | .ok sibs =>
      let (pos, target) :=
        if pos = .right then
          if sameNode target sibs.getLast? then (.lastSibling, target) else (.left, nextAfter target sibs)
        else (pos, target)
      let pos := if pos = .left ∧ sameNode target sibs.head? = true then .firstSibling else pos
      if pos = .firstSibling then
        match sibs.head? with
        | none => .error .attributeError
        | some f => .ok (.firstSibling, f)
      else .ok (pos, target)
  else .ok (pos, target)

/-- ns_tree.py:194-200, 213-219 and 295-301: the place of a sorted insertion -/
def resolveSorted (cfg : Cfg) (db : DB) (pos : Pos) (target : Row) (vals : Vals) : Except Err (Pos × Row) :=
  if pos = .sortedSibling then
    match siblings db target with
    | .error e => .error e
    | .ok sibs =>
      match (sortedPosQueryset cfg.orderBy Row.vals sibs vals).head? with
      | some first => .ok (.left, first)
      | none => .ok (.lastSibling, target)
  else .ok (pos, target)

/-- ns_tree.py:191-209: the new root's `tree_id`, making room for it (`new.depth` is already set) -/
def addRootSibling (db : DB) (target : Row) (pos : Pos) (new : Row) : Except Err (DB × Row) :=
  match lastRootNode db with
  | none => .error .attributeError
  | some lastRoot =>
    let mk := fun tree : Int => { new with tree := tree, lft := 1, rgt := 2 }
    if pos = .lastSibling ∨ (pos = .right ∧ sameNode target (some lastRoot)) then
      let obj := mk (lastRoot.tree + 1)
      .ok (save db obj, obj)
    else
      match (match pos with
        | .firstSibling => some 1
        | .left => some target.tree
        | .right => some (target.tree + 1)
        | _ => none : Option Int) with
      | none => .error .keyError
      | some newpos =>
        let obj := mk newpos
        .ok (save (moveTreeRight db newpos) obj, obj)

/-- ns_tree.py:210-250: adding a sibling of a node that is not a root.  `depth` is the depth of the original target. -/
def addInnerSibling (db : DB) (target : Row) (cached : Option Row) (pos : Pos) (tree depth : Int) (new : Row) :
    Except Err (DB × Row) :=
  match resolvePos db pos target with
  | .error e => .error e
  | .ok (pos', target) =>
    let finish := fun newpos : Int =>
      let obj := { new with tree := tree, lft := newpos, rgt := newpos + 1, depth := depth }
      (save (alterGap db target.tree newpos 2) obj, obj)
    if pos' = .lastSibling then
      -- `get_siblings` in `resolvePos` has refreshed the cache if it was called
      match getParent db target (if pos = .lastSibling then cached else none) with
      | .error e => .error e
      | .ok none => .error .attributeError
      | .ok (some p) => .ok (finish p.rgt)
    else if pos' = .firstSibling ∨ pos' = .left then .ok (finish target.lft)
    else .error .valueError

/-- ns_tree.py:181-255 `add_sibling`.  `cached` is `target._cached_parent_obj`. -/
def addSibling (cfg : Cfg) (db : DB) (target : Row) (cached : Option Row) (pos : Option Pos) (new : Row) :
    Except Err (DB × Row) :=
  match preparePosForAddSibling cfg.ordered pos with
  | .error e => .error e
  | .ok pos =>
    match resolveSorted cfg db pos target new.vals with
    | .error e => .error e
    | .ok (pos', target') =>
      if target.isRoot then addRootSibling db target' pos' { new with depth := target.depth }
      else addInnerSibling db target' (if pos = .sortedSibling then none else cached) pos' target.tree target.depth new

/-- ns_tree.py:112-139 `add_root` -/
def addRoot (cfg : Cfg) (db : DB) (new : Row) : Except Err (DB × Row) :=
  match lastRootNode db with
  | some lastRoot =>
    if cfg.ordered then addSibling cfg db lastRoot none (some .sortedSibling) new
    else
      let obj := { new with tree := lastRoot.tree + 1, lft := 1, rgt := 2, depth := 1 }
      .ok (save db obj, obj)
  | none =>
    let obj := { new with tree := 1, lft := 1, rgt := 2, depth := 1 }
    .ok (save db obj, obj)

/-- ns_tree.py:141-179 `add_child`.  Returns the table, the new object and the caller's `target`. -/
def addChild (cfg : Cfg) (db : DB) (target : Row) (new : Row) : Except Err (DB × Row × Row) :=
  match db.get? target.pk with
  | none => .error .doesNotExist
  | some node =>
    if node.isLeaf then
      let obj := { new with tree := node.tree, lft := node.lft + 1, rgt := node.lft + 2, depth := node.depth + 1 }
      .ok (save (alterGap db node.tree node.rgt 2) obj, obj, { target with rgt := node.rgt + 2 })
    else
      match lastChild db node with
      | none => .error .attributeError
      | some last =>
        match addSibling cfg db last (some node) (some (if cfg.ordered then .sortedSibling else .lastSibling)) new with
        | .error e => .error e
        -- `node.rgt += 2; target.rgt = node.rgt + 2`
        | .ok (db, obj) => .ok (db, obj, { target with rgt := node.rgt + 2 + 2 })

/-! ### Moving -/

/-- The positions below the target. -/
def isChildPos (pos : Pos) : Bool := pos == .firstChild || pos == .lastChild || pos == .sortedChild

/-- ns_tree.py:280-282: the position relative to the last child -/
def childToSib : Pos → Pos
  | .firstChild => .firstSibling
  | .lastChild => .lastSibling
  | _ => .sortedSibling

/-- What a call of `move` leaves behind: the table, and the caller's node and target objects. -/
structure MoveResult where
  db : DB
  node : Row
  target : Row

/-- the new value of one row when a branch jumps (ns_tree.py:356-363) -/
def jumpRow (tree lft rgt target jump depthdiff : Int) (r : Row) : Row :=
  if r.tree = tree ∧ lft ≤ r.lft ∧ r.lft ≤ rgt then
    { r with tree := target, lft := r.lft + jump, rgt := r.rgt + jump, depth := r.depth + depthdiff }
  else r

/-- ns_tree.py:356-374: the update of the branch and its signal -/
def moveRows (db : DB) (node : Row) (target jump depthdiff : Int) : DB :=
  { rows := db.rows.map (jumpRow node.tree node.lft node.rgt target jump depthdiff),
    sigs := if db.rows.any (fun r => decide (r.tree = node.tree ∧ node.lft ≤ r.lft ∧ r.lft ≤ node.rgt))
      then db.sigs ++ [.subtreeMoved node.tree node.lft node.rgt target jump depthdiff] else db.sigs }

/-- ns_tree.py:324-346: making the hole: the new table, the tree of the hole and its position -/
def makeHole (db : DB) (node target : Row) (parent : Option Row) (cached : Option Row) (pos : Pos) :
    Except Err (DB × Int × Int) :=
  let gap := node.rgt - node.lft + 1
  match parent with
  | some p => .ok (alterGap db target.tree p.rgt gap, target.tree, p.rgt)
  | none =>
    if target.isRoot then
      match pos with
      | .lastSibling =>
        match siblings db target with
        | .error e => .error e
        | .ok sibs => match sibs.getLast? with
          | none => .error .indexError
          | some last => .ok (db, last.tree + 1, 1)
      | .firstSibling => .ok (moveTreeRight db 1, 1, 1)
      | .left => .ok (moveTreeRight db target.tree, target.tree, 1)
      | _ => .ok (db, target.tree, 1)
    else
      match pos with
      | .lastSibling =>
        match getParent db target cached with
        | .error e => .error e
        | .ok none => .error .attributeError
        | .ok (some p) => .ok (alterGap db target.tree p.rgt gap, target.tree, p.rgt)
      | .firstSibling | .left => .ok (alterGap db target.tree target.lft gap, target.tree, target.lft)
      | _ => .error .valueError

/-- ns_tree.py:323-379: the move itself, to the resolved position -/
def moveTo (db : DB) (node target origTarget : Row) (parent : Option Row) (cached : Option Row) (pos : Pos) :
    Except Err MoveResult :=
  match makeHole db node target parent cached pos with
  | .error e => .error e
  | .ok (db, targetTree, newpos) =>
    match db.get? node.pk with
    | none => .error .doesNotExist
    | some node =>
      let depthdiff := target.depth - node.depth + (if parent.isSome then 1 else 0)
      let db := moveRows db node targetTree (newpos - node.lft) depthdiff
      let db := closeGap db node.lft node.rgt node.tree
      match db.get? node.pk, db.get? origTarget.pk with
      | some node', some target' => .ok ⟨db, node', target'⟩
      | _, _ => .error .doesNotExist

/-- ns_tree.py:287-293: the special cases where nothing needs to be done -/
def moveNoop (db : DB) (node target : Row) (pos : Pos) : Except Err Bool :=
  if node.pk = target.pk then
    if pos = .left then .ok true
    else if pos = .right ∨ pos = .lastSibling then (lastSibling db target).map (sameNode target)
    else if pos = .firstSibling then (firstSibling db target).map (sameNode target)
    else .ok false
  else .ok false

/-- ns_tree.py:268-282: target, position and parent after looking at the child positions -/
def moveVars (db : DB) (node target : Row) (pos : Pos) : Except Err (Pos × Row × Option Row) :=
  if isChildPos pos then
    if node.pk = target.pk then .error .invalidMoveToDescendant
    else if target.isLeaf then .ok (.lastChild, target, some target)
    else
      match lastChild db target with
      | none => .error .attributeError
      | some last => .ok (childToSib pos, last, none)
  else .ok (pos, target, none)

/-- ns_tree.py:284-379: from the target and position found on; `origTarget` is the caller's target -/
def moveFrom (cfg : Cfg) (db : DB) (node target origTarget : Row) (parent cached : Option Row) (pos : Pos) : Except Err MoveResult :=
  if target.isDescendantOf node then .error .invalidMoveToDescendant
  else
    match moveNoop db node target pos with
    | .error e => .error e
    | .ok true => .ok ⟨db, node, origTarget⟩
    | .ok false =>
      match resolveSorted cfg db pos target node.vals with
      | .error e => .error e
      | .ok (pos1, target1) =>
        match resolvePos db pos1 target1 with
        | .error e => .error e
        | .ok (pos2, target2) => moveTo db node target2 origTarget parent cached pos2

/-- ns_tree.py:257-379 `move`.  `cached` is `target._cached_parent_obj`; it is used for `last-sibling` only: elsewhere the
target is a freshly fetched row, or `get_siblings` has refreshed the cache. -/
def move (cfg : Cfg) (db : DB) (node target : Row) (cached : Option Row) (pos : Option Pos) : Except Err MoveResult :=
  match preparePosForMove cfg.ordered pos with
  | .error e => .error e
  | .ok pos0 =>
    match moveVars db node target pos0 with
    | .error e => .error e
    | .ok (pos, target', parent) =>
      moveFrom cfg db node target' target parent (if pos0 = .lastSibling ∧ node.pk ≠ target.pk then cached else none) pos

/-! ### Deleting -/

/-- ns_tree.py:44-48: the node lies in the last range -/
def skips (last : Option Row) (n : Row) : Bool :=
  match last with
  | none => false
  | some l => decide (l.tree = n.tree ∧ l.lft ≤ n.lft ∧ n.rgt ≤ l.rgt)

/-- ns_tree.py:41-56: the ranges to remove; `last` is the last range that was not skipped -/
def removeRanges : List Row → Option Row → List (Int × Int × Int)
  | [], _ => []
  | n :: ns, last =>
    if skips last n then removeRanges ns last
    else (n.tree, n.lft, n.rgt) :: removeRanges ns (some n)

/-- ns_tree.py:54: `Q(lft__range=..) & Q(tree_id=..)` -/
def inRange (g : Int × Int × Int) (r : Row) : Bool := decide (r.tree = g.1 ∧ g.2.1 ≤ r.lft ∧ r.lft ≤ g.2.2)

/-- Python's order of tuples -/
def rangeLt (a b : Int × Int × Int) : Bool :=
  decide (a.1 < b.1 ∨ (a.1 = b.1 ∧ (a.2.1 < b.2.1 ∨ (a.2.1 = b.2.1 ∧ a.2.2 < b.2.2))))

/-- The SQL statements of `delete`. -/
inductive DelStmt where
  /-- ns_tree.py:62 -/
  | delete (ranges : List (Int × Int × Int))
  /-- ns_tree.py:72 -/
  | close (range : Int × Int × Int)
deriving DecidableEq, Repr

/-- Executing one statement (the deletion sends its signal, ns_tree.py:63) -/
def execDel (db : DB) : DelStmt → DB
  | .delete ranges => { rows := db.rows.filter (fun r => !ranges.any (fun g => inRange g r)),
                        sigs := db.sigs ++ [.nodesDeleted ranges] }
  | .close g => closeGap db g.2.1 g.2.2 g.1

/-- ns_tree.py:30-73: the statements for the query set selecting the rows satisfying `sel`;
`sorted(ranges, reverse=True)` -/
def deleteStmts (db : DB) (sel : Row → Bool) : List DelStmt :=
  let ranges := removeRanges (order (db.rows.filter sel)) none
  if ranges.isEmpty then []
  else .delete ranges :: (sortBy (fun a b => rangeLt b a) ranges).map .close

/-- ns_tree.py:30-73 `delete` of the query set selecting the rows satisfying `sel` -/
def delete (db : DB) (sel : Row → Bool) : DB := (deleteStmts db sel).foldl execDel db

end Verif.NS
