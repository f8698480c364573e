/-
Model of treebeard/ltree/__init__.py: trees on PostgreSQL's ltree type.

Simplifications: see DESIGN.md section 3.  A table is the list of its rows in physical order.  A path is its list of labels
(`PathValue`, ltree/fields.py:22-39), a label its list of character codes.  `ltree` values compare label by label, labels
byte by byte (PostgreSQL `ltree_compare`); `a <@ b` holds when `b` is a prefix of `a`, so every path is below the empty
one.  The unique constraint on `path` is deferred: it is checked when the outermost operation ends (`commit`).
-/
import Verif.Common
import Verif.Lex

namespace Verif.LT

abbrev Label := List Nat
abbrev Path := List Label

/-- The class attribute of an `LT_Node` model: `node_order_by` (ltree/__init__.py:540). -/
structure Cfg where
  orderBy : List (Nat × Bool)

/-- A row of the table, or an in-memory copy of it (ltree/__init__.py:541). -/
structure Row where
  pk : Nat
  path : Path
  /-- all the other fields -/
  vals : Vals
deriving DecidableEq, Repr

/-- The three signals (ltree/__init__.py:22-24) as sent. -/
inductive Sig where
  | movedRight (path : Path)
  | moved (oldPath newPath : Path)
  | nodesDeleted (paths : List Path)
deriving DecidableEq, Repr

/-- The table and the log of the signals sent. -/
structure DB where
  rows : List Row
  sigs : List Sig := []
deriving DecidableEq, Repr

/-- bool(node_order_by) -/
def Cfg.ordered (cfg : Cfg) : Bool := !cfg.orderBy.isEmpty

/-! ### Labels -/

/-- `string.digits` -/
def digits : List Nat := [48, 49, 50, 51, 52, 53, 54, 55, 56, 57]

/-- `string.ascii_uppercase` -/
def upper : List Nat :=
  [65, 66, 67, 68, 69, 70, 71, 72, 73, 74, 75, 76, 77, 78, 79, 80, 81, 82, 83, 84, 85, 86, 87, 88, 89, 90]

/-- truth value of `before`/`after`: neither None nor empty -/
def truthy : Option Label → Bool
  | none => false
  | some l => !l.isEmpty

/-- ltree/__init__.py:45 -/
def charChoices (before after : Option Label) : List Nat :=
  if !truthy before && !truthy after then upper else digits ++ upper

/-- ltree/__init__.py:47 `after or char_choices[0]` -/
def startOf (choices : List Nat) (after : Option Label) : Label :=
  if truthy after then after.getD [] else choices.take 1

/-- ltree/__init__.py:49-51: `before and (before <= start) or before == f"{start}0"` -/
def noGap (before : Option Label) (start : Label) : Bool :=
  (truthy before && !decide (start < before.getD [])) || before == some (start ++ [48])

/-- ltree/__init__.py:55: `char_choices[idx:] for idx in [char_choices.index(char) for char in start]` -/
def charLists (choices : List Nat) : Label → Except Err (List (List Nat))
  | [] => .ok []
  | c :: cs =>
    match choices.idxOf? c with
    | none => .error .valueError
    | some idx =>
      match charLists choices cs with
      | .error e => .error e
      | .ok ls => .ok (choices.drop idx :: ls)

/-- ltree/__init__.py:59-63: length of the common beginning of `before` and `after` -/
def commonLen : Label → Label → Nat
  | a :: as, b :: bs => if a ≠ b then 0 else commonLen as bs + 1
  | _, _ => 0

/-- `itertools.product(*lists)` -/
def product : List (List Nat) → List Label
  | [] => [[]]
  | l :: ls => l.flatMap (fun c => (product ls).map (fun t => c :: t))

/-- ltree/__init__.py:67-75: the loop over the labels of one length; `none` when it ends without returning -/
def scan (skip : List Label) (before after : Option Label) : List Label → Option Label
  | [] => none
  | label :: rest =>
    if truthy after && !decide (after.getD [] < label) then scan skip before after rest
    else if skip.contains label then scan skip before after rest
    else if truthy before && !decide (label < before.getD []) then none
    else some label

/-- ltree/__init__.py:65-78: the loop over `range(start_from, len(char_lists))` -/
def tryLengths (skip : List Label) (before after : Option Label) (lists : List (List Nat)) :
    List Nat → Except Err Label
  | [] => .error .valueError
  | i :: rest =>
    match scan skip before after (product (lists.take (i + 1))) with
    | some label => .ok label
    | none => tryLengths skip before after lists rest

/-- ltree/__init__.py:30-78 `generate_label` -/
def generateLabel (skip : List Label) (before after : Option Label) : Except Err Label :=
  let choices := charChoices before after
  let start := startOf choices after
  if noGap before start then .error .invalidLabelConstraints
  else
    match charLists choices start with
    | .error e => .error e
    | .ok ls =>
      let lists := ls ++ [choices]
      let startFrom := commonLen (before.getD []) (after.getD [])
      tryLengths skip before after lists ((List.range lists.length).drop startFrom)

/-- `path[-1]` of a stored path (never empty; the code would raise IndexError) -/
def lastLabel (p : Path) : Label := p.getLastD []

/-- ltree/__init__.py:81-90 `generate_path` -/
def generatePath (pre : Path) (before after : Option Label) (skip : List Path) : Except Err Path :=
  match generateLabel (skip.map lastLabel) before after with
  | .error e => .error e
  | .ok label => .ok (pre ++ [label])

/-! ### Query sets -/

/-- `order_by("path")`, the default order (ltree/__init__.py:137-139) -/
def orderByPath (l : List Row) : List Row := sortBy (fun a b => decide (a.path < b.path)) l

/-- `objects.get(pk=..)` -/
def DB.get? (db : DB) (pk : Nat) : Option Row := db.rows.find? (·.pk == pk)

/-- ltree/__init__.py:336-338 `get_root_nodes` -/
def rootNodes (db : DB) : List Row := orderByPath (db.rows.filter (fun r => r.path.length == 1))

/-- models.py:349-355 `get_first_root_node` -/
def firstRootNode (db : DB) : Option Row := (rootNodes db).head?

/-- models.py:357-363 `get_last_root_node` -/
def lastRootNode (db : DB) : Option Row := (rootNodes db).getLast?

/-- `filter(path__descendants=pre, path__depth=n)` -/
def below (db : DB) (pre : Path) (n : Nat) : List Row :=
  orderByPath (db.rows.filter (fun r => pre.isPrefixOf r.path && r.path.length == n))

/-- ltree/__init__.py:477-479 `get_children` -/
def children (db : DB) (node : Row) : List Row := below db node.path (node.path.length + 1)

/-- ltree/__init__.py:481-486 `get_siblings` -/
def siblings (db : DB) (node : Row) : List Row := below db node.path.dropLast node.path.length

/-- models.py:545-551 `get_first_child` -/
def firstChild (db : DB) (node : Row) : Option Row := (children db node).head?
/-- models.py:553-559 `get_last_child` -/
def lastChild (db : DB) (node : Row) : Option Row := (children db node).getLast?
/-- models.py:561-568 `get_first_sibling` -/
def firstSibling (db : DB) (node : Row) : Option Row := (siblings db node).head?
/-- models.py:570-577 `get_last_sibling` -/
def lastSibling (db : DB) (node : Row) : Option Row := (siblings db node).getLast?

/-- ltree/__init__.py:508-513 `get_next_sibling` -/
def nextSibling (db : DB) (node : Row) : Option Row :=
  ((siblings db node).filter (fun r => decide (node.path < r.path))).head?

/-- ltree/__init__.py:529-534 `get_prev_sibling` -/
def prevSibling (db : DB) (node : Row) : Option Row :=
  ((siblings db node).filter (fun r => decide (r.path < node.path))).getLast?

/-- ltree/__init__.py:580-582 `is_leaf` -/
def isLeaf (db : DB) (node : Row) : Bool := (children db node).isEmpty

/-- ltree/__init__.py:576-578 `is_root` -/
def Row.isRoot (r : Row) : Bool := r.path.length == 1

/-- ltree/__init__.py:569-574 `is_descendant_of` -/
def Row.isDescendantOf (r node : Row) : Bool :=
  decide (node.path.length < r.path.length) && node.path.isPrefixOf r.path

/-- ltree/__init__.py:562-567 `is_child_of` -/
def Row.isChildOf (r node : Row) : Bool := r.path.dropLast == node.path

/-- ltree/__init__.py:555-560 `is_sibling_of` -/
def Row.isSiblingOf (r node : Row) : Bool := r.path.dropLast == node.path.dropLast

/-- ltree/__init__.py:551-553 `get_depth` -/
def Row.depth (r : Row) : Nat := r.path.length

/-- ltree/__init__.py:141-160 `get_tree`; a `max_depth` of 0 is no limit -/
def getTree (db : DB) (parent : Option Row) (maxDepth : Option Int) : List Row :=
  orderByPath (db.rows.filter (fun r =>
    (match parent with | none => true | some p => p.path.isPrefixOf r.path) &&
    (match maxDepth with
      | none => true
      | some m => m == 0 || decide ((r.path.length : Int) ≤ m + (match parent with | none => 0 | some p => (p.path.length : Int))))))

/-- ltree/__init__.py:515-527 `get_descendants` -/
def descendants (db : DB) (node : Row) (includeSelf : Bool) (maxDepth : Option Int) : List Row :=
  let tree := getTree db (some node) maxDepth
  if includeSelf then tree else tree.filter (fun r => r.pk != node.pk)

/-- `objects.get(path=path)` -/
def getByPath (db : DB) (path : Path) : Except Err Row :=
  match db.rows.filter (fun r => r.path == path) with
  | [] => .error .doesNotExist
  | [r] => .ok r
  | _ => .error .multipleObjectsReturned

/-- ltree/__init__.py:488-490 `get_root`; `path[0]` raises IndexError for an empty path -/
def getRoot (db : DB) (node : Row) : Except Err Row :=
  match node.path with
  | [] => .error .indexError
  | l :: _ => getByPath db [l]

/-- ltree/__init__.py:492-499 `get_parent` -/
def getParent (db : DB) (node : Row) : Except Err (Option Row) :=
  if node.path.length = 1 then .ok none
  else
    match getByPath db node.path.dropLast with
    | .error e => .error e
    | .ok r => .ok (some r)

/-- ltree/__init__.py:501-506 `get_ancestors` -/
def ancestors (db : DB) (node : Row) : List Row :=
  orderByPath (db.rows.filter (fun r => r.path.isPrefixOf node.path && r.pk != node.pk))

/-- models.py:512-514 `get_children_count` -/
def childrenCount (db : DB) (node : Row) : Nat := (children db node).length

/-- models.py:537-543 `get_descendant_count` -/
def descendantCount (db : DB) (node : Row) : Nat := (descendants db node false none).length

/-- ltree/__init__.py:340-363 `get_descendants_group_count` -/
def descendantsGroupCount (db : DB) (parent : Option Row) : List (Row × Int) :=
  let qs := match parent with | none => rootNodes db | some p => children db p
  qs.map (fun r => (r, ((db.rows.filter (fun q => r.path.isPrefixOf q.path)).length : Int) - 1))

/-! ### Writing -/

/-- the deferred unique constraint on path (ltree/__init__.py:587-592), checked at commit -/
def uniquePaths (rows : List Row) : Bool := decide (rows.map (·.path)).Nodup

/-- end of `transaction.atomic` -/
def commit {α : Type} (r : Except Err (DB × α)) : Except Err (DB × α) :=
  match r with
  | .error e => .error e
  | .ok (db, a) => if uniquePaths db.rows then .ok (db, a) else .error .integrity

/-- `obj.save()`: UPDATE of the row with this primary key if there is one, else INSERT. -/
def save (db : DB) (row : Row) : DB :=
  { db with rows := if db.rows.any (·.pk == row.pk)
      then db.rows.map (fun r => if r.pk == row.pk then row else r)
      else db.rows ++ [row] }

/-- ltree/__init__.py:446-449, 455-459, 464, 468: append "A" to the label number `d` of the path -/
def appendA (d : Nat) (p : Path) : Path :=
  match p.drop (d - 1) with
  | [] => p
  | l :: rest => p.take (d - 1) ++ (l ++ [65]) :: rest

/-- the rows `_move_subtree_right` selects, before the condition on the depth:
ltree/__init__.py:443, 452 for nodes below the roots, 463, 466 for roots -/
def rightOf (start : Path) (r : Row) : Bool :=
  (if start.length > 1 then start.dropLast.isPrefixOf r.path else true) && !decide (r.path < start)

/-- the first UPDATE (ltree/__init__.py:442-450, 463-465) -/
def shiftTop (start : Path) (rows : List Row) : List Row :=
  rows.map (fun r => if rightOf start r && r.path.length == start.length
    then { r with path := appendA start.length r.path } else r)

/-- the second UPDATE (ltree/__init__.py:451-460, 466-469) -/
def shiftDeep (start : Path) (rows : List Row) : List Row :=
  rows.map (fun r => if rightOf start r && decide (start.length < r.path.length)
    then { r with path := appendA start.length r.path } else r)

/-- ltree/__init__.py:434-475 `_move_subtree_right` -/
def moveRight (db : DB) (start : Row) : DB :=
  { rows := shiftDeep start.path (shiftTop start.path db.rows), sigs := db.sigs ++ [.movedRight start.path] }

/-- `insert_before.path[-1] if insert_before else None` -/
def labelOf (r : Option Row) : Option Label := r.map (fun r => lastLabel r.path)

/-- ltree/__init__.py:408-409: `before and after and after > before` -/
def badOrder (before after : Option Label) : Bool :=
  truthy before && truthy after && decide (before.getD [] < after.getD [])

/-- ltree/__init__.py:404-432 `_get_new_path`.  `left` is `2 - num_iters`.  Returns the table, the new path and
`nodes_moved`. -/
def getNewPath (db : DB) (pre : Path) (before after : Option Row) (moved : Bool) (left : Nat) :
    Except Err (DB × Path × Bool) :=
  if badOrder (labelOf before) (labelOf after) then .error .valueError
  else
    match generatePath pre (labelOf before) (labelOf after) ((below db pre (pre.length + 1)).map Row.path) with
    | .ok p => .ok (db, p, moved)
    | .error .invalidLabelConstraints =>
      match before with
      | none => .error .attributeError
      | some b =>
        match (moveRight db b).get? b.pk with
        | none => .error .doesNotExist
        | some b' =>
          match left with
          | 0 => .error .pathOverflow
          | left + 1 => getNewPath (moveRight db b) pre (some b') after true left
    | .error e => .error e

/-! ### Adding nodes

`new` is the object to create (its `path` is set by the function). -/

/-- ltree/__init__.py:245-260: the neighbours of the new place among the siblings of `target` -/
def sibNeighbours (cfg : Cfg) (db : DB) (target : Row) (pos : Pos) (new : Row) : Option Row × Option Row :=
  match pos with
  | .sortedSibling =>
    match (sortedPosQueryset cfg.orderBy Row.vals (siblings db target) new.vals).head? with
    | none => (none, none)
    | some b => (some b, prevSibling db b)
  | .firstSibling => (firstSibling db target, none)
  | .left => (some target, prevSibling db target)
  | .right => (nextSibling db target, some target)
  | .lastSibling => (none, lastSibling db target)
  | _ => (none, none)

/-- ltree/__init__.py:229-264 `add_sibling`, inside the transaction -/
def addSiblingIn (cfg : Cfg) (db : DB) (target : Row) (pos : Option Pos) (new : Row) : Except Err (DB × Row) :=
  match preparePosForAddSibling cfg.ordered pos with
  | .error e => .error e
  | .ok pos =>
    match getNewPath db target.path.dropLast (sibNeighbours cfg db target pos new).1
        (sibNeighbours cfg db target pos new).2 false 2 with
    | .error e => .error e
    | .ok (db, p, _) => .ok (save db { new with path := p }, { new with path := p })

/-- ltree/__init__.py:229-264 `add_sibling` -/
def addSibling (cfg : Cfg) (db : DB) (target : Row) (pos : Option Pos) (new : Row) : Except Err (DB × Row) :=
  commit (addSiblingIn cfg db target pos new)

/-- ltree/__init__.py:162-189 `add_root` -/
def addRoot (cfg : Cfg) (db : DB) (new : Row) : Except Err (DB × Row) :=
  commit (match lastRootNode db with
    | some lastRoot =>
      if cfg.ordered then addSiblingIn cfg db lastRoot (some .sortedSibling) new
      else
        match generatePath [] none none ((rootNodes db).map Row.path) with
        | .error e => .error e
        | .ok p => .ok (save db { new with path := p }, { new with path := p })
    | none =>
      match generatePath [] none none [] with
      | .error e => .error e
      | .ok p => .ok (save db { new with path := p }, { new with path := p }))

/-- ltree/__init__.py:214-223: the path of the new last child -/
def newChildPath (db : DB) (target : Row) : Except Err Path :=
  if isLeaf db target then generatePath target.path none none []
  else
    match lastChild db target with
    | none => .error .attributeError
    | some last => generatePath target.path none (some (lastLabel last.path)) ((children db target).map Row.path)

/-- ltree/__init__.py:191-227 `add_child` -/
def addChild (cfg : Cfg) (db : DB) (target : Row) (new : Row) : Except Err (DB × Row) :=
  commit (match db.get? target.pk with
    | none => .error .doesNotExist
    | some _ =>
      if cfg.ordered = true ∧ isLeaf db target = false then
        match lastChild db target with
        | none => .error .attributeError
        | some last => addSiblingIn cfg db last (some .sortedSibling) new
      else
        match newChildPath db target with
        | .error e => .error e
        | .ok p => .ok (save db { new with path := p }, { new with path := p }))

/-! ### Moving -/

/-- The positions below the target (ltree/__init__.py:274). -/
def isChildPos (pos : Pos) : Bool := pos == .firstChild || pos == .lastChild || pos == .sortedChild

/-- ltree/__init__.py:281-309: the neighbours of the new place and the path of the new parent -/
def moveNeighbours (cfg : Cfg) (db : DB) (node target : Row) (pos : Pos) : (Option Row × Option Row) × Path :=
  match pos with
  | .sortedSibling =>
    match (sortedPosQueryset cfg.orderBy Row.vals (siblings db target) node.vals).head? with
    | none => ((none, none), target.path.dropLast)
    | some b => ((some b, prevSibling db b), target.path.dropLast)
  | .sortedChild =>
    match (sortedPosQueryset cfg.orderBy Row.vals (children db target) node.vals).head? with
    | none => ((none, none), target.path)
    | some b => ((some b, prevSibling db b), target.path)
  | .firstSibling => (((siblings db target).head?, none), target.path.dropLast)
  | .lastSibling => ((none, (siblings db target).getLast?), target.path.dropLast)
  | .left => ((some target, prevSibling db target), target.path.dropLast)
  | .right => ((nextSibling db target, some target), target.path.dropLast)
  | .firstChild => (((children db target).head?, none), target.path)
  | .lastChild => ((none, (children db target).getLast?), target.path)
  | .other _ => ((none, none), target.path.dropLast)

/-- ltree/__init__.py:317-324: UPDATE of the descendants of the node -/
def rewriteBelow (old new : Path) (rows : List Row) : List Row :=
  rows.map (fun r => if old.isPrefixOf r.path && decide (old.length < r.path.length)
    then { r with path := new ++ r.path.drop old.length } else r)

/-- ltree/__init__.py:317-334: the end of `move`.  Returns the table and the caller's node object. -/
def finishMove (db : DB) (node : Row) (newPath : Path) : DB × Row :=
  let db' := save { db with rows := rewriteBelow node.path newPath db.rows } { node with path := newPath }
  ({ db' with sigs := db'.sigs ++ [.moved node.path newPath] }, { node with path := newPath })

/-- ltree/__init__.py:312-313: `node.refresh_from_db()` if nodes were moved -/
def refreshed (db : DB) (node : Row) (moved : Bool) : Except Err Row :=
  if moved then
    match db.get? node.pk with
    | none => .error .doesNotExist
    | some n => .ok n
  else .ok node

/-- ltree/__init__.py:266-334 `move`.  Returns the table and the caller's node object.  (What happens to the
target object is in `moveObj`, LT/Objects.lean.) -/
def move (cfg : Cfg) (db : DB) (node target : Row) (pos : Option Pos) : Except Err (DB × Row) :=
  commit (match preparePosForMove cfg.ordered pos with
    | .error e => .error e
    | .ok pos =>
      if isChildPos pos = true ∧ target.pk = node.pk then .error .invalidMoveToDescendant
      else if target.isDescendantOf node then .error .invalidMoveToDescendant
      else
        match getNewPath db (moveNeighbours cfg db node target pos).2 (moveNeighbours cfg db node target pos).1.1
            (moveNeighbours cfg db node target pos).1.2 false 2 with
        | .error e => .error e
        | .ok (db, newPath, moved) =>
          match refreshed db node moved with
          | .error e => .error e
          | .ok node => .ok (finishMove db node newPath))

/-! ### Deleting -/

/-- ltree/__init__.py:107-118: the paths to remove; `range(1, len(node.path))` -/
def removedLoop : List Row → List Path → List Path
  | [], removed => removed
  | n :: ns, removed =>
    let found := (List.range n.path.length).any (fun d => decide (1 ≤ d) && removed.contains (n.path.take d))
    removedLoop ns (if found then removed else removed ++ [n.path])

/-- ltree/__init__.py:99-128 `delete` of the query set selecting the rows satisfying `sel` -/
def delete (db : DB) (sel : Row → Bool) : DB :=
  let paths := removedLoop (orderByPath (db.rows.filter sel)) []
  if paths.isEmpty then db
  else { rows := db.rows.filter (fun r => !paths.any (fun p => p.isPrefixOf r.path)),
         sigs := db.sigs ++ [.nodesDeleted paths] }

end Verif.LT
