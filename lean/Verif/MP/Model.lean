/-
Model of treebeard/mp_tree.py: the core operations.

Simplifications: see DESIGN.md section 3.  A table is the list of its rows in physical order.  String
comparison and `startswith` are those of Python (code points, case sensitive); the path column has no
length limit except where the code checks it (add_child).
-/
import Verif.NumConv

namespace Verif.MP

/-- The class attributes of a `MP_Node` model (mp_tree.py:1027-1030): `alphabet`, `steplen`,
`node_order_by` and `path.max_length`. -/
structure Cfg where
  alphabet : List Nat
  steplen : Nat
  orderBy : List (Nat × Bool)
  maxLen : Nat

/-- A row of the table, or an in-memory copy of it (mp_tree.py:1030-1032). -/
structure Row where
  pk : Nat
  path : List Nat
  depth : Nat
  numchild : Int
  /-- all the other fields -/
  vals : Vals
deriving DecidableEq, Repr

/-- The two signals (mp_tree.py:21-22) as sent. -/
inductive Sig where
  | pathUpdated (oldPath newPath : List Nat)
  | nodesDeleted (pks : List Nat) (paths : List (List Nat))
deriving DecidableEq, Repr

/-- The table and the log of the signals sent. -/
structure DB where
  rows : List Row
  sigs : List Sig := []
deriving DecidableEq, Repr

/-- bool(node_order_by) -/
def Cfg.ordered (cfg : Cfg) : Bool := !cfg.orderBy.isEmpty

/-! ### Paths as strings -/

/-- Python `path[0:k]` -/
def slice0 (path : List Nat) (k : Int) : List Nat :=
  if 0 ≤ k then path.take k.toNat else path.take (path.length - (-k).toNat)

/-- mp_tree.py:1100-1105 `_get_basepath` (for a falsy path the slice is also empty) -/
def basepath (cfg : Cfg) (path : List Nat) (depth : Int) : List Nat :=
  slice0 path (depth * cfg.steplen)

/-- `alphabet[0] * n` -/
def pad (cfg : Cfg) (n : Nat) : List Nat := List.replicate n (cfg.alphabet.headD 0)

/-- mp_tree.py:1107-1118 `_get_path`.  No check that the key fits in `steplen` characters. -/
def getPath (cfg : Cfg) (path : List Nat) (depth : Int) (newstep : Int) : Except Err (List Nat) :=
  match NumConv.int2str cfg.alphabet newstep with
  | .error e => .error e
  | .ok key => .ok (basepath cfg path (depth - 1) ++ pad cfg (cfg.steplen - key.length) ++ key)

/-- Python `path[-steplen:]` (for steplen ≥ 1) -/
def lastStep (cfg : Cfg) (path : List Nat) : List Nat := path.drop (path.length - cfg.steplen)

/-- mp_tree.py:1128-1130 `_get_lastpos_in_path` -/
def lastpos (cfg : Cfg) (path : List Nat) : Except Err Nat :=
  NumConv.str2int cfg.alphabet (lastStep cfg path)

/-- mp_tree.py:1120-1126 `_inc_path` -/
def incPath (cfg : Cfg) (path : List Nat) : Except Err (List Nat) :=
  match lastpos cfg path with
  | .error e => .error e
  | .ok n =>
    match NumConv.int2str cfg.alphabet ((n : Int) + 1) with
    | .error e => .error e
    | .ok key =>
      if key.length > cfg.steplen then .error .pathOverflow
      else .ok (slice0 path (-cfg.steplen) ++ pad cfg (cfg.steplen - key.length) ++ key)

/-- mp_tree.py:1132-1137 `_get_parent_path_from_path` -/
def parentPathFromPath (cfg : Cfg) (path : List Nat) : List Nat :=
  slice0 path ((path.length : Int) - cfg.steplen)

/-- mp_tree.py:1139-1142 `_get_children_path_interval` -/
def childrenInterval (cfg : Cfg) (path : List Nat) : List Nat × List Nat :=
  (path ++ pad cfg cfg.steplen, path ++ List.replicate cfg.steplen (cfg.alphabet.getLastD 0))

/-! ### Query sets -/

/-- `order_by("path")`, the default order (mp_tree.py:95-97) -/
def orderByPath (l : List Row) : List Row := sortBy (fun a b => decide (a.path < b.path)) l

/-- `path__range=(lo, hi)` -/
def inRange (r : Row) (i : List Nat × List Nat) : Bool :=
  !decide (r.path < i.1) && !decide (i.2 < r.path)

/-- `objects.get(pk=..)` -/
def DB.get? (db : DB) (pk : Nat) : Option Row := db.rows.find? (·.pk == pk)

/-- mp_tree.py:1096-1098 `is_leaf` -/
def Row.isLeaf (r : Row) : Bool := r.numchild == 0

/-- mp_tree.py:1092-1094 `is_root` -/
def Row.isRoot (r : Row) : Bool := r.depth == 1

/-- mp_tree.py:581-583 `get_root_nodes` -/
def rootNodes (db : DB) : List Row := orderByPath (db.rows.filter (·.depth == 1))

/-- models.py `get_last_root_node`: last of `get_root_nodes` -/
def lastRootNode (db : DB) : Option Row := (rootNodes db).getLast?

/-- mp_tree.py:867-875 `get_children` -/
def children (cfg : Cfg) (db : DB) (node : Row) : List Row :=
  if node.isLeaf then []
  else orderByPath (db.rows.filter (fun r =>
    r.depth == node.depth + 1 && inRange r (childrenInterval cfg node.path)))

/-- mp_tree.py:884-894 `get_siblings` -/
def siblings (cfg : Cfg) (db : DB) (node : Row) : List Row :=
  orderByPath (db.rows.filter (fun r => r.depth == node.depth &&
    (if node.depth > 1 then
      inRange r (childrenInterval cfg (basepath cfg node.path ((node.depth : Int) - 1)))
    else true)))

/-- models.py:553-559 `get_last_child` -/
def lastChild (cfg : Cfg) (db : DB) (node : Row) : Option Row := (children cfg db node).getLast?
/-- models.py:561-568 `get_first_sibling` -/
def firstSibling (cfg : Cfg) (db : DB) (node : Row) : Option Row := (siblings cfg db node).head?
/-- models.py:570-577 `get_last_sibling` -/
def lastSibling (cfg : Cfg) (db : DB) (node : Row) : Option Row := (siblings cfg db node).getLast?

/-- mp_tree.py:1085-1090 `is_descendant_of` -/
def Row.isDescendantOf (r node : Row) : Bool :=
  node.path.isPrefixOf r.path && decide (r.depth > node.depth)

/-- `node == target` for model instances: same primary key -/
def sameNode (a : Row) (b : Option Row) : Bool :=
  match b with | none => false | some b => a.pk == b.pk

/-! ### Writing -/

/-- the unique constraint on path (mp_tree.py:1030) -/
def uniquePaths (rows : List Row) : Bool := decide (rows.map (·.path)).Nodup

/-- `obj.save()`: UPDATE of the row with this primary key if there is one, else INSERT. -/
def save (db : DB) (row : Row) : Except Err DB :=
  let rows := if db.rows.any (·.pk == row.pk)
    then db.rows.map (fun r => if r.pk == row.pk then row else r)
    else db.rows ++ [row]
  if uniquePaths rows then .ok { db with rows } else .error .integrity

/-- `filter(path=path).update(numchild=F("numchild") + k)` (mp_tree.py:752-756) -/
def addNumchild (db : DB) (path : List Nat) (k : Int) : DB :=
  { db with rows := db.rows.map (fun r => if r.path == path then { r with numchild := r.numchild + k } else r) }

/-- `filter(pk=pk).update(numchild=F("numchild") + 1)` (mp_tree.py:427) -/
def incNumchildPk (db : DB) (pk : Nat) : DB :=
  { db with rows := db.rows.map (fun r => if r.pk == pk then { r with numchild := r.numchild + 1 } else r) }

/-- the new value of one row in `_set_newpath_in_branches` -/
def newpathRow (cfg : Cfg) (oldpath newpath : List Nat) (r : Row) : Row :=
  if oldpath.isPrefixOf r.path then
    let p := newpath ++ r.path.drop oldpath.length
    { r with path := p,
             depth := if oldpath.length ≠ newpath.length then p.length / cfg.steplen else r.depth }
  else r

/-- mp_tree.py:837-865 `_set_newpath_in_branches` -/
def setNewpath (cfg : Cfg) (db : DB) (oldpath newpath : List Nat) : Except Err DB :=
  let rows := db.rows.map (newpathRow cfg oldpath newpath)
  if uniquePaths rows then
    .ok { rows, sigs := if db.rows.any (fun r => oldpath.isPrefixOf r.path)
            then db.sigs ++ [.pathUpdated oldpath newpath] else db.sigs }
  else .error .integrity

/-! ### Reordering -/

/-- mp_tree.py:802-813: the siblings that need shifting, before `reverse` -/
def collectShift (cfg : Cfg) : List Row → List Nat → Except Err (List Row)
  | [], _ => .ok []
  | n :: ns, prior =>
    if prior < n.path then .ok []
    else
      match incPath cfg n.path with
      | .error e => .error e
      | .ok p =>
        match collectShift cfg ns p with
        | .error e => .error e
        | .ok l => .ok (n :: l)

/-- mp_tree.py:823-831: `_inc_path + path[len(_inc_path):]` when `path.startswith(node.path)` -/
def bump (nodePath inc path : List Nat) : List Nat :=
  if nodePath.isPrefixOf path then inc ++ path.drop inc.length else path

/-- mp_tree.py:816-831: the loop shifting siblings.  `oldpath` is `none` when `movebranch` is false. -/
def shiftLoop (cfg : Cfg) : List Row → DB → Option (List Nat) → Except Err (DB × Option (List Nat))
  | [], db, oldpath => .ok (db, oldpath)
  | n :: ns, db, oldpath =>
    match incPath cfg n.path with
    | .error e => .error e
    | .ok inc =>
      match setNewpath cfg db n.path inc with
      | .error e => .error e
      | .ok db => shiftLoop cfg ns db (oldpath.map (bump n.path inc))

/-- mp_tree.py:775-783: siblings and new position for the unsorted positions.
`{...}[pos]` raises KeyError for any other value. -/
def placeSiblings (cfg : Cfg) (db : DB) (pos : Pos) (target : Row) : Except Err (Int × List Row) :=
  match lastpos cfg target.path with
  | .error e => .error e
  | .ok basenum =>
    let sibs := siblings cfg db target
    match pos with
    | .left => .ok (basenum, sibs.filter (fun r => !decide (r.path < target.path)))
    | .right => .ok ((basenum : Int) + 1, sibs.filter (fun r => decide (target.path < r.path)))
    | .firstSibling => .ok (1, sibs)
    | _ => .error .keyError

/-- mp_tree.py:790-798: moving the branch out of the way when it moves left among its siblings -/
def moveToTemp (cfg : Cfg) (db : DB) (target : Row) (sibs : List Row) (newdepth : Nat)
    (oldpath newpath : List Nat) : Except Err (DB × Option (List Nat)) :=
  if oldpath.length = newpath.length
      ∧ basepath cfg oldpath ((oldpath.length / cfg.steplen : Nat) - 1) = basepath cfg newpath ((newdepth : Int) - 1)
      ∧ sibs ≠ [] ∧ newpath < oldpath then
    match lastSibling cfg db target with
    | none => .error .attributeError
    | some last =>
      match lastpos cfg last.path with
      | .error e => .error e
      | .ok basenum =>
        match getPath cfg newpath newdepth ((basenum : Int) + 2) with
        | .error e => .error e
        | .ok temp =>
          match setNewpath cfg db oldpath temp with
          | .error e => .error e
          | .ok db => .ok (db, some temp)
  else .ok (db, none)

/-- mp_tree.py:758-835 `_reorder_nodes_before_add_or_move`.  `oldpath = none` means `movebranch=False`.
`newpos`/`sibs` are given for sorted insertion and for a first child.  The result is the new table,
the (bumped) old path and the new path. -/
def reorder (cfg : Cfg) (db : DB) (pos : Pos) (newpos : Option Int) (newdepth : Nat) (target : Row)
    (sibs : List Row) (oldpath : Option (List Nat)) :
    Except Err (DB × Option (List Nat) × List Nat) :=
  if pos = .lastSibling ∨ (pos = .right ∧ sameNode target (lastSibling cfg db target)) then
    match lastSibling cfg db target with
    | none => .error .attributeError
    | some last =>
      match incPath cfg last.path with
      | .error e => .error e
      | .ok newpath =>
        match oldpath with
        | none => .ok (db, none, newpath)
        | some old =>
          match setNewpath cfg db old newpath with
          | .error e => .error e
          | .ok db => .ok (db, some old, newpath)
  else
    match (match newpos with
      | some n => Except.ok (n, sibs)
      | none => placeSiblings cfg db pos target) with
    | .error e => .error e
    | .ok (newpos, sibs) =>
      match getPath cfg target.path newdepth newpos with
      | .error e => .error e
      | .ok newpath =>
        match (match oldpath with
          | none => Except.ok (db, none)
          | some old => moveToTemp cfg db target sibs newdepth old newpath) with
        | .error e => .error e
        | .ok (db, temp) =>
          match collectShift cfg sibs newpath with
          | .error e => .error e
          | .ok moves =>
            match shiftLoop cfg moves.reverse db oldpath with
            | .error e => .error e
            | .ok (db, oldpath) =>
              match oldpath with
              | none => .ok (db, none, newpath)
              | some old =>
                match setNewpath cfg db (temp.getD old) newpath with
                | .error e => .error e
                | .ok db => .ok (db, some old, newpath)

/-! ### Adding nodes

`new` is the object to create (its `path` and `depth` are set by the function). -/

/-- mp_tree.py:458-463: the sorted position of `new` among `sibs`: position, new `newpos` and siblings -/
def sortedPos (cfg : Cfg) (sibs : List Row) (new : Row) : Except Err (Pos × Option Int × List Row) :=
  let after := sortedPosQueryset cfg.orderBy Row.vals sibs new.vals
  match after.head? with
  | none => .ok (.lastSibling, none, after)
  | some first =>
    match lastpos cfg first.path with
    | .error e => .error e
    | .ok n => .ok (.sortedSibling, some (n : Int), after)

/-- mp_tree.py:469-478: the end of `add_sibling`, once the siblings are out of the way -/
def finishAddSibling (cfg : Cfg) (db : DB) (newdepth : Nat) (newpath : List Nat) (new : Row) :
    Except Err (DB × Row) :=
  let parentpath := basepath cfg newpath ((newdepth : Int) - 1)
  let db := if parentpath ≠ [] then addNumchild db parentpath 1 else db
  let newobj := { new with path := newpath, depth := newdepth }
  match save db newobj with
  | .error e => .error e
  | .ok db => .ok (db, newobj)

/-- mp_tree.py:436-478 `add_sibling` -/
def addSibling (cfg : Cfg) (db : DB) (target : Row) (pos : Option Pos) (new : Row) :
    Except Err (DB × Row) :=
  match preparePosForAddSibling cfg.ordered pos with
  | .error e => .error e
  | .ok pos =>
    match (if pos = .sortedSibling then sortedPos cfg (siblings cfg db target) new
           else Except.ok (pos, none, [])) with
    | .error e => .error e
    | .ok (pos, newpos, sibs) =>
      match reorder cfg db pos newpos target.depth target sibs none with
      | .error e => .error e
      | .ok (db, _, newpath) => finishAddSibling cfg db target.depth newpath new

/-- mp_tree.py:339-381 `add_root` -/
def addRoot (cfg : Cfg) (db : DB) (new : Row) : Except Err (DB × Row) :=
  match lastRootNode db with
  | some lastRoot =>
    if cfg.ordered then addSibling cfg db lastRoot (some .sortedSibling) new
    else
      match incPath cfg lastRoot.path with
      | .error e => .error e
      | .ok newpath =>
        let newobj := { new with path := newpath, depth := 1 }
        match save db newobj with
        | .error e => .error e
        | .ok db => .ok (db, newobj)
  | none =>
    match getPath cfg [] 1 1 with
    | .error e => .error e
    | .ok newpath =>
      let newobj := { new with path := newpath, depth := 1 }
      match save db newobj with
      | .error e => .error e
      | .ok db => .ok (db, newobj)

/-- mp_tree.py:410-424: the path of the new last child (with the overflow checks) -/
def newChildPath (cfg : Cfg) (db : DB) (node : Row) : Except Err (List Nat) :=
  if node.isLeaf then
    match getPath cfg node.path ((node.depth : Int) + 1) 1 with
    | .error e => .error e
    | .ok p => if p.length > cfg.maxLen then .error .pathOverflow else .ok p
  else
    match lastChild cfg db node with
    | none => .error .attributeError
    | some last => incPath cfg last.path

/-- mp_tree.py:383-434 `add_child`.  Returns the table, the new object and the caller's `target`. -/
def addChild (cfg : Cfg) (db : DB) (target : Row) (new : Row) : Except Err (DB × Row × Row) :=
  match db.get? target.pk with
  | none => .error .doesNotExist
  | some node =>
    if cfg.ordered = true ∧ node.isLeaf = false then
      match lastChild cfg db node with
      | none => .error .attributeError
      | some last =>
        match addSibling cfg db last (some .sortedSibling) new with
        | .error e => .error e
        | .ok (db, newobj) => .ok (db, newobj, { target with numchild := target.numchild + 1 })
    else
      match newChildPath cfg db node with
      | .error e => .error e
      | .ok p =>
        let newobj := { new with path := p, depth := node.depth + 1 }
        let db := incNumchildPk db node.pk
        let target := { target with numchild := node.numchild + 1 }
        match save db newobj with
        | .error e => .error e
        | .ok db => .ok (db, newobj, target)

/-! ### Moving -/

/-- The variables of `move` after `update_move_to_child_vars`. -/
structure MoveVars where
  target : Row
  newdepth : Nat
  sibs : List Row
  newpos : Option Int
  pos : Pos

/-- The positions below the target. -/
def isChildPos (pos : Pos) : Bool := pos == .firstChild || pos == .lastChild || pos == .sortedChild

/-- mp_tree.py:568-572: the position relative to the last child -/
def childToSib : Pos → Pos
  | .firstChild => .firstSibling
  | .lastChild => .lastSibling
  | _ => .sortedSibling

/-- mp_tree.py:549-579 `update_move_to_child_vars` (without the in-memory `parent.numchild += 1`,
which is in `move`) -/
def moveToChildVars (cfg : Cfg) (db : DB) (node target : Row) (pos : Pos) : Except Err MoveVars :=
  if isChildPos pos then
    if target.pk = node.pk then .error .invalidMoveToDescendant
    else if target.isLeaf then
      .ok { target, newdepth := target.depth + 1, sibs := [], newpos := some 1, pos := .firstSibling }
    else
      match lastChild cfg db target with
      | none => .error .attributeError
      | some last =>
        .ok { target := last, newdepth := target.depth + 1, sibs := [], newpos := none,
              pos := childToSib pos }
  else .ok { target, newdepth := target.depth, sibs := [], newpos := none, pos }

/-- mp_tree.py:499-511: sorted position for a move; `none` means the node is already in place -/
def moveSorted (cfg : Cfg) (db : DB) (node : Row) (v : MoveVars) : Except Err (Option MoveVars) :=
  if v.pos = .sortedSibling then
    let after := sortedPosQueryset cfg.orderBy Row.vals (siblings cfg db v.target) node.vals
    match after.head? with
    | none => .ok (some { v with sibs := after, newpos := none, pos := .lastSibling })
    | some first =>
      match lastpos cfg first.path with
      | .error e => .error e
      | .ok newpos =>
        let nodeParent := basepath cfg node.path ((node.depth : Int) - 1)
        let firstParent := basepath cfg first.path ((first.depth : Int) - 1)
        if nodeParent = firstParent then
          match lastpos cfg node.path with
          | .error e => .error e
          | .ok nodepos =>
            if (nodepos : Int) = (newpos : Int) - 1 then .ok none
            else .ok (some { v with sibs := after, newpos := some (newpos : Int) })
        else .ok (some { v with sibs := after, newpos := some (newpos : Int) })
  else .ok (some v)

/-- mp_tree.py:513-525: the special cases where nothing needs to be done -/
def moveNoop (cfg : Cfg) (db : DB) (node : Row) (v : MoveVars) : Bool :=
  (v.newdepth == node.depth &&
    ((v.pos == .firstSibling && sameNode node (firstSibling cfg db v.target)) ||
     (v.pos == .lastSibling && sameNode node (lastSibling cfg db v.target)))) ||
  (node.pk == v.target.pk &&
    (v.pos == .left ||
     ((v.pos == .right || v.pos == .lastSibling) && sameNode v.target (lastSibling cfg db v.target))))

/-- mp_tree.py:536-547 `update_parent_counts_after_move` -/
def updateParentCounts (cfg : Cfg) (db : DB) (oldpath newpath : List Nat) : DB :=
  let oldparent := parentPathFromPath cfg oldpath
  let newparent := parentPathFromPath cfg newpath
  if oldparent ≠ newparent then
    let db := if oldparent ≠ [] then addNumchild db oldparent (-1) else db
    if newparent ≠ [] then addNumchild db newparent 1 else db
  else db

/-- What a call of `move` leaves behind: the table, and the caller's node and target objects. -/
structure MoveResult where
  db : DB
  node : Row
  target : Row

/-- mp_tree.py:532-534: the end of `move`: update the counts, refresh `node` and the (possibly replaced)
target.  `target'` is the caller's target object so far. -/
def finishMove (cfg : Cfg) (db : DB) (node vtarget target target' : Row) (oldpath newpath : List Nat) :
    Except Err MoveResult :=
  let db := updateParentCounts cfg db oldpath newpath
  match db.get? node.pk, db.get? vtarget.pk with
  | some node', some t' => .ok ⟨db, node', if vtarget.pk = target.pk then t' else target'⟩
  | _, _ => .error .doesNotExist

/-- mp_tree.py:513-534: `move` once the variables are known -/
def moveTo (cfg : Cfg) (db : DB) (node target target' : Row) (v : MoveVars) : Except Err MoveResult :=
  if moveNoop cfg db node v then .ok ⟨db, node, target'⟩
  else
    match reorder cfg db v.pos v.newpos v.newdepth v.target v.sibs (some node.path) with
    | .error e => .error e
    | .ok (db, oldpath, newpath) => finishMove cfg db node v.target target target' (oldpath.getD []) newpath

/-- mp_tree.py:480-534 `move` -/
def move (cfg : Cfg) (db : DB) (node target : Row) (pos : Option Pos) : Except Err MoveResult :=
  match preparePosForMove cfg.ordered pos with
  | .error e => .error e
  | .ok pos =>
    match moveToChildVars cfg db node target pos with
    | .error e => .error e
    | .ok v =>
      -- mp_tree.py:577 `parent.numchild += 1`, in memory only
      let target' := if isChildPos pos then { target with numchild := target.numchild + 1 } else target
      if v.target.isDescendantOf node then .error .invalidMoveToDescendant
      else
        match moveSorted cfg db node v with
        | .error e => .error e
        | .ok none => .ok ⟨db, node, target'⟩
        | .ok (some v) => moveTo cfg db node target target' v

/-! ### Deleting -/

/-- mp_tree.py:44: `order_by("depth", "path")` -/
def orderByDepthPath (l : List Row) : List Row :=
  sortBy (fun a b => decide (a.depth < b.depth ∨ (a.depth = b.depth ∧ a.path < b.path))) l

/-- mp_tree.py:43-53: drop the nodes one of whose ancestors is already in `removed`.
`depth` runs over `range(1, int(len(path)/steplen))`. -/
def removedLoop (cfg : Cfg) : List Row → List Row → List Row
  | [], removed => removed
  | n :: ns, removed =>
    let found := (List.range (n.path.length / cfg.steplen)).any (fun d =>
      decide (1 ≤ d) && removed.any (fun q => q.path == basepath cfg n.path d))
    removedLoop cfg ns (if found then removed else removed ++ [n])

/-- mp_tree.py:57-68: the parents with the number of children they lose, the primary keys of the
leaves and the paths of the other nodes -/
structure DeletePlan where
  parents : List (List Nat × Nat)
  pks : List Nat
  paths : List (List Nat)

/-- `parents[path] += 1` on a `collections.Counter` -/
def bumpCounter (path : List Nat) : List (List Nat × Nat) → List (List Nat × Nat)
  | [] => [(path, 1)]
  | (p, n) :: rest => if p = path then (p, n + 1) :: rest else (p, n) :: bumpCounter path rest

/-- mp_tree.py:61-68 -/
def deletePlan (cfg : Cfg) : List Row → DeletePlan → DeletePlan
  | [], plan => plan
  | n :: ns, plan =>
    let parentpath := basepath cfg n.path ((n.depth : Int) - 1)
    let plan := if parentpath ≠ [] then { plan with parents := bumpCounter parentpath plan.parents } else plan
    deletePlan cfg ns (if n.isLeaf then { plan with pks := plan.pks ++ [n.pk] }
      else { plan with paths := plan.paths ++ [n.path] })

/-- The SQL statements of `delete`. -/
inductive DelStmt where
  /-- mp_tree.py:73-74 -/
  | lose (path : List Nat) (n : Nat)
  /-- mp_tree.py:76-81 -/
  | delete (pks : List Nat) (paths : List (List Nat))

/-- mp_tree.py:78-80: `Q(pk__in=..) | Q(path__startswith=..) | ..` -/
def delMatches (pks : List Nat) (paths : List (List Nat)) (r : Row) : Bool :=
  pks.contains r.pk || paths.any (fun p => p.isPrefixOf r.path)

/-- Executing one statement (and sending the signal after the deletion, mp_tree.py:82-85) -/
def execDel (db : DB) : DelStmt → DB
  | .lose path n => { db with rows := db.rows.map (fun r =>
      if r.path == path then { r with numchild := max (r.numchild - n) 0 } else r) }
  | .delete pks paths =>
    { rows := db.rows.filter (fun r => !delMatches pks paths r),
      sigs := if db.rows.any (delMatches pks paths) then db.sigs ++ [.nodesDeleted pks paths] else db.sigs }

/-- mp_tree.py:32-81: the list of statements for the query set selecting the rows satisfying `sel` -/
def deleteStmts (cfg : Cfg) (db : DB) (sel : Row → Bool) : List DelStmt :=
  let removed := removedLoop cfg (orderByDepthPath (db.rows.filter sel)) []
  let plan := deletePlan cfg removed ⟨[], [], []⟩
  plan.parents.map (fun e => DelStmt.lose e.1 e.2) ++ [.delete plan.pks plan.paths]

/-- mp_tree.py:32-86 `delete` of the query set selecting the rows satisfying `sel` -/
def delete (cfg : Cfg) (db : DB) (sel : Row → Bool) : DB :=
  (deleteStmts cfg db sel).foldl execDel db

end Verif.MP
