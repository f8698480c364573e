/-
MP: `move` as the statements of a transaction (mp_tree.py:480-547, 758-865), and what they read and write of the trees.

`move` locks nothing.  The queries before the first UPDATE are one statement here; between this statement, the UPDATEs of the paths and of
the numbers of children, and the `refresh_from_db` calls other clients may commit.
-/
import Verif.MP.Move
import Verif.RowParts

namespace Verif.MP

open Txn

/-! ### The statements -/

/-- an UPDATE of `_set_newpath_in_branches`: the old and the new path -/
abbrev Upd := List Nat × List Nat

/-- the UPDATE (mp_tree.py:837-865), without the unique index -/
def Upd.apply (cfg : Cfg) (u : Upd) (db : DB) : DB :=
  { rows := db.rows.map (newpathRow cfg u.1 u.2),
    sigs := if db.rows.any (fun r => u.1.isPrefixOf r.path) then db.sigs ++ [.pathUpdated u.1 u.2] else db.sigs }

theorem setNewpath_eq (cfg : Cfg) (db : DB) (u : Upd) :
    setNewpath cfg db u.1 u.2 = if uniquePaths (db.rows.map (newpathRow cfg u.1 u.2)) then .ok (u.apply cfg db) else .error .integrity := rfl

/-- several of them -/
def applyUpds (cfg : Cfg) (us : List Upd) (db : DB) : DB := us.foldl (fun db u => u.apply cfg db) db

/-- several of them, with the unique index -/
def execUpds (cfg : Cfg) : List Upd → DB → Except Err DB
  | [], db => .ok db
  | u :: us, db =>
    match setNewpath cfg db u.1 u.2 with
    | .error e => .error e
    | .ok db => execUpds cfg us db

/-- mp_tree.py:816-831: the UPDATEs of the loop, and the old path after it -/
def shiftPlan (cfg : Cfg) : List Row → List Nat → List Upd × Except Err (List Nat)
  | [], old => ([], .ok old)
  | n :: ns, old =>
    match incPath cfg n.path with
    | .error e => ([], .error e)
    | .ok inc => ((n.path, inc) :: (shiftPlan cfg ns (bump n.path inc old)).1, (shiftPlan cfg ns (bump n.path inc old)).2)

/-- mp_tree.py:790-798: the UPDATE that moves the branch out of the way -/
def tempPlan (cfg : Cfg) (db : DB) (target : Row) (sibs : List Row) (newdepth : Nat) (oldpath newpath : List Nat) :
    Except Err (Option (List Nat)) :=
  if oldpath.length = newpath.length
      ∧ basepath cfg oldpath ((oldpath.length / cfg.steplen : Nat) - 1) = basepath cfg newpath ((newdepth : Int) - 1)
      ∧ sibs ≠ [] ∧ newpath < oldpath then
    match lastSibling cfg db target with
    | none => .error .attributeError
    | some last =>
      match lastpos cfg last.path with
      | .error e => .error e
      | .ok basenum =>
        match getPath cfg newpath newdepth ((basenum : Int) + 2) with
        | .error e => .error e
        | .ok temp => .ok (some temp)
  else .ok none

/-- mp_tree.py:785-835: the same once the position and the siblings are known -/
def placedPlan (cfg : Cfg) (db : DB) (newdepth : Nat) (target : Row) (old : List Nat) (newpos : Int) (sibs : List Row) :
    List Upd × Except Err (List Nat × List Nat) :=
  match getPath cfg target.path newdepth newpos with
  | .error e => ([], .error e)
  | .ok newpath =>
    match tempPlan cfg db target sibs newdepth old newpath with
    | .error e => ([], .error e)
    | .ok temp =>
      match collectShift cfg sibs newpath with
      | .error e => (temp.toList.map (fun t => (old, t)), .error e)
      | .ok moves =>
        match shiftPlan cfg moves.reverse old with
        | (us, .error e) => (temp.toList.map (fun t => (old, t)) ++ us, .error e)
        | (us, .ok old') => (temp.toList.map (fun t => (old, t)) ++ us ++ [(temp.getD old', newpath)], .ok (old', newpath))

/-- mp_tree.py:758-835 `_reorder_nodes_before_add_or_move` for a branch: the UPDATEs, and after them the exception or the old and the new
path -/
def reorderPlan (cfg : Cfg) (db : DB) (pos : Pos) (newpos : Option Int) (newdepth : Nat) (target : Row) (sibs : List Row) (old : List Nat) :
    List Upd × Except Err (List Nat × List Nat) :=
  if pos = .lastSibling ∨ (pos = .right ∧ sameNode target (lastSibling cfg db target)) then
    match lastSibling cfg db target with
    | none => ([], .error .attributeError)
    | some last =>
      match incPath cfg last.path with
      | .error e => ([], .error e)
      | .ok newpath => ([(old, newpath)], .ok (old, newpath))
  else
    match newpos with
    | some n => placedPlan cfg db newdepth target old n sibs
    | none =>
      match placeSiblings cfg db pos target with
      | .error e => ([], .error e)
      | .ok (n, sibs) => placedPlan cfg db newdepth target old n sibs

/-- The variables of a call of `move`. -/
inductive CallVars where
  | start
  /-- the UPDATEs of paths to make, how they end, the target looked at and the caller's target object -/
  | planned (us : List Upd) (fin : Except Err (List Nat × List Nat)) (vtarget target : Row)
  /-- the paths are updated: the old and the new path -/
  | moved (old new : List Nat) (vtarget target : Row)
  /-- the call is over: the caller's objects -/
  | over (node target : Row)

/-- mp_tree.py:480-531: the queries -/
def planMove (cfg : Cfg) (db : DB) (node target : Row) (pos : Option Pos) : Except Err CallVars :=
  match preparePosForMove cfg.ordered pos with
  | .error e => .error e
  | .ok pos =>
    match moveToChildVars cfg db node target pos with
    | .error e => .error e
    | .ok v =>
      let target' := if isChildPos pos then { target with numchild := target.numchild + 1 } else target
      if v.target.isDescendantOf node then .error .invalidMoveToDescendant
      else
        match moveSorted cfg db node v with
        | .error e => .error e
        | .ok none => .ok (.over node target')
        | .ok (some v) =>
          if moveNoop cfg db node v then .ok (.over node target')
          else
            let plan := reorderPlan cfg db v.pos v.newpos v.newdepth v.target v.sibs node.path
            .ok (.planned plan.1 plan.2 v.target target')

/-- the queries as one statement -/
def stPlan (cfg : Cfg) (node target : Row) (pos : Option Pos) : Stmt DB CallVars := fun db l =>
  match l with
  | .start =>
    match planMove cfg db node target pos with
    | .error e => .error e
    | .ok l => .ok (id, l)
  | l => .ok (id, l)

/-- the next UPDATE of paths, if there is one -/
def stNext (cfg : Cfg) : Stmt DB CallVars := fun db l =>
  match l with
  | .planned (u :: us) fin vtarget target =>
    match setNewpath cfg db u.1 u.2 with
    | .error e => .error e
    | .ok _ => .ok (u.apply cfg, .planned us fin vtarget target)
  | l => .ok (id, l)

/-- the UPDATEs of paths that are left, if there are any, and the exception after them, if there is one -/
def stRest (cfg : Cfg) : Stmt DB CallVars := fun db l =>
  match l with
  | .planned us fin vtarget target =>
    match execUpds cfg us db with
    | .error e => .error e
    | .ok _ =>
      match fin with
      | .error e => .error e
      | .ok (old, new) => .ok (applyUpds cfg us, .moved old new vtarget target)
  | l => .ok (id, l)

/-- mp_tree.py:540-545: the old parent has a child less -/
def stOld (cfg : Cfg) : Stmt DB CallVars := fun _ l =>
  match l with
  | .moved old new _ _ =>
    .ok (fun db => if parentPathFromPath cfg old ≠ parentPathFromPath cfg new ∧ parentPathFromPath cfg old ≠ []
      then addNumchild db (parentPathFromPath cfg old) (-1) else db, l)
  | l => .ok (id, l)

/-- mp_tree.py:546-547: the new parent has a child more -/
def stNew (cfg : Cfg) : Stmt DB CallVars := fun _ l =>
  match l with
  | .moved old new _ _ =>
    .ok (fun db => if parentPathFromPath cfg old ≠ parentPathFromPath cfg new ∧ parentPathFromPath cfg new ≠ []
      then addNumchild db (parentPathFromPath cfg new) 1 else db, l)
  | l => .ok (id, l)

/-- mp_tree.py:533-534: `refresh_from_db()` of the node and the target -/
def stResult (node target : Row) : Stmt DB CallVars := fun db l =>
  match l with
  | .moved _ _ vtarget target' =>
    match db.get? node.pk, db.get? vtarget.pk with
    | some node', some t' => .ok (id, .over node' (if vtarget.pk = target.pk then t' else target'))
    | _, _ => .error .doesNotExist
  | l => .ok (id, l)

/-- the statements after the UPDATEs of paths -/
def lastStmts (cfg : Cfg) (node target : Row) : List (Stmt DB CallVars) := [stOld cfg, stNew cfg, stResult node target]

/-- `move` as a client.  It locks nothing: `key` is one nobody else asks for.  The first `n` UPDATEs of paths are statements of their own; what is
proved is for every `n`. -/
def moveClient (cfg : Cfg) (key n : Nat) (node target : Row) (pos : Option Pos) : Client DB CallVars where
  key := key
  start := .start
  body := stPlan cfg node target pos :: (List.replicate n (stNext cfg) ++ stRest cfg :: lastStmts cfg node target)
  check := fun _ => none

/-! ### Alone, the client is `move` -/

theorem shiftLoop_eq (cfg : Cfg) : ∀ (l : List Row) (db : DB) (old : List Nat), shiftLoop cfg l db (some old) =
    match execUpds cfg (shiftPlan cfg l old).1 db with
    | .error e => .error e
    | .ok db' => (shiftPlan cfg l old).2.map (fun o => (db', some o))
  | [], db, old => rfl
  | n :: ns, db, old => by
    unfold shiftLoop shiftPlan
    cases h1 : incPath cfg n.path with
    | error e => rfl
    | ok inc =>
      simp only [execUpds]
      cases h2 : setNewpath cfg db n.path inc with
      | error e => rfl
      | ok db' =>
        simp only [Option.map]
        rw [shiftLoop_eq cfg ns db' (bump n.path inc old)]

theorem execUpds_append (cfg : Cfg) : ∀ (us vs : List Upd) (db : DB), execUpds cfg (us ++ vs) db =
    match execUpds cfg us db with
    | .error e => .error e
    | .ok db => execUpds cfg vs db
  | [], vs, db => rfl
  | u :: us, vs, db => by
    simp only [List.cons_append, execUpds]
    cases setNewpath cfg db u.1 u.2 with
    | error e => rfl
    | ok db' => exact execUpds_append cfg us vs db'

theorem execUpds_ok (cfg : Cfg) : ∀ (us : List Upd) {db db' : DB}, execUpds cfg us db = .ok db' → db' = applyUpds cfg us db
  | [], db, db', e => by cases e; rfl
  | u :: us, db, db', e => by
    simp only [execUpds] at e
    rw [setNewpath_eq] at e
    by_cases hu : uniquePaths (db.rows.map (newpathRow cfg u.1 u.2)) = true
    · rw [if_pos hu] at e
      exact execUpds_ok cfg us e
    · rw [if_neg hu] at e; cases e

theorem moveToTemp_eq (cfg : Cfg) (db : DB) (target : Row) (sibs : List Row) (newdepth : Nat) (old new : List Nat) :
    moveToTemp cfg db target sibs newdepth old new =
      match tempPlan cfg db target sibs newdepth old new with
      | .error e => .error e
      | .ok temp =>
        match execUpds cfg (temp.toList.map (fun t => (old, t))) db with
        | .error e => .error e
        | .ok db' => .ok (db', temp) := by
  unfold moveToTemp tempPlan
  split
  · cases lastSibling cfg db target with
    | none => rfl
    | some last =>
      dsimp only
      cases lastpos cfg last.path with
      | error e => rfl
      | ok n =>
        dsimp only
        cases getPath cfg new newdepth ((n : Int) + 2) with
        | error e => rfl
        | ok temp =>
          simp only [Option.toList, List.map, execUpds]
          cases setNewpath cfg db old temp <;> rfl
  · rfl

theorem placed_eq (cfg : Cfg) (db : DB) (newdepth : Nat) (target : Row) (old : List Nat) (newpos : Int) (sibs : List Row) :
    (match getPath cfg target.path newdepth newpos with
      | .error e => .error e
      | .ok newpath =>
        match moveToTemp cfg db target sibs newdepth old newpath with
        | .error e => .error e
        | .ok (db, temp) =>
          match collectShift cfg sibs newpath with
          | .error e => .error e
          | .ok moves =>
            match shiftLoop cfg moves.reverse db (some old) with
            | .error e => .error e
            | .ok (db, oldpath) =>
              match oldpath with
              | none => .ok (db, none, newpath)
              | some old =>
                match setNewpath cfg db (temp.getD old) newpath with
                | .error e => .error e
                | .ok db => .ok (db, some old, newpath) : Except Err (DB × Option (List Nat) × List Nat)) =
      match execUpds cfg (placedPlan cfg db newdepth target old newpos sibs).1 db with
      | .error e => .error e
      | .ok db' => (placedPlan cfg db newdepth target old newpos sibs).2.map (fun on => (db', some on.1, on.2)) := by
  unfold placedPlan
  cases getPath cfg target.path newdepth newpos with
  | error e => rfl
  | ok new =>
    dsimp only
    rw [moveToTemp_eq]
    cases tempPlan cfg db target sibs newdepth old new with
    | error e => rfl
    | ok temp =>
      dsimp only
      cases collectShift cfg sibs new with
      | error e => dsimp only; cases execUpds cfg (temp.toList.map fun t => (old, t)) db <;> rfl
      | ok moves =>
        dsimp only
        have hs := fun d => shiftLoop_eq cfg moves.reverse d old
        revert hs
        cases shiftPlan cfg moves.reverse old with
        | mk us fin =>
          intro hs
          cases fin with
          | error e =>
            dsimp only
            rw [execUpds_append]
            cases execUpds cfg (temp.toList.map fun t => (old, t)) db with
            | error e => rfl
            | ok db' =>
              dsimp only
              rw [hs db']
              dsimp only
              cases execUpds cfg us db' <;> rfl
          | ok old' =>
            dsimp only
            rw [execUpds_append, execUpds_append]
            cases execUpds cfg (temp.toList.map fun t => (old, t)) db with
            | error e => rfl
            | ok db' =>
              dsimp only
              rw [hs db']
              dsimp only
              cases execUpds cfg us db' with
              | error e => rfl
              | ok db'' =>
                simp only [Except.map, execUpds]
                cases setNewpath cfg db'' (temp.getD old') new <;> rfl

/-- `_reorder_nodes_before_add_or_move` is its UPDATEs, and then the exception or the result -/
theorem reorder_eq (cfg : Cfg) (db : DB) (pos : Pos) (newpos : Option Int) (newdepth : Nat) (target : Row) (sibs : List Row) (old : List Nat) :
    reorder cfg db pos newpos newdepth target sibs (some old) =
      match execUpds cfg (reorderPlan cfg db pos newpos newdepth target sibs old).1 db with
      | .error e => .error e
      | .ok db' => (reorderPlan cfg db pos newpos newdepth target sibs old).2.map (fun on => (db', some on.1, on.2)) := by
  unfold reorder reorderPlan
  split
  · cases lastSibling cfg db target with
    | none => rfl
    | some last =>
      dsimp only
      cases incPath cfg last.path with
      | error e => rfl
      | ok new =>
        simp only [execUpds]
        cases setNewpath cfg db old new <;> rfl
  · cases newpos with
    | some n => exact placed_eq cfg db newdepth target old n sibs
    | none =>
      dsimp only
      cases placeSiblings cfg db pos target with
      | error e => rfl
      | ok q => exact placed_eq cfg db newdepth target old q.1 q.2

theorem exec_rest (cfg : Cfg) (fin : Except Err (List Nat × List Nat)) (vt t' : Row) (tl : List (Stmt DB CallVars)) : ∀ (n : Nat) (us : List Upd) (db : DB),
    Txn.exec (List.replicate n (stNext cfg) ++ stRest cfg :: tl) db (.planned us fin vt t') =
      match execUpds cfg us db with
      | .error e => .error e
      | .ok db' =>
        match fin with
        | .error e => .error e
        | .ok (old, new) => Txn.exec tl db' (.moved old new vt t')
  | 0, us, db => by
    simp only [List.replicate_zero, List.nil_append, Txn.exec, stRest]
    cases h : execUpds cfg us db with
    | error e => rfl
    | ok db' =>
      dsimp only
      cases fin with
      | error e => rfl
      | ok on => rw [execUpds_ok cfg us h]
  | n + 1, us, db => by
    rw [List.replicate_succ, List.cons_append]
    cases us with
    | nil =>
      simp only [Txn.exec, stNext, id]
      exact exec_rest cfg fin vt t' tl n [] db
    | cons u us =>
      simp only [Txn.exec, stNext, execUpds]
      rw [setNewpath_eq]
      by_cases hu : uniquePaths (db.rows.map (newpathRow cfg u.1 u.2)) = true
      · rw [if_pos hu]
        dsimp only
        exact exec_rest cfg fin vt t' tl n us _
      · rw [if_neg hu]

theorem exec_over (cfg : Cfg) (node target x t' : Row) (n : Nat) (db : DB) :
    Txn.exec (List.replicate n (stNext cfg) ++ stRest cfg :: lastStmts cfg node target) db (.over x t') = .ok (db, .over x t') := by
  induction n with
  | zero => rfl
  | succ n ih => rw [List.replicate_succ, List.cons_append]; exact ih

theorem exec_last (cfg : Cfg) (db : DB) (node target vt t' : Row) (old new : List Nat) :
    Txn.exec (lastStmts cfg node target) db (.moved old new vt t') =
      (finishMove cfg db node vt target t' old new).map (fun r => (r.db, .over r.node r.target)) := by
  simp only [lastStmts, Txn.exec, stOld, stNew, stResult]
  unfold finishMove updateParentCounts
  dsimp only
  have e : (if parentPathFromPath cfg old ≠ parentPathFromPath cfg new ∧ parentPathFromPath cfg new ≠ [] then
      addNumchild (if parentPathFromPath cfg old ≠ parentPathFromPath cfg new ∧ parentPathFromPath cfg old ≠ [] then
        addNumchild db (parentPathFromPath cfg old) (-1) else db) (parentPathFromPath cfg new) 1
      else (if parentPathFromPath cfg old ≠ parentPathFromPath cfg new ∧ parentPathFromPath cfg old ≠ [] then
        addNumchild db (parentPathFromPath cfg old) (-1) else db)) =
      if parentPathFromPath cfg old ≠ parentPathFromPath cfg new then
        if parentPathFromPath cfg new ≠ [] then
          addNumchild (if parentPathFromPath cfg old ≠ [] then addNumchild db (parentPathFromPath cfg old) (-1) else db) (parentPathFromPath cfg new) 1
        else if parentPathFromPath cfg old ≠ [] then addNumchild db (parentPathFromPath cfg old) (-1) else db
      else db := by
    by_cases h : parentPathFromPath cfg old = parentPathFromPath cfg new
    · simp [h]
    · simp [h]
  rw [e]
  generalize (if parentPathFromPath cfg old ≠ parentPathFromPath cfg new then _ else db) = d
  cases d.get? node.pk with
  | none => rfl
  | some a => cases d.get? vt.pk <;> rfl

/-- Alone, the client is `move`. -/
theorem moveClient_alone (cfg : Cfg) (key n : Nat) (db : DB) (node target : Row) (pos : Option Pos) :
    (moveClient cfg key n node target pos).alone db = (move cfg db node target pos).map (fun r => (r.db, .over r.node r.target)) := by
  have hfin : ∀ r, (moveClient cfg key n node target pos).finish r = r := by
    intro r
    unfold Client.finish moveClient
    cases r <;> rfl
  unfold Client.alone
  rw [hfin]
  show Txn.exec (stPlan cfg node target pos :: _) db .start = _
  simp only [Txn.exec, stPlan]
  unfold move planMove
  cases preparePosForMove cfg.ordered pos with
  | error e => rfl
  | ok pos0 =>
    dsimp only
    cases moveToChildVars cfg db node target pos0 with
    | error e => rfl
    | ok v =>
      dsimp only
      by_cases hd : v.target.isDescendantOf node = true
      · rw [if_pos hd, if_pos hd]; rfl
      · rw [if_neg hd, if_neg hd]
        cases moveSorted cfg db node v with
        | error e => rfl
        | ok v' =>
          cases v' with
          | none => exact exec_over ..
          | some v =>
            dsimp only
            unfold moveTo
            by_cases hn : moveNoop cfg db node v = true
            · rw [if_pos hn, if_pos hn]; exact exec_over ..
            · rw [if_neg hn, if_neg hn]
              dsimp only [id]
              rw [exec_rest, reorder_eq]
              cases execUpds cfg (reorderPlan cfg db v.pos v.newpos v.newdepth v.target v.sibs node.path).1 db with
              | error e => rfl
              | ok db' =>
                dsimp only
                cases (reorderPlan cfg db v.pos v.newpos v.newdepth v.target v.sibs node.path).2 with
                | error e => rfl
                | ok on =>
                  dsimp only [Except.map, Option.getD]
                  exact exec_last ..

/-! ### What is read -/

/-- the row is in the tree of the root with the path `R` -/
def inTree (R : List Nat) (r : Row) : Bool := R.isPrefixOf r.path

/-- the rows of one tree -/
def treeRows (R : List Nat) : DB → List Row := Parts.part DB.rows (inTree R)

/-- below the root -/
def Deep (cfg : Cfg) (R p : List Nat) : Prop := R <+: p ∧ 2 * cfg.steplen ≤ p.length

/-- The tree of a call, as it is at the start: the path of its root, its rows, the node and the target. -/
structure OwnTree (cfg : Cfg) (R : List Nat) (B : List Row) (x t : Row) : Prop where
  pos : 1 ≤ cfg.steplen
  len : R.length = cfg.steplen
  rows : ∀ r ∈ B, R <+: r.path ∧ r.path.length = r.depth * cfg.steplen
  leaf : ∀ r ∈ B, r.depth ≤ 1 → r.numchild = 0 → ∀ q ∈ B, q.pk = r.pk
  node : x ∈ B
  target : t ∈ B

/-- the call stays inside the tree: the target becomes the parent, or is not a root -/
def Inside (cfg : Cfg) (t : Row) (pos : Option Pos) : Prop := ∀ p, preparePosForMove cfg.ordered pos = .ok p → isChildPos p = true ∨ 2 ≤ t.depth

section
variable {cfg : Cfg} {a b db : DB} {R : List Nat} {B : List Row} {x t : Row}

theorem prefix_of_between {p u v q : List Nat} (h1 : ¬ q < p ++ u) (h2 : ¬ p ++ v < q) : p <+: q := by
  induction p generalizing q with
  | nil => exact List.nil_prefix
  | cons c p ih =>
    cases q with
    | nil => exact absurd (List.nil_lt_cons _ _) h1
    | cons d q =>
      rw [List.cons_append, List.cons_lt_cons_iff] at h1 h2
      have hcd : c = d := by
        by_contra hne
        rcases Nat.lt_or_gt_of_ne hne with h | h
        · exact h2 (Or.inl h)
        · exact h1 (Or.inl h)
      subst hcd
      rw [List.prefix_cons_inj]
      exact ih (fun h => h1 (Or.inr ⟨rfl, h⟩)) (fun h => h2 (Or.inr ⟨rfl, h⟩))

theorem inRange_prefix {P : List Nat} {r : Row} (h : inRange r (childrenInterval cfg P) = true) : P <+: r.path := by
  unfold inRange childrenInterval at h
  simp only [Bool.and_eq_true, Bool.not_eq_true', decide_eq_false_iff_not] at h
  exact prefix_of_between h.1 h.2

theorem filter_part {p : Row → Bool} (h : ∀ r, p r = true → inTree R r = true) : db.rows.filter p = (treeRows R db).filter p := by
  unfold treeRows Parts.part
  rw [List.filter_filter]
  refine List.filter_congr fun r _ => ?_
  cases hp : p r with
  | false => rfl
  | true => rw [h r hp]; rfl

theorem prefix_take {p : List Nat} {k : Nat} (h : R <+: p) (hk : R.length ≤ k) : R <+: p.take k := by
  rw [List.prefix_take_iff]
  exact ⟨h, hk⟩

theorem basepath_prefix (hl : R.length = cfg.steplen) {p : List Nat} (h : R <+: p) {d : Nat} (hd : 2 ≤ d) :
    R <+: basepath cfg p ((d : Int) - 1) := by
  have e : ((d : Int) - 1) = ((d - 1 : Nat) : Int) := by omega
  rw [e, basepath_nat]
  refine prefix_take h ?_
  rw [hl]
  exact Nat.le_mul_of_pos_left _ (by omega)

theorem siblings_congr (hl : R.length = cfg.steplen) (ht : R <+: t.path) (hd : 2 ≤ t.depth) (h : treeRows R a = treeRows R b) :
    siblings cfg a t = siblings cfg b t := by
  unfold siblings
  simp only [if_pos (show t.depth > 1 by omega)]
  rw [filter_part (db := a) (R := R), filter_part (db := b) (R := R), h]
  all_goals
    intro r hr
    simp only [Bool.and_eq_true] at hr
    unfold inTree
    rw [List.isPrefixOf_iff_prefix]
    exact (basepath_prefix hl ht hd).trans (inRange_prefix hr.2)

theorem siblings_inner (hl : R.length = cfg.steplen) (ht : R <+: t.path) (hd : 2 ≤ t.depth) (h : treeRows R db = B) {r : Row}
    (hr : r ∈ siblings cfg db t) : r ∈ B ∧ r.depth = t.depth := by
  unfold siblings orderByPath at hr
  rw [mem_sortBy, List.mem_filter, if_pos (show t.depth > 1 by omega)] at hr
  simp only [Bool.and_eq_true, beq_iff_eq] at hr
  refine ⟨?_, hr.2.1⟩
  rw [← h]
  refine List.mem_filter.2 ⟨hr.1, ?_⟩
  unfold inTree
  rw [List.isPrefixOf_iff_prefix]
  exact (basepath_prefix hl ht hd).trans (inRange_prefix hr.2.2)

theorem children_congr (ht : R <+: t.path) (h : treeRows R a = treeRows R b) : children cfg a t = children cfg b t := by
  unfold children
  rw [filter_part (db := a) (R := R), filter_part (db := b) (R := R), h]
  all_goals
    intro r hr
    simp only [Bool.and_eq_true] at hr
    unfold inTree
    rw [List.isPrefixOf_iff_prefix]
    exact ht.trans (inRange_prefix hr.2)

theorem children_inner (ht : R <+: t.path) (h : treeRows R db = B) {r : Row} (hr : r ∈ children cfg db t) : r ∈ B ∧ r.depth = t.depth + 1 := by
  unfold children at hr
  split at hr
  · cases hr
  · unfold orderByPath at hr
    rw [mem_sortBy, List.mem_filter] at hr
    simp only [Bool.and_eq_true, beq_iff_eq] at hr
    refine ⟨?_, hr.2.1⟩
    rw [← h]
    refine List.mem_filter.2 ⟨hr.1, ?_⟩
    unfold inTree
    rw [List.isPrefixOf_iff_prefix]
    exact ht.trans (inRange_prefix hr.2.2)

theorem moveToChildVars_congr (ht : R <+: t.path) (h : treeRows R a = treeRows R b) (pos : Pos) :
    moveToChildVars cfg a x t pos = moveToChildVars cfg b x t pos := by
  unfold moveToChildVars lastChild
  rw [children_congr ht h]

/-- what the variables are inside a tree -/
structure VarsIn (B : List Row) (v : MoveVars) : Prop where
  target : v.target ∈ B
  deep : 2 ≤ v.target.depth
  newdepth : 2 ≤ v.newdepth
  sibs : ∀ r ∈ v.sibs, r ∈ B ∧ 2 ≤ r.depth

theorem moveToChildVars_inner (ho : OwnTree cfg R B x t) (h : treeRows R db = B) {pos : Pos} (hin : isChildPos pos = true ∨ 2 ≤ t.depth) {v : MoveVars}
    (e : moveToChildVars cfg db x t pos = .ok v) : VarsIn B v := by
  have ht := ho.rows t ho.target
  have hd1 : 1 ≤ t.depth := by
    by_contra hd
    have h0 : t.depth = 0 := by omega
    have h1 := ht.1.length_le
    rw [ht.2, h0, ho.len] at h1
    have := ho.pos
    omega
  unfold moveToChildVars at e
  split at e
  · split at e
    · cases e
    · rename_i hne
      split at e
      · rename_i hleaf
        cases e
        have hl : t.numchild = 0 := by simpa [Row.isLeaf] using hleaf
        have h2 : 2 ≤ t.depth := by
          by_contra hd
          exact hne (ho.leaf t ho.target (by omega) hl x ho.node).symm
        exact ⟨ho.target, h2, by simp; omega, by simp⟩
      · split at e
        · cases e
        · rename_i last hlast
          cases e
          have := children_inner ht.1 h (List.mem_of_getLast? hlast)
          exact ⟨this.1, by simp; omega, by simp; omega, by simp⟩
  · rename_i hc
    cases e
    have h2 := hin.resolve_left hc
    exact ⟨ho.target, h2, h2, by simp⟩

theorem moveSorted_congr (hl : R.length = cfg.steplen) {v : MoveVars} (ht : R <+: v.target.path) (hd : 2 ≤ v.target.depth)
    (h : treeRows R a = treeRows R b) : moveSorted cfg a x v = moveSorted cfg b x v := by
  unfold moveSorted
  rw [siblings_congr hl ht hd h]

theorem moveSorted_inner (ho : OwnTree cfg R B x t) (h : treeRows R db = B) {v v' : MoveVars} (hv : VarsIn B v) (e : moveSorted cfg db x v = .ok (some v')) :
    VarsIn B v' := by
  have hs : ∀ r ∈ sortedPosQueryset cfg.orderBy Row.vals (siblings cfg db v.target) x.vals, r ∈ B ∧ 2 ≤ r.depth := by
    intro r hr
    have := siblings_inner ho.len (ho.rows _ hv.target).1 hv.deep h ((sortedPos_sublist _ _ _ _).mem hr)
    exact ⟨this.1, by rw [this.2]; exact hv.deep⟩
  unfold moveSorted at e
  split at e
  · dsimp only at e
    split at e
    · cases e; exact ⟨hv.target, hv.deep, hv.newdepth, hs⟩
    · split at e
      · cases e
      · split at e
        · split at e
          · cases e
          · split at e
            · cases e
            · cases e; exact ⟨hv.target, hv.deep, hv.newdepth, hs⟩
        · cases e; exact ⟨hv.target, hv.deep, hv.newdepth, hs⟩
  · cases e; exact hv

theorem moveNoop_congr (hl : R.length = cfg.steplen) {v : MoveVars} (ht : R <+: v.target.path) (hd : 2 ≤ v.target.depth)
    (h : treeRows R a = treeRows R b) : moveNoop cfg a x v = moveNoop cfg b x v := by
  unfold moveNoop firstSibling lastSibling
  rw [siblings_congr hl ht hd h]

theorem reorderPlan_congr (hl : R.length = cfg.steplen) (ht : R <+: t.path) (hd : 2 ≤ t.depth) (h : treeRows R a = treeRows R b)
    (pos : Pos) (newpos : Option Int) (newdepth : Nat) (sibs : List Row) (old : List Nat) :
    reorderPlan cfg a pos newpos newdepth t sibs old = reorderPlan cfg b pos newpos newdepth t sibs old := by
  unfold reorderPlan placedPlan tempPlan placeSiblings lastSibling
  rw [siblings_congr hl ht hd h]

/-- inside a tree, the queries see only the tree -/
theorem planMove_congr (ho : OwnTree cfg R B x t) (ha : treeRows R a = B) (hb : treeRows R b = B) {pos : Option Pos} (hin : Inside cfg t pos) :
    planMove cfg a x t pos = planMove cfg b x t pos := by
  have h : treeRows R a = treeRows R b := ha.trans hb.symm
  unfold planMove
  cases hp : preparePosForMove cfg.ordered pos with
  | error e => rfl
  | ok pos0 =>
    dsimp only
    rw [moveToChildVars_congr (ho.rows t ho.target).1 h]
    cases hv : moveToChildVars cfg b x t pos0 with
    | error e => rfl
    | ok v =>
      have h1 := moveToChildVars_inner ho hb (hin _ hp) hv
      have h1p := (ho.rows _ h1.target).1
      dsimp only
      split
      · rfl
      · rw [moveSorted_congr ho.len h1p h1.deep h]
        cases hs : moveSorted cfg b x v with
        | error e => rfl
        | ok v' =>
          cases v' with
          | none => rfl
          | some v' =>
            have h2 := moveSorted_inner ho hb h1 hs
            have h2p := (ho.rows _ h2.target).1
            dsimp only
            rw [moveNoop_congr ho.len h2p h2.deep h, reorderPlan_congr ho.len h2p h2.deep h]

/-! ### What is planned -/

theorem deep_of (ho : OwnTree cfg R B x t) {r : Row} (hr : r ∈ B) (hd : 2 ≤ r.depth) : Deep cfg R r.path := by
  refine ⟨(ho.rows r hr).1, ?_⟩
  rw [(ho.rows r hr).2]
  exact Nat.mul_le_mul_right _ hd

theorem deep_getPath (hl : R.length = cfg.steplen) {p q : List Nat} (h : R <+: p) {d : Nat} (hd : 2 ≤ d) {n : Int}
    (e : getPath cfg p d n = .ok q) : Deep cfg R q := by
  unfold getPath at e
  split at e
  · cases e
  · rename_i key hk
    cases e
    have h1 := basepath_prefix hl h hd
    refine ⟨(h1.trans (List.prefix_append _ _)).trans (List.prefix_append _ _), ?_⟩
    have h2 := h1.length_le
    simp only [List.length_append, pad, List.length_replicate]
    omega

theorem deep_incPath (hp : 1 ≤ cfg.steplen) (hl : R.length = cfg.steplen) {p q : List Nat} (h : Deep cfg R p) (e : incPath cfg p = .ok q) : Deep cfg R q := by
  unfold incPath at e
  split at e
  · cases e
  · split at e
    · cases e
    · rename_i key hk
      split at e
      · cases e
      · cases e
        have h0 := h.2
        have h1 : slice0 p (-(cfg.steplen : Int)) = p.take (p.length - cfg.steplen) := by
          unfold slice0
          rw [if_neg (by omega)]
          congr 2
          omega
        have h2 : R <+: slice0 p (-(cfg.steplen : Int)) := by
          rw [h1]
          exact prefix_take h.1 (by omega)
        refine ⟨(h2.trans (List.prefix_append _ _)).trans (List.prefix_append _ _), ?_⟩
        have h3 := h2.length_le
        simp only [List.length_append, pad, List.length_replicate]
        omega

theorem deep_parent (hl : R.length = cfg.steplen) {p : List Nat} (h : Deep cfg R p) : R <+: parentPathFromPath cfg p := by
  have h2 := h.2
  rw [parentPath_eq (by omega)]
  unfold pp
  exact prefix_take h.1 (by omega)

theorem deep_bump {n inc p : List Nat} (hi : Deep cfg R inc) (h : Deep cfg R p) : Deep cfg R (bump n inc p) := by
  unfold bump
  split
  · refine ⟨hi.1.trans (List.prefix_append _ _), ?_⟩
    have := hi.2
    rw [List.length_append]
    omega
  · exact h

/-- the UPDATEs are inside the tree -/
def DeepUpds (R : List Nat) (us : List Upd) : Prop := ∀ u ∈ us, R <+: u.1 ∧ R <+: u.2

theorem shiftPlan_deep (hp : 1 ≤ cfg.steplen) (hl : R.length = cfg.steplen) : ∀ (l : List Row) {old : List Nat}, (∀ r ∈ l, Deep cfg R r.path) → Deep cfg R old →
    DeepUpds R (shiftPlan cfg l old).1 ∧ ∀ o, (shiftPlan cfg l old).2 = .ok o → Deep cfg R o
  | [], old, _, ho => ⟨by simp [shiftPlan, DeepUpds], fun o e => by cases e; exact ho⟩
  | n :: ns, old, h, ho => by
    unfold shiftPlan
    cases hi : incPath cfg n.path with
    | error e => exact ⟨by simp [DeepUpds], fun o e => by cases e⟩
    | ok inc =>
      have h1 := deep_incPath hp hl (h n (by simp)) hi
      have ih := shiftPlan_deep hp hl ns (fun r hr => h r (List.mem_cons_of_mem _ hr)) (deep_bump (n := n.path) h1 ho)
      refine ⟨?_, ih.2⟩
      intro u hu
      rcases List.mem_cons.1 hu with rfl | hu
      · exact ⟨(h n (by simp)).1, h1.1⟩
      · exact ih.1 u hu

theorem collectShift_sub : ∀ (l : List Row) {prior : List Nat} {m : List Row}, collectShift cfg l prior = .ok m → ∀ r ∈ m, r ∈ l
  | [], _, _, e => by cases e; simp
  | n :: ns, prior, m, e => by
    unfold collectShift at e
    split at e
    · cases e; simp
    · split at e
      · cases e
      · split at e
        · cases e
        · rename_i hm
          cases e
          intro r hr
          rcases List.mem_cons.1 hr with rfl | hr
          · simp
          · exact List.mem_cons_of_mem _ (collectShift_sub ns hm r hr)

theorem tempPlan_deep (hl : R.length = cfg.steplen) {sibs : List Row} {d : Nat} {old new : List Nat} (hd : 2 ≤ d) (hn : R <+: new)
    {temp : Option (List Nat)} (e : tempPlan cfg db t sibs d old new = .ok temp) : ∀ p ∈ temp, Deep cfg R p := by
  unfold tempPlan at e
  repeat' split at e
  all_goals cases e
  · rename_i hg
    intro p hp'
    cases hp'
    exact deep_getPath hl hn hd hg
  · simp

/-- a plan inside the tree -/
def DeepPlan (cfg : Cfg) (R : List Nat) (plan : List Upd × Except Err (List Nat × List Nat)) : Prop :=
  DeepUpds R plan.1 ∧ ∀ o n, plan.2 = .ok (o, n) → Deep cfg R o ∧ Deep cfg R n

theorem placedPlan_deep (hp : 1 ≤ cfg.steplen) (hl : R.length = cfg.steplen) {d : Nat} (hd : 2 ≤ d) (ht : R <+: t.path) {old : List Nat} (hold : Deep cfg R old)
    {n : Int} {sibs : List Row} (hs : ∀ r ∈ sibs, Deep cfg R r.path) : DeepPlan cfg R (placedPlan cfg db d t old n sibs) := by
  have nil : ∀ e : Err, DeepPlan cfg R (([] : List Upd), Except.error e) := fun e => ⟨by simp [DeepUpds], fun _ _ h => by cases h⟩
  unfold placedPlan
  split
  · exact nil _
  · rename_i new hnew
    have hn := deep_getPath hl ht hd hnew
    split
    · exact nil _
    · rename_i temp htemp
      have h1 := tempPlan_deep hl hd hn.1 htemp
      have h2 : DeepUpds R (temp.toList.map fun t => (old, t)) := by
        intro u hu
        obtain ⟨p, hp', rfl⟩ := List.mem_map.1 hu
        exact ⟨hold.1, (h1 p (by simpa using hp')).1⟩
      split
      · exact ⟨h2, fun _ _ h => by cases h⟩
      · rename_i moves hm
        have h3 := shiftPlan_deep hp hl moves.reverse (fun r hr => hs r (collectShift_sub _ hm r (List.mem_reverse.1 hr))) hold
        split
        · rename_i us e he
          rw [he] at h3
          refine ⟨fun u hu => ?_, fun _ _ h => by cases h⟩
          rcases List.mem_append.1 hu with hu | hu
          · exact h2 u hu
          · exact h3.1 u hu
        · rename_i us old' he
          rw [he] at h3
          have ho' := h3.2 old' rfl
          refine ⟨fun u hu => ?_, fun _ _ h => by cases h; exact ⟨ho', hn⟩⟩
          rcases List.mem_append.1 hu with hu | hu
          · rcases List.mem_append.1 hu with hu | hu
            · exact h2 u hu
            · exact h3.1 u hu
          · rw [List.mem_singleton.1 hu]
            refine ⟨?_, hn.1⟩
            cases temp with
            | none => exact ho'.1
            | some p => exact (h1 p rfl).1

theorem placeSiblings_sub {pos : Pos} {n : Int} {sibs : List Row} (e : placeSiblings cfg db pos t = .ok (n, sibs)) : ∀ r ∈ sibs, r ∈ siblings cfg db t := by
  unfold placeSiblings at e
  split at e
  · cases e
  · dsimp only at e
    split at e
    · cases e; exact fun r hr => (List.mem_filter.1 hr).1
    · cases e; exact fun r hr => (List.mem_filter.1 hr).1
    · cases e; exact fun r hr => hr
    · cases e

theorem reorderPlan_deep (ho : OwnTree cfg R B x t) (h : treeRows R db = B) {v : MoveVars} (hv : VarsIn B v) {old : List Nat} (hold : Deep cfg R old) :
    DeepPlan cfg R (reorderPlan cfg db v.pos v.newpos v.newdepth v.target v.sibs old) := by
  have nil : ∀ e : Err, DeepPlan cfg R (([] : List Upd), Except.error e) := fun e => ⟨by simp [DeepUpds], fun _ _ h => by cases h⟩
  have htp := (ho.rows _ hv.target).1
  have hsib : ∀ r ∈ siblings cfg db v.target, Deep cfg R r.path := by
    intro r hr
    have := siblings_inner ho.len htp hv.deep h hr
    exact deep_of ho this.1 (by rw [this.2]; exact hv.deep)
  unfold reorderPlan
  split
  · split
    · exact nil _
    · rename_i last hlast
      split
      · exact nil _
      · rename_i new hnew
        have := deep_incPath ho.pos ho.len (hsib last (List.mem_of_getLast? hlast)) hnew
        refine ⟨fun u hu => ?_, fun _ _ h => by cases h; exact ⟨hold, this⟩⟩
        rw [List.mem_singleton.1 hu]
        exact ⟨hold.1, this.1⟩
  · split
    · exact placedPlan_deep ho.pos ho.len hv.newdepth htp hold (fun r hr => deep_of ho (hv.sibs r hr).1 (hv.sibs r hr).2)
    · split
      · exact nil _
      · rename_i hq
        exact placedPlan_deep ho.pos ho.len hv.newdepth htp hold (fun r hr => hsib r (placeSiblings_sub hq r hr))

/-- what the variables of a call inside a tree can be -/
def InTree (cfg : Cfg) (R : List Nat) (k : Nat → Prop) : CallVars → Prop
  | .start => True
  | .planned us fin vt _ => DeepPlan cfg R (us, fin) ∧ k vt.pk
  | .moved o n vt _ => Deep cfg R o ∧ Deep cfg R n ∧ k vt.pk
  | .over _ _ => True

theorem planMove_inner (ho : OwnTree cfg R B x t) (h : treeRows R db = B) {pos : Option Pos} (hin : Inside cfg t pos) {k : Nat → Prop}
    (hk : ∀ r ∈ B, k r.pk) {l : CallVars} (e : planMove cfg db x t pos = .ok l) : InTree cfg R k l ∧ l ≠ .start := by
  unfold planMove at e
  split at e
  · cases e
  · rename_i pos0 hp
    split at e
    · cases e
    · rename_i v hv
      have h1 := moveToChildVars_inner ho h (hin _ hp) hv
      dsimp only at e
      split at e
      · cases e
      · rename_i hnd
        have hx : 2 ≤ x.depth := by
          by_contra hd
          refine hnd ?_
          obtain ⟨x1, x2⟩ := ho.rows x ho.node
          have hp := ho.pos
          have h3 : x.depth * cfg.steplen ≤ 1 * cfg.steplen := Nat.mul_le_mul_right _ (by omega)
          have h4 : R = x.path := x1.eq_of_length_le (by rw [x2, ho.len]; omega)
          unfold Row.isDescendantOf
          rw [Bool.and_eq_true, List.isPrefixOf_iff_prefix]
          refine ⟨h4 ▸ (ho.rows _ h1.target).1, ?_⟩
          have := h1.deep
          simp only [gt_iff_lt, decide_eq_true_eq]
          omega
        split at e
        · cases e
        · cases e; exact ⟨trivial, nofun⟩
        · rename_i v' hs
          have h2 := moveSorted_inner ho h h1 hs
          split at e
          · cases e; exact ⟨trivial, nofun⟩
          · cases e
            exact ⟨⟨reorderPlan_deep ho h h2 (deep_of ho ho.node hx), hk _ h2.target⟩, nofun⟩

end

/-! ### What is written -/

section
variable {cfg : Cfg} {ι : Type} {R : ι → List Nat} {K : ι → Nat → Prop}

theorem within_upd {R : List Nat} {u : Upd} (h : R <+: u.1 ∧ R <+: u.2) : Parts.Within DB.rows Row.pk (inTree R) (u.apply cfg) := by
  refine ⟨newpathRow cfg u.1 u.2, fun _ => rfl, fun r hr => ?_, fun r hr => ?_⟩
  · unfold newpathRow
    rw [if_neg]
    rw [List.isPrefixOf_iff_prefix]
    intro hp
    unfold inTree at hr
    rw [List.isPrefixOf_iff_prefix.2 (h.1.trans hp)] at hr
    cases hr
  · unfold newpathRow
    split
    · refine ⟨?_, rfl⟩
      unfold inTree
      rw [List.isPrefixOf_iff_prefix]
      exact h.2.trans (List.prefix_append _ _)
    · exact ⟨hr, rfl⟩

theorem within_upds {R : List Nat} : ∀ {us : List Upd}, DeepUpds R us → Parts.Within DB.rows Row.pk (inTree R) (applyUpds cfg us)
  | [], _ => Parts.within_id
  | u :: us, h => (within_upd (h u (by simp))).comp (within_upds (us := us) (fun v hv => h v (List.mem_cons_of_mem _ hv)))

theorem within_num {R p : List Nat} (h : R <+: p) (k : Int) : Parts.Within DB.rows Row.pk (inTree R) (fun db => addNumchild db p k) := by
  refine ⟨fun r => if r.path == p then { r with numchild := r.numchild + k } else r, fun _ => rfl, fun r hr => ?_, fun r hr => ?_⟩
  · dsimp only
    rw [if_neg]
    intro e
    unfold inTree at hr
    rw [List.isPrefixOf_iff_prefix.2 (by rw [beq_iff_eq.1 e]; exact h)] at hr
    cases hr
  · dsimp only
    split
    · exact ⟨hr, rfl⟩
    · exact ⟨hr, rfl⟩

theorem nodup_of_unique {l : List Row} (h : uniquePaths l = true) : (l.map Row.path).Nodup := of_decide_eq_true h

/-- the paths of the table are unique -/
def Uniq (db : DB) : Prop := (db.rows.map Row.path).Nodup

/-- an UPDATE inside a tree keeps the paths of the table unique iff it keeps those of the tree unique -/
theorem uniq_upd {R : List Nat} {u : Upd} (h : R <+: u.1 ∧ R <+: u.2) {db : DB} (hn : Uniq db) :
    uniquePaths (db.rows.map (newpathRow cfg u.1 u.2)) = uniquePaths ((treeRows R db).map (newpathRow cfg u.1 u.2)) := by
  obtain ⟨f, h1, h2, h3⟩ := within_upd (cfg := cfg) h
  have hf : db.rows.map f = db.rows.map (newpathRow cfg u.1 u.2) := (h1 db).symm
  have hall : ∀ r, f r = newpathRow cfg u.1 u.2 r := by
    intro r
    have := h1 { rows := [r] }
    simpa [Upd.apply] using this.symm
  have hff : f = newpathRow cfg u.1 u.2 := funext hall
  subst hff
  unfold uniquePaths
  congr 1
  exact propext (Parts.nodup_within (col := Row.path) (c := fun p => R.isPrefixOf p) (fun _ => rfl) h2 (fun r hr => (h3 r hr).1) hn)

theorem uniq_num {p : List Nat} {k : Int} {db : DB} (hn : Uniq db) : Uniq (addNumchild db p k) := by
  unfold Uniq addNumchild at *
  rw [List.map_map]
  have : (Row.path ∘ fun r : Row => if (r.path == p) = true then { r with numchild := r.numchild + k } else r) = Row.path := by
    funext r
    simp only [Function.comp]
    split <;> rfl
  rw [this]
  exact hn

/-- the UPDATEs of a call inside a tree raise or not whatever the other trees are -/
theorem execUpds_congr {R : List Nat} : ∀ {us : List Upd}, DeepUpds R us → ∀ {a b : DB}, Uniq a → Uniq b → treeRows R a = treeRows R b →
    (∃ e, execUpds cfg us a = .error e ∧ execUpds cfg us b = .error e) ∨
    (execUpds cfg us a = .ok (applyUpds cfg us a) ∧ execUpds cfg us b = .ok (applyUpds cfg us b) ∧ Uniq (applyUpds cfg us a) ∧ Uniq (applyUpds cfg us b))
  | [], _, a, b, ha, hb, _ => Or.inr ⟨rfl, rfl, ha, hb⟩
  | u :: us, h, a, b, ha, hb, hab => by
    have hu := h u (by simp)
    simp only [execUpds]
    rw [setNewpath_eq, setNewpath_eq]
    by_cases hq : uniquePaths (a.rows.map (newpathRow cfg u.1 u.2)) = true
    · have hq' : uniquePaths (b.rows.map (newpathRow cfg u.1 u.2)) = true := by rw [uniq_upd hu hb, ← hab, ← uniq_upd hu ha]; exact hq
      rw [if_pos hq, if_pos hq']
      refine execUpds_congr (us := us) (fun v hv => h v (List.mem_cons_of_mem _ hv)) (a := u.apply cfg a) (b := u.apply cfg b) ?_ ?_ ((within_upd hu).own hab)
      · exact nodup_of_unique hq
      · exact nodup_of_unique hq'
    · have hq' : ¬ uniquePaths (b.rows.map (newpathRow cfg u.1 u.2)) = true := by rw [uniq_upd hu hb, ← hab, ← uniq_upd hu ha]; exact hq
      rw [if_neg hq, if_neg hq']
      exact Or.inl ⟨_, rfl, rfl⟩

/-- what the statements of a call rely on -/
structure Relies (cfg : Cfg) (R : ι → List Nat) (K : ι → Nat → Prop) (i : ι) (B : List Row) (x : Row) (l : CallVars) (db : DB) : Prop where
  keyed : Parts.Keyed DB.rows Row.pk (fun i => inTree (R i)) K db
  uniq : Uniq db
  vars : InTree cfg (R i) (K i) l
  node : K i x.pk
  begin_ : l = .start → treeRows (R i) db = B

variable {B : List Row} {x t : Row}

theorem local_of {i : ι} (hR : Parts.Disjoint (fun i => inTree (R i))) {st : Stmt DB CallVars}
    (hr : ∀ a b l, Relies cfg R K i B x l a → Relies cfg R K i B x l b → treeRows (R i) a = treeRows (R i) b → st a l = st b l)
    (hw : ∀ a l u l', Relies cfg R K i B x l a → st a l = .ok (u, l') → (u = id ∧ l' = l) ∨
      (Parts.Within DB.rows Row.pk (inTree (R i)) u ∧ InTree cfg (R i) (K i) l' ∧ l' ≠ .start ∧ ∀ b, Relies cfg R K i B x l b → treeRows (R i) b = treeRows (R i) a →
        Uniq (u b))) :
    Local (Relies cfg R K i B x) (treeRows (R i)) (fun X => ∃ j, j ≠ i ∧ X = treeRows (R j)) st := by
  refine ⟨hr, fun a l u l' ha he b hb hab => ?_⟩
  rcases hw a l u l' ha he with ⟨rfl, rfl⟩ | ⟨h1, h2, h3, h4⟩
  · exact ⟨hb, hab, fun _ _ => rfl⟩
  · refine ⟨⟨h1.keyed hR hb.keyed, h4 b hb hab, h2, hb.node, fun e => absurd e h3⟩, h1.own hab, ?_⟩
    rintro X ⟨j, hj, rfl⟩
    refine h1.frame (fun r hri => ?_) b
    cases hrj : inTree (R j) r with
    | false => rfl
    | true => exact absurd (hR i j r hri hrj) (fun e => hj e.symm)

/-- Every statement of a `move` inside a tree is local to the tree. -/
theorem moveClient_local (key n : Nat) {i : ι} (hR : Parts.Disjoint (fun i => inTree (R i))) {pos : Option Pos} (ho : OwnTree cfg (R i) B x t)
    (hB : ∀ r ∈ B, K i r.pk) (hin : Inside cfg t pos) :
    (moveClient cfg key n x t pos).Local (Relies cfg R K i B x) (treeRows (R i)) (fun X => ∃ j, j ≠ i ∧ X = treeRows (R j)) := by
  intro st hst
  have hst : st = stPlan cfg x t pos ∨ st = stNext cfg ∨ st = stRest cfg ∨ st = stOld cfg ∨ st = stNew cfg ∨ st = stResult x t := by
    simp only [moveClient, lastStmts, List.mem_cons, List.mem_append, List.mem_replicate, List.not_mem_nil, or_false] at hst
    rcases hst with h | ⟨-, h⟩ | h | h | h | h
    · exact Or.inl h
    · exact Or.inr (Or.inl h)
    · exact Or.inr (Or.inr (Or.inl h))
    · exact Or.inr (Or.inr (Or.inr (Or.inl h)))
    · exact Or.inr (Or.inr (Or.inr (Or.inr (Or.inl h))))
    · exact Or.inr (Or.inr (Or.inr (Or.inr (Or.inr h))))
  rcases hst with rfl | rfl | rfl | rfl | rfl | rfl
  · refine local_of hR (fun a b l ha hb hab => ?_) (fun a l u l' ha he => ?_)
    · cases l with
      | start =>
        unfold stPlan
        dsimp only
        rw [planMove_congr ho (ha.begin_ rfl) (hb.begin_ rfl) hin]
      | _ => rfl
    · cases l with
      | start =>
        unfold stPlan at he
        dsimp only at he
        split at he
        · cases he
        · rename_i hp
          cases he
          obtain ⟨h1, h2⟩ := planMove_inner ho (ha.begin_ rfl) hin hB hp
          exact Or.inr ⟨Parts.within_id, h1, h2, fun b hb _ => hb.uniq⟩
      | _ => cases he; exact Or.inl ⟨rfl, rfl⟩
  · refine local_of hR (fun a b l ha hb hab => ?_) (fun a l u l' ha he => ?_)
    · cases l with
      | planned us fin vt t' =>
        cases us with
        | nil => rfl
        | cons u us =>
          have hu := ha.vars.1.1 u (by simp)
          unfold stNext
          dsimp only
          rw [setNewpath_eq, setNewpath_eq, uniq_upd hu ha.uniq, uniq_upd hu hb.uniq, hab]
          by_cases hq : uniquePaths ((treeRows (R i) b).map (newpathRow cfg u.1 u.2)) = true
          · rw [if_pos hq, if_pos hq]
          · rw [if_neg hq, if_neg hq]
      | _ => rfl
    · cases l with
      | planned us fin vt t' =>
        cases us with
        | nil => cases he; exact Or.inl ⟨rfl, rfl⟩
        | cons v us =>
          have hu := ha.vars.1.1 v (by simp)
          unfold stNext at he
          dsimp only at he
          rw [setNewpath_eq] at he
          by_cases hq : uniquePaths (a.rows.map (newpathRow cfg v.1 v.2)) = true
          · rw [if_pos hq] at he
            cases he
            refine Or.inr ⟨within_upd hu, ⟨⟨fun w hw => ha.vars.1.1 w (List.mem_cons_of_mem _ hw), ha.vars.1.2⟩, ha.vars.2⟩, nofun, fun b hb hab => ?_⟩
            rw [uniq_upd hu ha.uniq, ← hab, ← uniq_upd hu hb.uniq] at hq
            exact nodup_of_unique hq
          · rw [if_neg hq] at he; cases he
      | _ => cases he; exact Or.inl ⟨rfl, rfl⟩
  · refine local_of hR (fun a b l ha hb hab => ?_) (fun a l u l' ha he => ?_)
    · cases l with
      | planned us fin vt t' =>
        unfold stRest
        dsimp only
        rcases execUpds_congr (cfg := cfg) ha.vars.1.1 ha.uniq hb.uniq hab with ⟨e, h1, h2⟩ | ⟨h1, h2, -, -⟩
        · rw [h1, h2]
        · rw [h1, h2]
      | _ => rfl
    · cases l with
      | planned us fin vt t' =>
        unfold stRest at he
        dsimp only at he
        rcases execUpds_congr (cfg := cfg) ha.vars.1.1 ha.uniq ha.uniq rfl with ⟨e, h1, h2⟩ | ⟨h1, h2, -, -⟩
        · rw [h1] at he; cases he
        · rw [h1] at he
          cases fin with
          | error e => cases he
          | ok on =>
            cases he
            have hd := ha.vars.1.2 on.1 on.2 rfl
            refine Or.inr ⟨within_upds ha.vars.1.1, ⟨hd.1, hd.2, ha.vars.2⟩, nofun, fun b hb hab => ?_⟩
            rcases execUpds_congr (cfg := cfg) ha.vars.1.1 ha.uniq hb.uniq hab.symm with ⟨e, g1, g2⟩ | ⟨-, -, -, g⟩
            · rw [h1] at g1; cases g1
            · exact g
      | _ => cases he; exact Or.inl ⟨rfl, rfl⟩
  · refine local_of hR (fun a b l ha hb hab => by cases l <;> rfl) (fun a l u l' ha he => ?_)
    cases l with
    | moved o n vt t' =>
      cases he
      refine Or.inr ⟨?_, ha.vars, nofun, fun b hb _ => ?_⟩
      · by_cases hc : parentPathFromPath cfg o ≠ parentPathFromPath cfg n ∧ parentPathFromPath cfg o ≠ []
        · simp only [if_pos hc]
          exact within_num (deep_parent ho.len ha.vars.1) _
        · simp only [if_neg hc]
          exact Parts.within_id
      · dsimp only
        split
        · exact uniq_num hb.uniq
        · exact hb.uniq
    | _ => cases he; exact Or.inl ⟨rfl, rfl⟩
  · refine local_of hR (fun a b l ha hb hab => by cases l <;> rfl) (fun a l u l' ha he => ?_)
    cases l with
    | moved o n vt t' =>
      cases he
      refine Or.inr ⟨?_, ha.vars, nofun, fun b hb _ => ?_⟩
      · by_cases hc : parentPathFromPath cfg o ≠ parentPathFromPath cfg n ∧ parentPathFromPath cfg n ≠ []
        · simp only [if_pos hc]
          exact within_num (deep_parent ho.len ha.vars.2.1) _
        · simp only [if_neg hc]
          exact Parts.within_id
      · dsimp only
        split
        · exact uniq_num hb.uniq
        · exact hb.uniq
    | _ => cases he; exact Or.inl ⟨rfl, rfl⟩
  · refine local_of hR (fun a b l ha hb hab => ?_) (fun a l u l' ha he => ?_)
    · cases l with
      | moved o n vt t' =>
        have h1 : a.get? x.pk = b.get? x.pk := Parts.find?_congr ha.keyed hb.keyed hab ha.node
        have h2 : a.get? vt.pk = b.get? vt.pk := Parts.find?_congr ha.keyed hb.keyed hab ha.vars.2.2
        unfold stResult
        dsimp only
        rw [h1, h2]
      | _ => rfl
    · cases l with
      | moved o n vt t' =>
        unfold stResult at he
        dsimp only at he
        split at he
        · cases he; exact Or.inr ⟨Parts.within_id, trivial, nofun, fun b hb _ => hb.uniq⟩
        · cases he
      | _ => cases he; exact Or.inl ⟨rfl, rfl⟩

end

end Verif.MP
