/-
MP: the statements that change several rows, executed by another database engine than that of Model.lean.

Model.lean executes an UPDATE in one go and then looks at the unique index; a text begins with a prefix if its characters do; and it does not know that
`numchild` is a PositiveIntegerField.  The functions here are those of Model.lean with the two statements as a parameter.
-/
import Verif.MP.Reorder

namespace Verif.MP

/-- How the database executes the two statements. -/
structure Engine where
  /-- the UPDATE of `_set_newpath_in_branches` (mp_tree.py:837-865): table, old path, new path -/
  rename : DB → List Nat → List Nat → Except Err DB
  /-- `filter(path=path).update(numchild=F("numchild") + k)` (mp_tree.py:752-756) -/
  count : DB → List Nat → Int → Except Err DB

/-- the engine of Model.lean -/
def Engine.plain (cfg : Cfg) : Engine := ⟨setNewpath cfg, fun db p k => .ok (addNumchild db p k)⟩

/-- mp_tree.py:816-831, as `shiftLoop` -/
def shiftLoopE (en : Engine) (cfg : Cfg) : List Row → DB → Option (List Nat) → Except Err (DB × Option (List Nat))
  | [], db, oldpath => .ok (db, oldpath)
  | n :: ns, db, oldpath =>
    match incPath cfg n.path with
    | .error e => .error e
    | .ok inc =>
      match en.rename db n.path inc with
      | .error e => .error e
      | .ok db => shiftLoopE en cfg ns db (oldpath.map (bump n.path inc))

/-- mp_tree.py:790-798, as `moveToTemp` -/
def moveToTempE (en : Engine) (cfg : Cfg) (db : DB) (target : Row) (sibs : List Row) (newdepth : Nat)
    (oldpath newpath : List Nat) : Except Err (DB × Option (List Nat)) :=
  if oldpath.length = newpath.length
      ∧ basepath cfg oldpath ((oldpath.length / cfg.steplen : Nat) - 1) = basepath cfg newpath ((newdepth : Int) - 1)
      ∧ sibs ≠ [] ∧ newpath < oldpath then
    match lastSibling cfg db target with
    | none => .error .attributeError
    | some last =>
      match lastpos cfg last.path with
      | .error e => .error e
      | .ok basenum =>
        match getPath cfg newpath newdepth ((basenum : Int) + 2) with
        | .error e => .error e
        | .ok temp =>
          match en.rename db oldpath temp with
          | .error e => .error e
          | .ok db => .ok (db, some temp)
  else .ok (db, none)

/-- mp_tree.py:775-783: the new position and the siblings behind it -/
def placeE (cfg : Cfg) (db : DB) (pos : Pos) (newpos : Option Int) (target : Row) (sibs : List Row) : Except Err (Int × List Row) :=
  match newpos with
  | some n => .ok (n, sibs)
  | none => placeSiblings cfg db pos target

/-- mp_tree.py:790-798: nothing to do without a branch to move -/
def tempE (en : Engine) (cfg : Cfg) (db : DB) (target : Row) (sibs : List Row) (newdepth : Nat) (oldpath : Option (List Nat))
    (newpath : List Nat) : Except Err (DB × Option (List Nat)) :=
  match oldpath with
  | none => .ok (db, none)
  | some old => moveToTempE en cfg db target sibs newdepth old newpath

/-- mp_tree.py:758-835, as `reorder` -/
def reorderE (en : Engine) (cfg : Cfg) (db : DB) (pos : Pos) (newpos : Option Int) (newdepth : Nat) (target : Row)
    (sibs : List Row) (oldpath : Option (List Nat)) :
    Except Err (DB × Option (List Nat) × List Nat) :=
  if pos = .lastSibling ∨ (pos = .right ∧ sameNode target (lastSibling cfg db target)) then
    match lastSibling cfg db target with
    | none => .error .attributeError
    | some last =>
      match incPath cfg last.path with
      | .error e => .error e
      | .ok newpath =>
        match oldpath with
        | none => .ok (db, none, newpath)
        | some old =>
          match en.rename db old newpath with
          | .error e => .error e
          | .ok db => .ok (db, some old, newpath)
  else
    match placeE cfg db pos newpos target sibs with
    | .error e => .error e
    | .ok (newpos, sibs) =>
      match getPath cfg target.path newdepth newpos with
      | .error e => .error e
      | .ok newpath =>
        match tempE en cfg db target sibs newdepth oldpath newpath with
        | .error e => .error e
        | .ok (db, temp) =>
          match collectShift cfg sibs newpath with
          | .error e => .error e
          | .ok moves =>
            match shiftLoopE en cfg moves.reverse db oldpath with
            | .error e => .error e
            | .ok (db, oldpath) =>
              match oldpath with
              | none => .ok (db, none, newpath)
              | some old =>
                match en.rename db (temp.getD old) newpath with
                | .error e => .error e
                | .ok db => .ok (db, some old, newpath)

/-- mp_tree.py:469-478, as `finishAddSibling` -/
def finishAddSiblingE (en : Engine) (cfg : Cfg) (db : DB) (newdepth : Nat) (newpath : List Nat) (new : Row) :
    Except Err (DB × Row) :=
  let parentpath := basepath cfg newpath ((newdepth : Int) - 1)
  match (if parentpath ≠ [] then en.count db parentpath 1 else .ok db) with
  | .error e => .error e
  | .ok db =>
    let newobj := { new with path := newpath, depth := newdepth }
    match save db newobj with
    | .error e => .error e
    | .ok db => .ok (db, newobj)

/-- mp_tree.py:436-478, as `addSibling` -/
def addSiblingE (en : Engine) (cfg : Cfg) (db : DB) (target : Row) (pos : Option Pos) (new : Row) :
    Except Err (DB × Row) :=
  match preparePosForAddSibling cfg.ordered pos with
  | .error e => .error e
  | .ok pos =>
    match (if pos = .sortedSibling then sortedPos cfg (siblings cfg db target) new
           else Except.ok (pos, none, [])) with
    | .error e => .error e
    | .ok (pos, newpos, sibs) =>
      match reorderE en cfg db pos newpos target.depth target sibs none with
      | .error e => .error e
      | .ok (db, _, newpath) => finishAddSiblingE en cfg db target.depth newpath new

/-- mp_tree.py:339-381, as `addRoot` -/
def addRootE (en : Engine) (cfg : Cfg) (db : DB) (new : Row) : Except Err (DB × Row) :=
  match lastRootNode db with
  | some lastRoot =>
    if cfg.ordered then addSiblingE en cfg db lastRoot (some .sortedSibling) new
    else
      match incPath cfg lastRoot.path with
      | .error e => .error e
      | .ok newpath =>
        let newobj := { new with path := newpath, depth := 1 }
        match save db newobj with
        | .error e => .error e
        | .ok db => .ok (db, newobj)
  | none =>
    match getPath cfg [] 1 1 with
    | .error e => .error e
    | .ok newpath =>
      let newobj := { new with path := newpath, depth := 1 }
      match save db newobj with
      | .error e => .error e
      | .ok db => .ok (db, newobj)

/-- mp_tree.py:383-434, as `addChild` -/
def addChildE (en : Engine) (cfg : Cfg) (db : DB) (target : Row) (new : Row) : Except Err (DB × Row × Row) :=
  match db.get? target.pk with
  | none => .error .doesNotExist
  | some node =>
    if cfg.ordered = true ∧ node.isLeaf = false then
      match lastChild cfg db node with
      | none => .error .attributeError
      | some last =>
        match addSiblingE en cfg db last (some .sortedSibling) new with
        | .error e => .error e
        | .ok (db, newobj) => .ok (db, newobj, { target with numchild := target.numchild + 1 })
    else
      match newChildPath cfg db node with
      | .error e => .error e
      | .ok p =>
        let newobj := { new with path := p, depth := node.depth + 1 }
        let db := incNumchildPk db node.pk
        let target := { target with numchild := node.numchild + 1 }
        match save db newobj with
        | .error e => .error e
        | .ok db => .ok (db, newobj, target)

/-- mp_tree.py:536-547, as `updateParentCounts` -/
def updateParentCountsE (en : Engine) (cfg : Cfg) (db : DB) (oldpath newpath : List Nat) : Except Err DB :=
  let oldparent := parentPathFromPath cfg oldpath
  let newparent := parentPathFromPath cfg newpath
  if oldparent ≠ newparent then
    match (if oldparent ≠ [] then en.count db oldparent (-1) else .ok db) with
    | .error e => .error e
    | .ok db => if newparent ≠ [] then en.count db newparent 1 else .ok db
  else .ok db

/-- mp_tree.py:532-534, as `finishMove` -/
def finishMoveE (en : Engine) (cfg : Cfg) (db : DB) (node vtarget target target' : Row) (oldpath newpath : List Nat) :
    Except Err MoveResult :=
  match updateParentCountsE en cfg db oldpath newpath with
  | .error e => .error e
  | .ok db =>
    match db.get? node.pk, db.get? vtarget.pk with
    | some node', some t' => .ok ⟨db, node', if vtarget.pk = target.pk then t' else target'⟩
    | _, _ => .error .doesNotExist

/-- mp_tree.py:513-534, as `moveTo` -/
def moveToE (en : Engine) (cfg : Cfg) (db : DB) (node target target' : Row) (v : MoveVars) : Except Err MoveResult :=
  if moveNoop cfg db node v then .ok ⟨db, node, target'⟩
  else
    match reorderE en cfg db v.pos v.newpos v.newdepth v.target v.sibs (some node.path) with
    | .error e => .error e
    | .ok (db, oldpath, newpath) => finishMoveE en cfg db node v.target target target' (oldpath.getD []) newpath

/-- mp_tree.py:480-534, as `move` -/
def moveE (en : Engine) (cfg : Cfg) (db : DB) (node target : Row) (pos : Option Pos) : Except Err MoveResult :=
  match preparePosForMove cfg.ordered pos with
  | .error e => .error e
  | .ok pos =>
    match moveToChildVars cfg db node target pos with
    | .error e => .error e
    | .ok v =>
      let target' := if isChildPos pos then { target with numchild := target.numchild + 1 } else target
      if v.target.isDescendantOf node then .error .invalidMoveToDescendant
      else
        match moveSorted cfg db node v with
        | .error e => .error e
        | .ok none => .ok ⟨db, node, target'⟩
        | .ok (some v) => moveToE en cfg db node target target' v

/-! ### Where the functions agree with those of Model.lean -/

variable {en : Engine} {cfg : Cfg}

theorem shiftLoopE_plain (l : List Row) : ∀ (db : DB) (old : Option (List Nat)), shiftLoopE (.plain cfg) cfg l db old = shiftLoop cfg l db old := by
  induction l with
  | nil => intros; rfl
  | cons n l ih =>
    intro db old
    rw [shiftLoopE, shiftLoop]
    cases incPath cfg n.path with
    | error e => rfl
    | ok inc =>
      simp only [Engine.plain]
      cases setNewpath cfg db n.path inc with
      | error e => rfl
      | ok db => exact ih db _

theorem reorderE_plain (db : DB) (pos : Pos) (newpos : Option Int) (newdepth : Nat) (target : Row) (sibs : List Row) (old : Option (List Nat)) :
    reorderE (.plain cfg) cfg db pos newpos newdepth target sibs old = reorder cfg db pos newpos newdepth target sibs old := by
  unfold reorderE reorder
  simp only [shiftLoopE_plain]
  cases newpos <;> cases old <;> rfl

theorem finishAddSiblingE_plain (db : DB) (newdepth : Nat) (newpath : List Nat) (new : Row) :
    finishAddSiblingE (.plain cfg) cfg db newdepth newpath new = finishAddSibling cfg db newdepth newpath new := by
  unfold finishAddSiblingE finishAddSibling Engine.plain
  simp only
  by_cases h : basepath cfg newpath ((newdepth : Int) - 1) ≠ [] <;> simp [h] <;> rfl

theorem updateParentCountsE_plain (db : DB) (oldpath newpath : List Nat) :
    updateParentCountsE (.plain cfg) cfg db oldpath newpath = .ok (updateParentCounts cfg db oldpath newpath) := by
  unfold updateParentCountsE updateParentCounts Engine.plain
  simp only
  split
  · by_cases h1 : parentPathFromPath cfg oldpath ≠ [] <;> by_cases h2 : parentPathFromPath cfg newpath ≠ [] <;> simp [h1, h2]
  · rfl

/-- with the engine of Model.lean, the functions are those of Model.lean -/
theorem addSiblingE_plain (db : DB) (target : Row) (pos : Option Pos) (new : Row) :
    addSiblingE (.plain cfg) cfg db target pos new = addSibling cfg db target pos new := by
  unfold addSiblingE addSibling
  simp only [reorderE_plain, finishAddSiblingE_plain]
  rfl

theorem moveE_plain (db : DB) (node target : Row) (pos : Option Pos) :
    moveE (.plain cfg) cfg db node target pos = move cfg db node target pos := by
  unfold moveE move moveToE moveTo finishMoveE finishMove
  simp only [reorderE_plain, updateParentCountsE_plain]
  rfl

/-! ### Where another engine does the same -/

/-- A condition that holds before the loop, makes the engine do what Model.lean does, and is kept by each step. -/
theorem shiftLoopE_eq {K : DB → Option (List Nat) → Prop} {l : List Row}
    (hstep : ∀ n ∈ l, ∀ db old inc, K db old → incPath cfg n.path = .ok inc → en.rename db n.path inc = setNewpath cfg db n.path inc ∧
      ∀ db', setNewpath cfg db n.path inc = .ok db' → K db' (old.map (bump n.path inc))) :
    ∀ (db : DB) (old : Option (List Nat)), K db old → shiftLoopE en cfg l db old = shiftLoop cfg l db old ∧
      ∀ db' old', shiftLoop cfg l db old = .ok (db', old') → K db' old' := by
  induction l with
  | nil =>
    intro db old hk
    refine ⟨rfl, fun db' old' h => ?_⟩
    simp only [shiftLoop, Except.ok.injEq, Prod.mk.injEq] at h
    rw [← h.1, ← h.2]; exact hk
  | cons n l ih =>
    intro db old hk
    rw [shiftLoopE, shiftLoop]
    cases e : incPath cfg n.path with
    | error e => exact ⟨rfl, fun _ _ h => by cases h⟩
    | ok inc =>
      obtain ⟨h1, h2⟩ := hstep n (by simp) db old inc hk e
      simp only [h1]
      cases e' : setNewpath cfg db n.path inc with
      | error e => exact ⟨rfl, fun _ _ h => by cases h⟩
      | ok db1 => exact ih (fun n hn => hstep n (by simp [hn])) db1 _ (h2 db1 e')

theorem addSiblingE_eq {db : DB} {target : Row} {pos : Option Pos} {new : Row}
    (hr : ∀ pos newpos sibs, (∀ s ∈ sibs, s ∈ siblings cfg db target) → reorderE en cfg db pos newpos target.depth target sibs none =
      reorder cfg db pos newpos target.depth target sibs none)
    (hc : ∀ pos newpos sibs db' o np, (∀ s ∈ sibs, s ∈ siblings cfg db target) →
      reorder cfg db pos newpos target.depth target sibs none = .ok (db', o, np) → ∀ p, en.count db' p 1 = .ok (addNumchild db' p 1)) :
    addSiblingE en cfg db target pos new = addSibling cfg db target pos new := by
  unfold addSiblingE addSibling
  cases preparePosForAddSibling cfg.ordered pos with
  | error e => rfl
  | ok pos =>
    simp only
    have hs : ∀ pos' newpos sibs, (if pos = .sortedSibling then sortedPos cfg (siblings cfg db target) new else Except.ok (pos, none, [])) =
        .ok (pos', newpos, sibs) → ∀ s ∈ sibs, s ∈ siblings cfg db target := by
      intro pos' newpos sibs e
      split at e
      · unfold sortedPos at e
        simp only at e
        have hsub : ∀ s ∈ sortedPosQueryset cfg.orderBy Row.vals (siblings cfg db target) new.vals, s ∈ siblings cfg db target := by
          intro s hs
          unfold sortedPosQueryset at hs
          simp only at hs
          split at hs
          · exact hs
          · exact (List.mem_filter.1 hs).1
        split at e
        · simp only [Except.ok.injEq, Prod.mk.injEq] at e
          rw [← e.2.2]; exact hsub
        · split at e
          · cases e
          · simp only [Except.ok.injEq, Prod.mk.injEq] at e
            rw [← e.2.2]; exact hsub
      · simp only [Except.ok.injEq, Prod.mk.injEq] at e
        rw [← e.2.2]; simp
    cases e : (if pos = .sortedSibling then sortedPos cfg (siblings cfg db target) new else Except.ok (pos, none, [])) with
    | error e => rfl
    | ok x =>
      obtain ⟨pos', newpos, sibs⟩ := x
      simp only
      rw [hr pos' newpos sibs (hs _ _ _ e)]
      cases e2 : reorder cfg db pos' newpos target.depth target sibs none with
      | error e => rfl
      | ok x =>
        obtain ⟨db', _, newpath⟩ := x
        simp only
        have hc := hc _ _ _ _ _ _ (hs _ _ _ e) e2
        rw [← finishAddSiblingE_plain]
        unfold finishAddSiblingE Engine.plain
        simp only [hc]

theorem mem_rows_of_lastRoot {db : DB} {r : Row} (h : lastRootNode db = some r) : r ∈ db.rows := by
  have := List.mem_of_getLast? h
  unfold rootNodes orderByPath at this
  rw [mem_sortBy, List.mem_filter] at this
  exact this.1

theorem mem_rows_of_lastChild {db : DB} {n r : Row} (h : lastChild cfg db n = some r) : r ∈ db.rows := by
  have := List.mem_of_getLast? h
  unfold children orderByPath at this
  split at this
  · simp at this
  · rw [mem_sortBy, List.mem_filter] at this
    exact this.1

theorem mem_rows_of_siblings {db : DB} {n r : Row} (h : r ∈ siblings cfg db n) : r ∈ db.rows := by
  unfold siblings orderByPath at h
  rw [mem_sortBy, List.mem_filter] at h
  exact h.1

theorem mem_collectShift : ∀ {l : List Row} {p : List Nat} {m : List Row}, collectShift cfg l p = .ok m → ∀ r ∈ m, r ∈ l
  | [], _, m, h, r, hr => by
    simp only [collectShift, Except.ok.injEq] at h
    subst h; simp at hr
  | n :: l, p, m, h, r, hr => by
    unfold collectShift at h
    split at h
    · simp only [Except.ok.injEq] at h
      subst h; simp at hr
    · cases e : incPath cfg n.path with
      | error e' => rw [e] at h; cases h
      | ok q =>
        rw [e] at h
        simp only at h
        cases e2 : collectShift cfg l q with
        | error e' => rw [e2] at h; cases h
        | ok m' =>
          rw [e2] at h
          simp only [Except.ok.injEq] at h
          subst h
          rcases List.mem_cons.1 hr with rfl | hr
          · simp
          · exact List.mem_cons_of_mem _ (mem_collectShift e2 r hr)

theorem mem_placeSiblings {db : DB} {pos : Pos} {target : Row} {n : Int} {sibs : List Row} (h : placeSiblings cfg db pos target = .ok (n, sibs)) :
    ∀ s ∈ sibs, s ∈ siblings cfg db target := by
  unfold placeSiblings at h
  cases e : lastpos cfg target.path with
  | error e' => rw [e] at h; cases h
  | ok b =>
    rw [e] at h
    simp only at h
    cases pos <;> simp only [Except.ok.injEq, Prod.mk.injEq, reduceCtorEq] at h
    all_goals
      obtain ⟨_, rfl⟩ := h
      intro s hs
      first
        | exact hs
        | exact (List.mem_filter.1 hs).1

theorem addRootE_eq {db : DB} {new : Row}
    (hs : ∀ t ∈ db.rows, addSiblingE en cfg db t (some .sortedSibling) new = addSibling cfg db t (some .sortedSibling) new) :
    addRootE en cfg db new = addRoot cfg db new := by
  unfold addRootE addRoot
  cases e : lastRootNode db with
  | none => rfl
  | some r =>
    simp only [hs r (mem_rows_of_lastRoot e)]
    rfl

theorem addChildE_eq {db : DB} {target new : Row}
    (hs : ∀ t ∈ db.rows, addSiblingE en cfg db t (some .sortedSibling) new = addSibling cfg db t (some .sortedSibling) new) :
    addChildE en cfg db target new = addChild cfg db target new := by
  unfold addChildE addChild
  cases db.get? target.pk with
  | none => rfl
  | some node =>
    simp only
    split
    · cases e : lastChild cfg db node with
      | none => rfl
      | some l =>
        simp only [hs l (mem_rows_of_lastChild e)]
        rfl
    · rfl

/-- what `move` works with after `update_move_to_child_vars` and the search of the sorted place -/
def MoveVarsOf (cfg : Cfg) (db : DB) (node target : Row) (posArg : Option Pos) (v : MoveVars) : Prop :=
  ∃ pos v0, preparePosForMove cfg.ordered posArg = .ok pos ∧ moveToChildVars cfg db node target pos = .ok v0 ∧
    moveSorted cfg db node v0 = .ok (some v)

theorem moveE_eq {db : DB} {node target : Row} {pos : Option Pos} (ht : target ∈ db.rows)
    (hr : ∀ v : MoveVars, MoveVarsOf cfg db node target pos v → v.target ∈ db.rows → (∀ s ∈ v.sibs, s ∈ siblings cfg db v.target) → v.target.isDescendantOf node = false →
      moveNoop cfg db node v = false →
      reorderE en cfg db v.pos v.newpos v.newdepth v.target v.sibs (some node.path) =
        reorder cfg db v.pos v.newpos v.newdepth v.target v.sibs (some node.path) ∧
      ∀ db' old new, reorder cfg db v.pos v.newpos v.newdepth v.target v.sibs (some node.path) = .ok (db', old, new) →
        updateParentCountsE en cfg db' (old.getD []) new = .ok (updateParentCounts cfg db' (old.getD []) new)) :
    moveE en cfg db node target pos = move cfg db node target pos := by
  unfold moveE move
  cases e0 : preparePosForMove cfg.ordered pos with
  | error e => rfl
  | ok pos =>
    simp only
    cases e : moveToChildVars cfg db node target pos with
    | error e => rfl
    | ok v =>
      simp only
      have hv : v.target ∈ db.rows ∧ v.sibs = [] := by
        unfold moveToChildVars at e
        split at e
        · split at e
          · cases e
          · split at e
            · simp only [Except.ok.injEq] at e; subst e; exact ⟨ht, rfl⟩
            · split at e
              · cases e
              · rename_i hl
                simp only [Except.ok.injEq] at e; subst e; exact ⟨mem_rows_of_lastChild hl, rfl⟩
        · simp only [Except.ok.injEq] at e; subst e; exact ⟨ht, rfl⟩
      split
      · rfl
      · rename_i hd
        have hd : v.target.isDescendantOf node = false := by simpa using hd
        cases e' : moveSorted cfg db node v with
        | error e => rfl
        | ok o =>
          cases o with
          | none => rfl
          | some w =>
            simp only
            have hw : w.target = v.target ∧ ∀ s ∈ w.sibs, s ∈ siblings cfg db v.target := by
              have hsub : ∀ s ∈ sortedPosQueryset cfg.orderBy Row.vals (siblings cfg db v.target) node.vals, s ∈ siblings cfg db v.target := by
                intro s hs
                unfold sortedPosQueryset at hs
                simp only at hs
                split at hs
                · exact hs
                · exact (List.mem_filter.1 hs).1
              unfold moveSorted at e'
              simp only at e'
              split at e'
              · split at e'
                · simp only [Except.ok.injEq, Option.some.injEq] at e'; subst e'; exact ⟨rfl, hsub⟩
                · split at e'
                  · cases e'
                  · split at e'
                    · split at e'
                      · cases e'
                      · split at e'
                        · simp at e'
                        · simp only [Except.ok.injEq, Option.some.injEq] at e'; subst e'; exact ⟨rfl, hsub⟩
                    · simp only [Except.ok.injEq, Option.some.injEq] at e'; subst e'; exact ⟨rfl, hsub⟩
              · simp only [Except.ok.injEq, Option.some.injEq] at e'; subst e'
                exact ⟨rfl, by rw [hv.2]; simp⟩
            unfold moveToE moveTo
            split
            · rfl
            · rename_i hn
              obtain ⟨h1, h2⟩ := hr w ⟨_, _, e0, e, e'⟩ (by rw [hw.1]; exact hv.1) (by rw [hw.1]; exact hw.2) (by rw [hw.1]; exact hd) (by simpa using hn)
              rw [h1]
              cases e2 : reorder cfg db w.pos w.newpos w.newdepth w.target w.sibs (some node.path) with
              | error e => rfl
              | ok x =>
                obtain ⟨db', old, new⟩ := x
                simp only
                unfold finishMoveE finishMove
                rw [h2 db' old new e2]
                rfl

end Verif.MP
