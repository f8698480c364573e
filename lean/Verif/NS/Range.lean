/-
NS: the columns of the tree have a range.

`lft`, `rgt`, `tree_id` and `depth` are PositiveIntegerFields (ns_tree.py:598-601): the database refuses a statement that
leaves a negative number, or one above the largest integer of the column, in a row.  Model.lean lets all integers in.  The
functions here are those of Model.lean, with every statement checked.
-/
import Verif.NS.Mirror
import Mathlib.Data.Int.Interval
import Mathlib.Order.Interval.Finset.Nat

namespace Verif.NS

/-- the row can be stored: its four numbers lie between 0 and `M` -/
def Row.fits (M : Int) (r : Row) : Bool :=
  decide ((0 ≤ r.tree ∧ r.tree ≤ M) ∧ (0 ≤ r.lft ∧ r.lft ≤ M) ∧ (0 ≤ r.rgt ∧ r.rgt ≤ M) ∧ (0 ≤ r.depth ∧ r.depth ≤ M))

/-- The table after a statement: the statement raises if it leaves a number out of range. -/
def written (M : Int) (db : DB) : Except Err DB := if db.rows.all (Row.fits M) then .ok db else .error .integrity

/-- ns_tree.py:191-209, as `addRootSibling` -/
def addRootSiblingK (M : Int) (db : DB) (target : Row) (pos : Pos) (new : Row) : Except Err (DB × Row) :=
  match lastRootNode db with
  | none => .error .attributeError
  | some lastRoot =>
    let mk := fun tree : Int => { new with tree := tree, lft := 1, rgt := 2 }
    if pos = .lastSibling ∨ (pos = .right ∧ sameNode target (some lastRoot)) then
      let obj := mk (lastRoot.tree + 1)
      (written M (save db obj)).map (·, obj)
    else
      match (match pos with
        | .firstSibling => some 1
        | .left => some target.tree
        | .right => some (target.tree + 1)
        | _ => none : Option Int) with
      | none => .error .keyError
      | some newpos =>
        let obj := mk newpos
        (written M (moveTreeRight db newpos)).bind fun db => (written M (save db obj)).map (·, obj)

/-- ns_tree.py:210-250, as `addInnerSibling` -/
def addInnerSiblingK (M : Int) (db : DB) (target : Row) (cached : Option Row) (pos : Pos) (tree depth : Int) (new : Row) :
    Except Err (DB × Row) :=
  match resolvePos db pos target with
  | .error e => .error e
  | .ok (pos', target) =>
    let finish := fun newpos : Int =>
      let obj := { new with tree := tree, lft := newpos, rgt := newpos + 1, depth := depth }
      (written M (alterGap db target.tree newpos 2)).bind fun db => (written M (save db obj)).map (·, obj)
    if pos' = .lastSibling then
      match getParent db target (if pos = .lastSibling then cached else none) with
      | .error e => .error e
      | .ok none => .error .attributeError
      | .ok (some p) => finish p.rgt
    else if pos' = .firstSibling ∨ pos' = .left then finish target.lft
    else .error .valueError

/-- ns_tree.py:181-255 `add_sibling`, as `addSibling` -/
def addSiblingK (M : Int) (cfg : Cfg) (db : DB) (target : Row) (cached : Option Row) (pos : Option Pos) (new : Row) :
    Except Err (DB × Row) :=
  match preparePosForAddSibling cfg.ordered pos with
  | .error e => .error e
  | .ok pos =>
    match resolveSorted cfg db pos target new.vals with
    | .error e => .error e
    | .ok (pos', target') =>
      if target.isRoot then addRootSiblingK M db target' pos' { new with depth := target.depth }
      else addInnerSiblingK M db target' (if pos = .sortedSibling then none else cached) pos' target.tree target.depth new

/-- ns_tree.py:112-139 `add_root`, as `addRoot` -/
def addRootK (M : Int) (cfg : Cfg) (db : DB) (new : Row) : Except Err (DB × Row) :=
  match lastRootNode db with
  | some lastRoot =>
    if cfg.ordered then addSiblingK M cfg db lastRoot none (some .sortedSibling) new
    else
      let obj := { new with tree := lastRoot.tree + 1, lft := 1, rgt := 2, depth := 1 }
      (written M (save db obj)).map (·, obj)
  | none =>
    let obj := { new with tree := 1, lft := 1, rgt := 2, depth := 1 }
    (written M (save db obj)).map (·, obj)

/-- ns_tree.py:141-179 `add_child`, as `addChild` -/
def addChildK (M : Int) (cfg : Cfg) (db : DB) (target : Row) (new : Row) : Except Err (DB × Row × Row) :=
  match db.get? target.pk with
  | none => .error .doesNotExist
  | some node =>
    if node.isLeaf then
      let obj := { new with tree := node.tree, lft := node.lft + 1, rgt := node.lft + 2, depth := node.depth + 1 }
      (written M (alterGap db node.tree node.rgt 2)).bind fun db =>
        (written M (save db obj)).map (·, obj, { target with rgt := node.rgt + 2 })
    else
      match lastChild db node with
      | none => .error .attributeError
      | some last =>
        match addSiblingK M cfg db last (some node) (some (if cfg.ordered then .sortedSibling else .lastSibling)) new with
        | .error e => .error e
        | .ok (db, obj) => .ok (db, obj, { target with rgt := node.rgt + 2 + 2 })

/-- ns_tree.py:323-379, as `moveTo`: the hole, the branch and the gap are statements of their own -/
def moveToK (M : Int) (db : DB) (node target origTarget : Row) (parent : Option Row) (cached : Option Row) (pos : Pos) :
    Except Err MoveResult :=
  match makeHole db node target parent cached pos with
  | .error e => .error e
  | .ok (db, targetTree, newpos) =>
    match written M db with
    | .error e => .error e
    | .ok db =>
      match db.get? node.pk with
      | none => .error .doesNotExist
      | some node =>
        let depthdiff := target.depth - node.depth + (if parent.isSome then 1 else 0)
        match written M (moveRows db node targetTree (newpos - node.lft) depthdiff) with
        | .error e => .error e
        | .ok db =>
          match written M (closeGap db node.lft node.rgt node.tree) with
          | .error e => .error e
          | .ok db =>
            match db.get? node.pk, db.get? origTarget.pk with
            | some node', some target' => .ok ⟨db, node', target'⟩
            | _, _ => .error .doesNotExist

/-- ns_tree.py:284-379, as `moveFrom` -/
def moveFromK (M : Int) (cfg : Cfg) (db : DB) (node target origTarget : Row) (parent cached : Option Row) (pos : Pos) : Except Err MoveResult :=
  if target.isDescendantOf node then .error .invalidMoveToDescendant
  else
    match moveNoop db node target pos with
    | .error e => .error e
    | .ok true => .ok ⟨db, node, origTarget⟩
    | .ok false =>
      match resolveSorted cfg db pos target node.vals with
      | .error e => .error e
      | .ok (pos1, target1) =>
        match resolvePos db pos1 target1 with
        | .error e => .error e
        | .ok (pos2, target2) => moveToK M db node target2 origTarget parent cached pos2

/-- ns_tree.py:257-379 `move`, as `move` -/
def moveK (M : Int) (cfg : Cfg) (db : DB) (node target : Row) (cached : Option Row) (pos : Option Pos) : Except Err MoveResult :=
  match preparePosForMove cfg.ordered pos with
  | .error e => .error e
  | .ok pos0 =>
    match moveVars db node target pos0 with
    | .error e => .error e
    | .ok (pos, target', parent) =>
      moveFromK M cfg db node target' target parent (if pos0 = .lastSibling ∧ node.pk ≠ target.pk then cached else none) pos

/-- ns_tree.py:30-73 `delete`, as `delete` -/
def deleteK (M : Int) (db : DB) (sel : Row → Bool) : Except Err DB :=
  (deleteStmts db sel).foldlM (fun db s => written M (execDel db s)) db

/-- one operation on freshly fetched nodes, as `exec` -/
def execK (M : Int) (cfg : Cfg) (db : DB) : Op → Except Err DB
  | .addRoot k v => match db.get? k with
    | some _ => .error .integrity
    | none => (addRootK M cfg db ⟨k, 0, 0, 0, 0, v⟩).map (·.1)
  | .addChild t k v => match db.get? k, db.get? t with
    | _, none => .error .doesNotExist
    | some _, _ => .error .integrity
    | none, some target => (addChildK M cfg db target ⟨k, 0, 0, 0, 0, v⟩).map (·.1)
  | .addSibling t pos k v => match db.get? k, db.get? t with
    | _, none => .error .doesNotExist
    | some _, _ => .error .integrity
    | none, some target => (addSiblingK M cfg db target none pos ⟨k, 0, 0, 0, 0, v⟩).map (·.1)
  | .move x t pos => match db.get? x, db.get? t with
    | some node, some target => (moveK M cfg db node target none pos).map (·.db)
    | _, _ => .error .doesNotExist
  | .delete S => deleteK M db (fun r => S.contains r.pk)

/-- one call of a history, as `step` -/
def stepK (M : Int) (cfg : Cfg) (db : DB) (op : Op) : DB :=
  match execK M cfg db op with
  | .ok db' => db'
  | .error _ => db

/-- a whole history, as `runOps` -/
def runOpsK (M : Int) (cfg : Cfg) (db : DB) (ops : List Op) : DB := ops.foldl (stepK M cfg) db

/-! ### The numbers of a consistent table -/

variable {cfg : Cfg} {db db' : DB} {M : Int}

theorem written_ok (h : ∀ r ∈ db.rows, r.fits M = true) : written M db = .ok db := by
  unfold written
  rw [if_pos (List.all_eq_true.2 h)]

/-- the number of the last row is at most twice the number of rows -/
theorem NInv.rgt_le {rows : List Row} (h : NInv rows) {r : Row} (hr : r ∈ rows) : r.rgt ≤ 2 * (rows.length : Int) := by
  obtain ⟨q, hq, hq1, hle⟩ : ∃ q ∈ rows, q.lft = 1 ∧ r.rgt ≤ q.rgt := by
    by_cases hl : r.lft = 1
    · exact ⟨r, hr, hl, le_refl _⟩
    · obtain ⟨q, hq, h1, h2⟩ := h.root r hr hl
      unfold encl at h2
      exact ⟨q, hq, h1, by omega⟩
  have hsub : Finset.Icc 1 q.rgt ⊆ (rows.map Row.lft ++ rows.map Row.rgt).toFinset := by
    intro i hi
    rw [Finset.mem_Icc] at hi
    obtain ⟨s, hs, _, e | e⟩ := h.full q hq i (by omega) hi.2
    · rw [List.mem_toFinset, List.mem_append]; exact Or.inl (List.mem_map.2 ⟨s, hs, e⟩)
    · rw [List.mem_toFinset, List.mem_append]; exact Or.inr (List.mem_map.2 ⟨s, hs, e⟩)
  have h1 := Finset.card_le_card hsub
  have h2 := List.toFinset_card_le (rows.map Row.lft ++ rows.map Row.rgt)
  rw [Int.card_Icc] at h1
  rw [List.length_append, List.length_map, List.length_map] at h2
  omega

theorem NI.depth_le {rows : List Row} (h : NI rows) {r : Row} (hr : r ∈ rows) : 1 ≤ r.depth ∧ r.depth ≤ 1 + (rows.length : Int) := by
  rw [h.depth r hr]
  have : above rows r ≤ rows.length := List.countP_le_length
  omega

/-- all rows of a consistent table fit -/
theorem NInv.fits {rows : List Row} (h : NInv rows) (hM : 2 * (rows.length : Int) ≤ M) (ht : ∀ r ∈ rows, r.tree ≤ M) :
    ∀ r ∈ rows, r.fits M = true := by
  intro r hr
  have h1 := h.one r hr
  have h2 := h.lr r hr
  have h3 := h.tree r hr
  have h4 := h.rgt_le hr
  have h5 := h.toNI.depth_le hr
  have h6 := ht r hr
  have : 0 < rows.length := List.length_pos_of_mem hr
  unfold Row.fits
  rw [decide_eq_true_eq]
  omega

/-- Room for one call: the largest integer is above four times the number of rows, and above every tree number. -/
def Room (M : Int) (db : DB) : Prop := 4 * (db.rows.length : Int) + 2 ≤ M ∧ ∀ r ∈ db.rows, r.tree + 1 ≤ M

instance (M : Int) (db : DB) : Decidable (Room M db) := inferInstanceAs (Decidable (_ ∧ _))

theorem moveTreeRight_fits (h : NInv db.rows) (hM : Room M db) (T : Int) : ∀ r ∈ (moveTreeRight db T).rows, r.fits M = true := by
  intro r' hr'
  obtain ⟨r, hr, rfl⟩ := List.mem_map.1 hr'
  have h1 := h.one r hr
  have h2 := h.lr r hr
  have h3 := h.tree r hr
  have h4 := h.rgt_le hr
  have h5 := h.toNI.depth_le hr
  have h6 := hM.2 r hr
  have h7 := hM.1
  unfold Row.fits treeRightRow
  rw [decide_eq_true_eq]
  split <;> (try dsimp only) <;> omega

theorem alterGap_fits (h : NInv db.rows) (hM : Room M db) (T l : Int) {g : Int} (hg : 0 ≤ g) (hg2 : g ≤ 2 * (db.rows.length : Int) + 2) :
    ∀ r ∈ (alterGap db T l g).rows, r.fits M = true := by
  intro r' hr'
  obtain ⟨r, hr, rfl⟩ := List.mem_map.1 hr'
  have h1 := h.one r hr
  have h2 := h.lr r hr
  have h3 := h.tree r hr
  have h4 := h.rgt_le hr
  have h5 := h.toNI.depth_le hr
  have h6 := hM.2 r hr
  have h7 := hM.1
  unfold Row.fits gapRow
  rw [decide_eq_true_eq]
  split
  · dsimp only
    split <;> omega
  · omega

/-! ### Adding -/

/-- what a successful addition leaves fits -/
theorem added_fits (hM : Room M db) (hinv : NInv db'.rows) (hl : db'.rows.length ≤ db.rows.length + 1) (ht : ∀ r ∈ db'.rows, r.tree ≤ M) :
    ∀ r ∈ db'.rows, r.fits M = true := hinv.fits (by have := hM.1; omega) ht

theorem save_mem {row r : Row} (h : r ∈ (save db row).rows) : r ∈ db.rows ∨ r = row := by
  unfold save at h
  simp only at h
  split at h
  · obtain ⟨q, hq, rfl⟩ := List.mem_map.1 h
    split
    · exact Or.inr rfl
    · exact Or.inl hq
  · rcases List.mem_append.1 h with h | h
    · exact Or.inl h
    · exact Or.inr (List.mem_singleton.1 h)

theorem save_length (row : Row) : (save db row).rows.length ≤ db.rows.length + 1 := by
  unfold save
  simp only
  split
  · simp
  · simp

theorem addRootSiblingK_eq (h : NInv db.rows) (hM : Room M db) {target new : Row} (ht : target ∈ db.rows) {pos : Pos}
    (hfin : ∀ db' obj, addRootSibling db target pos new = .ok (db', obj) → NInv db'.rows) :
    addRootSiblingK M db target pos new = addRootSibling db target pos new := by
  revert hfin
  unfold addRootSiblingK addRootSibling
  cases hz : lastRootNode db with
  | none => intro _; rfl
  | some z =>
    have hzm := (root_tree_le h.toNI hz).1
    dsimp only
    split
    · intro hfin
      have := hfin _ _ rfl
      rw [written_ok (added_fits hM this (save_length _) ?_)]
      · rfl
      · intro r hr
        have h1 := hM.2 z hzm
        rcases save_mem hr with hr | rfl
        · have := hM.2 r hr; omega
        · exact h1
    · have key : ∀ T : Int, T ≤ M → NInv (save (moveTreeRight db T) { new with tree := T, lft := 1, rgt := 2 }).rows →
          ((written M (moveTreeRight db T)).bind fun db => (written M (save db { new with tree := T, lft := 1, rgt := 2 })).map
            (·, ({ new with tree := T, lft := 1, rgt := 2 } : Row))) =
          .ok (save (moveTreeRight db T) { new with tree := T, lft := 1, rgt := 2 }, { new with tree := T, lft := 1, rgt := 2 }) := by
        intro T hT hinv
        rw [written_ok (moveTreeRight_fits h hM _)]
        simp only [Except.bind]
        rw [written_ok (added_fits hM hinv ?_ ?_)]
        · rfl
        · refine (save_length _).trans ?_
          simp [moveTreeRight]
        · intro r hr
          rcases save_mem hr with hr | rfl
          · obtain ⟨q, hq, rfl⟩ := List.mem_map.1 hr
            have := hM.2 q hq
            unfold treeRightRow
            split <;> (try dsimp only) <;> omega
          · exact hT
      have h0 := hM.1
      have h1 := hM.2 target ht
      intro hfin
      cases pos <;> first | rfl | exact key _ (by omega) (hfin _ _ rfl)

theorem addInnerSiblingK_eq (h : NInv db.rows) (hM : Room M db) {target new t : Row} (ht : t ∈ db.rows) {pos : Pos} {cached : Option Row} {d : Int}
    (hfin : ∀ db' obj, addInnerSibling db target cached pos t.tree d new = .ok (db', obj) → NInv db'.rows) :
    addInnerSiblingK M db target cached pos t.tree d new = addInnerSibling db target cached pos t.tree d new := by
  have key : ∀ T l : Int, NInv (save (alterGap db T l 2) { new with tree := t.tree, lft := l, rgt := l + 1, depth := d }).rows →
      ((written M (alterGap db T l 2)).bind fun db => (written M (save db { new with tree := t.tree, lft := l, rgt := l + 1, depth := d })).map
        (·, ({ new with tree := t.tree, lft := l, rgt := l + 1, depth := d } : Row))) =
      .ok (save (alterGap db T l 2) { new with tree := t.tree, lft := l, rgt := l + 1, depth := d },
        { new with tree := t.tree, lft := l, rgt := l + 1, depth := d }) := by
    intro T l hinv
    rw [written_ok (alterGap_fits h hM _ _ (by omega) (by omega))]
    simp only [Except.bind]
    rw [written_ok (added_fits hM hinv ?_ ?_)]
    · rfl
    · refine (save_length _).trans ?_
      simp [alterGap]
    · intro r hr
      rcases save_mem hr with hr | rfl
      · obtain ⟨q, hq, rfl⟩ := List.mem_map.1 hr
        have := hM.2 q hq
        unfold gapRow
        split <;> (try dsimp only) <;> omega
      · have := hM.2 t ht
        simp only
        omega
  revert hfin
  unfold addInnerSiblingK addInnerSibling
  cases resolvePos db pos target with
  | error e => intro _; rfl
  | ok q =>
    dsimp only
    split
    · cases getParent db q.2 (if pos = Pos.lastSibling then cached else none) with
      | error e => intro _; rfl
      | ok p =>
        cases p with
        | none => intro _; rfl
        | some p => intro hfin; exact key _ _ (hfin _ _ rfl)
    · split
      · intro hfin; exact key _ _ (hfin _ _ rfl)
      · intro _; rfl

/-- a successful `add_sibling` of a fresh object leaves a consistent table -/
theorem addSibling_inv (h : NInv db.rows) {t : Row} (ht : t ∈ db.rows) {cached : Option Row}
    (hc : ∀ p, cached = some p → p ∈ db.rows ∧ par db.rows t = some p.pk) {pos : Option Pos} {new : Row} (hf : ∀ r ∈ db.rows, r.pk ≠ new.pk)
    {obj : Row} (e : addSibling cfg db t cached pos new = .ok (db', obj)) : NInv db'.rows := by
  cases ho : cfg.ordered with
  | false =>
    cases hp : preparePosForAddSibling false pos with
    | error er => unfold addSibling at e; rw [ho, hp] at e; cases e
    | ok q =>
      obtain ⟨db1, obj1, e1, ha⟩ := addSibling_unsorted h ho ht hc hp hf
      rw [e1] at e; cases e; exact ha.inv
  | true =>
    cases hp : preparePosForAddSibling true pos with
    | error er => unfold addSibling at e; rw [ho, hp] at e; cases e
    | ok q =>
      obtain rfl := (prepAddSorted_arg hp).1
      obtain ⟨l, db1, obj1, s, _, e1, ha, _⟩ := addSibling_sorted h ho ht (cached := cached) hp hf
      rw [e1] at e; cases e; exact ha.inv

theorem addSiblingK_eq (h : NInv db.rows) (hM : Room M db) {t : Row} (ht : t ∈ db.rows) {cached : Option Row}
    (hc : ∀ p, cached = some p → p ∈ db.rows ∧ par db.rows t = some p.pk) {pos : Option Pos} {new : Row} (hf : ∀ r ∈ db.rows, r.pk ≠ new.pk) :
    addSiblingK M cfg db t cached pos new = addSibling cfg db t cached pos new := by
  have hfin : ∀ db' obj, addSibling cfg db t cached pos new = .ok (db', obj) → NInv db'.rows := fun _ _ e => addSibling_inv h ht hc hf e
  revert hfin
  unfold addSiblingK addSibling
  cases preparePosForAddSibling cfg.ordered pos with
  | error e => intro _; rfl
  | ok pos =>
    dsimp only
    cases hs : resolveSorted cfg db pos t new.vals with
    | error e => intro _; rfl
    | ok q =>
      dsimp only
      split
      · intro hfin; exact addRootSiblingK_eq h hM (resolveSorted_mem ht hs) hfin
      · intro hfin; exact addInnerSiblingK_eq h hM ht hfin

theorem addRootK_eq (h : NInv db.rows) (hM : Room M db) {new : Row} (hf : ∀ r ∈ db.rows, r.pk ≠ new.pk) :
    addRootK M cfg db new = addRoot cfg db new := by
  unfold addRootK addRoot
  cases hz : lastRootNode db with
  | none =>
    dsimp only
    have he := lastRoot_none h.toNI hz
    have h1 := hM.1
    rw [written_ok]
    · rfl
    · intro r hr
      rcases save_mem hr with hr | rfl
      · rw [he] at hr; cases hr
      · unfold Row.fits; rw [decide_eq_true_eq]; simp only; omega
  | some z =>
    have hzm := root_tree_le h.toNI hz
    dsimp only
    split
    · exact addSiblingK_eq h hM hzm.1 (by intro p e; cases e) hf
    · have h1 := hM.1
      have h2 := hM.2 z hzm.1
      have h3 := h.tree z hzm.1
      rw [written_ok]
      · rfl
      · intro r hr
        rcases save_mem hr with hr | rfl
        · exact h.fits (by omega) (fun r hr => by have := hM.2 r hr; omega) r hr
        · unfold Row.fits; rw [decide_eq_true_eq]; simp only; omega

theorem addChildK_eq (h : NInv db.rows) (hM : Room M db) {target new : Row} (hf : ∀ r ∈ db.rows, r.pk ≠ new.pk) :
    addChildK M cfg db target new = addChild cfg db target new := by
  unfold addChildK addChild
  cases hg : db.get? target.pk with
  | none => rfl
  | some node =>
    have hn := ((get?_eq_some h.toNI).1 hg).1
    dsimp only
    split
    · have h1 := hM.1
      have h2 := hM.2 node hn
      have h3 := h.tree node hn
      have h4 := h.one node hn
      have h5 := h.lr node hn
      have h6 := h.rgt_le hn
      have h7 := h.toNI.depth_le hn
      have : 0 < db.rows.length := List.length_pos_of_mem hn
      have hgap := alterGap_fits h hM node.tree node.rgt (g := 2) (by omega) (by omega)
      rw [written_ok hgap]
      simp only [Except.bind]
      rw [written_ok]
      · rfl
      · intro r hr
        rcases save_mem hr with hr | rfl
        · exact hgap r hr
        · unfold Row.fits; rw [decide_eq_true_eq]; simp only; omega
    · cases hl : lastChild db node with
      | none => rfl
      | some last =>
        dsimp only
        have hm := mem_children h.toNI hn (r := last)
        have hlm := hm.1 (List.mem_of_getLast? hl)
        rw [addSiblingK_eq h hM hlm.1 (by rintro p ⟨⟩; exact ⟨hn, hlm.2⟩) hf]
        rfl

/-! ### Moving -/

/-- a row after the hole was made: its numbers have grown by at most the width of the branch, its tree number by at most 1 -/
structure Opens (db : DB) (g : Int) (db1 : DB) : Prop where
  rows : ∃ f : Row → Row, db1.rows = db.rows.map f ∧ ∀ r ∈ db.rows, (f r).pk = r.pk ∧ (f r).depth = r.depth ∧
    (r.tree ≤ (f r).tree ∧ (f r).tree ≤ r.tree + 1) ∧ (r.lft ≤ (f r).lft ∧ (f r).lft ≤ r.lft + g) ∧ (r.rgt ≤ (f r).rgt ∧ (f r).rgt ≤ r.rgt + g)

theorem Opens.refl {g : Int} (hg : 0 ≤ g) : Opens db g db :=
  ⟨id, (List.map_id _).symm, fun r _ => ⟨rfl, rfl, by simp only [id]; omega, by simp only [id]; omega, by simp only [id]; omega⟩⟩

theorem alterGap_opens {g : Int} (hg : 0 ≤ g) (T l : Int) : Opens db g (alterGap db T l g) := by
  refine ⟨gapRow T l g, rfl, fun r _ => ?_⟩
  unfold gapRow
  split
  · dsimp only
    refine ⟨rfl, rfl, by omega, ?_, by omega⟩
    split <;> omega
  · exact ⟨rfl, rfl, by omega, by omega, by omega⟩

theorem moveTreeRight_opens {g : Int} (hg : 0 ≤ g) (T : Int) : Opens db g (moveTreeRight db T) := by
  refine ⟨treeRightRow T, rfl, fun r _ => ?_⟩
  unfold treeRightRow
  split
  · dsimp only; exact ⟨rfl, rfl, by omega, by omega, by omega⟩
  · exact ⟨rfl, rfl, by omega, by omega, by omega⟩

theorem makeHole_opens (h : NInv db.rows) (hM : Room M db) {x target : Row} {parent cached : Option Row} {pos : Pos} {T l : Int}
    (hx : x ∈ db.rows) (ht : target ∈ db.rows) (hp : ∀ p, parent = some p → p ∈ db.rows) (hc : ∀ c, cached = some c → c ∈ db.rows)
    (e : makeHole db x target parent cached pos = .ok (db', T, l)) :
    Opens db (x.rgt - x.lft + 1) db' ∧ (1 ≤ T ∧ T ≤ M) ∧ (1 ≤ l ∧ l ≤ 2 * (db.rows.length : Int)) := by
  have hg : 0 ≤ x.rgt - x.lft + 1 := by have := h.lr x hx; omega
  have htree : ∀ r ∈ db.rows, 1 ≤ r.tree ∧ r.tree + 1 ≤ M := fun r hr => ⟨h.tree r hr, hM.2 r hr⟩
  have hend : ∀ r ∈ db.rows, (1 ≤ r.lft ∧ r.lft ≤ 2 * (db.rows.length : Int)) ∧ (1 ≤ r.rgt ∧ r.rgt ≤ 2 * (db.rows.length : Int)) := fun r hr => by
    have := h.lr r hr; have := h.one r hr; have := h.rgt_le hr; omega
  have h1 : (1 : Int) ≤ 2 * (db.rows.length : Int) := by have : 0 < db.rows.length := List.length_pos_of_mem hx; omega
  have htt := htree target ht
  have hte := hend target ht
  simp only [makeHole] at e
  split at e
  · rename_i p
    cases e
    exact ⟨alterGap_opens hg _ _, by omega, (hend p (hp p rfl)).2⟩
  · split at e
    · split at e
      · split at e
        · cases e
        · rename_i sibs es
          split at e
          · cases e
          · rename_i last hl
            cases e
            have := htree last (siblings_sub es (List.mem_of_getLast? hl))
            exact ⟨.refl hg, by omega, by omega⟩
      · cases e; exact ⟨moveTreeRight_opens hg _, by omega, by omega⟩
      · cases e; exact ⟨moveTreeRight_opens hg _, by omega, by omega⟩
      · cases e; exact ⟨.refl hg, by omega, by omega⟩
    · split at e
      · split at e
        · cases e
        · cases e
        · rename_i p ep
          cases e
          exact ⟨alterGap_opens hg _ _, by omega, (hend p (getParent_mem hc ep)).2⟩
      · cases e; exact ⟨alterGap_opens hg _ _, by omega, hte.1⟩
      · cases e; exact ⟨alterGap_opens hg _ _, by omega, hte.1⟩
      · cases e

theorem moveToK_eq (h : NInv db.rows) (hM : Room M db) {x target orig : Row} {parent cached : Option Row} {pos : Pos}
    (hx : x ∈ db.rows) (ht : target ∈ db.rows) (ho : orig ∈ db.rows) (hp : ∀ p, parent = some p → p ∈ db.rows) (hc : ∀ c, cached = some c → c ∈ db.rows)
    (hfin : ∀ res, moveTo db x target orig parent cached pos = .ok res → NInv res.db.rows) :
    moveToK M db x target orig parent cached pos = moveTo db x target orig parent cached pos := by
  revert hfin
  unfold moveToK moveTo
  cases e : makeHole db x target parent cached pos with
  | error er => intro _; rfl
  | ok q =>
    obtain ⟨db1, T, l⟩ := q
    obtain ⟨⟨f, hf, hfr⟩, hT, hl⟩ := makeHole_opens h hM hx ht hp hc e
    have hni := (makeHole_feeds h.toNI hx ht hp hc e).2
    have h0 := hM.1
    have hN : 0 < db.rows.length := List.length_pos_of_mem hx
    have hxb := h.rgt_le hx
    have hx1 := h.one x hx
    have htd := h.toNI.depth_le ht
    -- the numbers after the first statement
    have hb1 : ∀ r ∈ db1.rows, (1 ≤ r.tree ∧ r.tree ≤ M) ∧ 1 ≤ r.lft ∧ r.lft < r.rgt ∧ r.rgt ≤ 4 * (db.rows.length : Int) ∧
        1 ≤ r.depth ∧ r.depth ≤ 1 + (db.rows.length : Int) := by
      intro r' hr'
      have k1 := hni.one r' hr'
      have k2 := hni.lr r' hr'
      have k3 := hni.tree r' hr'
      rw [hf] at hr'
      obtain ⟨r, hr, rfl⟩ := List.mem_map.1 hr'
      have := hfr r hr
      have := hM.2 r hr
      have := h.rgt_le hr
      have := h.toNI.depth_le hr
      omega
    have hf1 : ∀ r ∈ db1.rows, r.fits M = true := by
      intro r hr
      have := hb1 r hr
      unfold Row.fits; rw [decide_eq_true_eq]; omega
    dsimp only
    rw [written_ok hf1]
    dsimp only
    cases hg : db1.get? x.pk with
    | none => intro _; rfl
    | some node =>
      dsimp only
      obtain ⟨hnm, hnk⟩ := (get?_eq_some hni).1 hg
      have hnode := hb1 node hnm
      generalize hdd : target.depth - node.depth + (if parent.isSome = true then (1 : Int) else 0) = dd
      have hdd' : target.depth - node.depth ≤ dd ∧ dd ≤ target.depth - node.depth + 1 := by
        subst hdd; split <;> omega
      have hget : ∀ k, db1.get? k ≠ none → (closeGap (moveRows db1 node T (l - node.lft) dd) node.lft node.rgt node.tree).get? k ≠ none := by
        intro k hk hn
        rw [get?_eq_none] at hn
        apply hk
        rw [get?_eq_none]
        intro r hr
        have := hn _ (List.mem_map_of_mem (List.mem_map_of_mem hr))
        rw [show ∀ T' a b q, (gapRow T' a b q).pk = q.pk from fun T' a b q => by unfold gapRow; split <;> rfl,
          show ∀ a b c d e f q, (jumpRow a b c d e f q).pk = q.pk from fun a b c d e f q => by unfold jumpRow; split <;> rfl] at this
        exact this
      have g1 := hget node.pk (by rw [hnk, hg]; simp)
      have g2 := hget orig.pk (by
        rw [Ne, get?_eq_none]
        intro hn
        refine hn (f orig) (by rw [hf]; exact List.mem_map_of_mem ho) (hfr orig ho).1)
      generalize hdb3 : closeGap (moveRows db1 node T (l - node.lft) dd) node.lft node.rgt node.tree = db3
      rw [hdb3] at g1 g2
      obtain ⟨a, ha⟩ := Option.ne_none_iff_exists'.1 g1
      obtain ⟨b, hb⟩ := Option.ne_none_iff_exists'.1 g2
      intro hfin
      have hinv : NInv db3.rows := by
        have := hfin ⟨db3, a, b⟩ (by rw [ha, hb])
        exact this
      -- the width of the branch: it stands in the last table
      have hwn : node.rgt - node.lft ≤ 2 * (db.rows.length : Int) - 1 := by
        have hlen : db3.rows.length = db.rows.length := by
          rw [← hdb3]; simp only [closeGap, alterGap, moveRows, List.length_map, hf]
        have hm : gapRow node.tree node.lft (-(node.rgt - node.lft + 1)) (jumpRow node.tree node.lft node.rgt T (l - node.lft) dd node) ∈ db3.rows := by
          rw [← hdb3]; exact List.mem_map_of_mem (List.mem_map_of_mem hnm)
        have k1 := hinv.rgt_le hm
        have k2 := hinv.one _ hm
        have k3 := hinv.lr _ hm
        rw [hlen] at k1
        revert k1 k2 k3
        unfold jumpRow
        rw [if_pos ⟨rfl, le_refl _, by omega⟩]
        unfold gapRow
        split
        · dsimp only
          split <;> omega
        · dsimp only
          omega
      have hb2 : ∀ r ∈ (moveRows db1 node T (l - node.lft) dd).rows, r.fits M = true ∧ r.tree ≤ M := by
        intro r' hr'
        obtain ⟨r, hr, rfl⟩ := List.mem_map.1 hr'
        have hrb := hb1 r hr
        unfold jumpRow
        split
        · rename_i hin
          have hin' := (hni.inB_iff hnm hr).2 hin
          have hle : r.rgt ≤ node.rgt ∧ node.depth ≤ r.depth := by
            rcases hin' with rfl | he
            · exact ⟨le_refl _, le_refl _⟩
            · have := hni.depth_lt hnm hr he
              unfold encl at he
              omega
          refine ⟨?_, by dsimp only; omega⟩
          unfold Row.fits; rw [decide_eq_true_eq]; dsimp only; omega
        · exact ⟨hf1 r hr, by omega⟩
      rw [written_ok (fun r hr => (hb2 r hr).1)]
      dsimp only
      rw [hdb3]
      rw [written_ok (hinv.fits ?_ ?_)]
      · rfl
      · rw [← hdb3]
        simp only [closeGap, alterGap, moveRows, List.length_map, hf]
        omega
      · intro r hr
        rw [← hdb3] at hr
        obtain ⟨q, hq, rfl⟩ := List.mem_map.1 hr
        have := (hb2 q hq).2
        unfold gapRow
        split <;> (try dsimp only) <;> omega

/-- a successful `move` leaves a consistent table -/
theorem move_inv (h : NInv db.rows) {x t : Row} (hx : x ∈ db.rows) (ht : t ∈ db.rows) {cached : Option Row}
    (hc : ∀ p, cached = some p → p ∈ db.rows ∧ par db.rows t = some p.pk) {pos : Option Pos} {res : MoveResult}
    (e : move cfg db x t cached pos = .ok res) : NInv res.db.rows := by
  have refused : ∀ {q}, preparePosForMove cfg.ordered pos = .ok q → Refused x t q → NInv res.db.rows := by
    intro q hp hr
    rw [move_refused h hx ht hp hr] at e
    cases e
  cases ho : cfg.ordered with
  | false =>
    cases hp : preparePosForMove false pos with
    | error er => unfold move at e; rw [ho, hp] at e; cases e
    | ok q =>
      by_cases hr : Refused x t q
      · exact refused (by rw [ho]; exact hp) hr
      · obtain ⟨res1, e1, hm⟩ := move_unsorted h ho hx ht hc hp hr
        rw [e1] at e; cases e; exact hm.inv
  | true =>
    cases hp : preparePosForMove true pos with
    | error er => unfold move at e; rw [ho, hp] at e; cases e
    | ok q =>
      by_cases hr : Refused x t q
      · exact refused (by rw [ho]; exact hp) hr
      · obtain ⟨res1, s, l, e1, hm, _⟩ := move_sorted h ho hx ht (cached := cached) hp hr
        rw [e1] at e; cases e; exact hm.inv

theorem moveK_eq (h : NInv db.rows) (hM : Room M db) {x t : Row} (hx : x ∈ db.rows) (ht : t ∈ db.rows) {cached : Option Row}
    (hc : ∀ p, cached = some p → p ∈ db.rows ∧ par db.rows t = some p.pk) {pos : Option Pos} :
    moveK M cfg db x t cached pos = move cfg db x t cached pos := by
  have hfin : ∀ res, move cfg db x t cached pos = .ok res → NInv res.db.rows := fun _ e => move_inv h hx ht hc e
  revert hfin
  unfold moveK move
  cases preparePosForMove cfg.ordered pos with
  | error e => intro _; rfl
  | ok pos0 =>
    dsimp only
    cases e1 : moveVars db x t pos0 with
    | error e => intro _; rfl
    | ok q =>
      obtain ⟨pos1, t1, parent⟩ := q
      have hv : t1 ∈ db.rows ∧ ∀ p, parent = some p → p ∈ db.rows := by
        simp only [moveVars] at e1
        split at e1
        · split at e1
          · cases e1
          · split at e1
            · cases e1; exact ⟨ht, fun p hp => by cases hp; exact ht⟩
            · split at e1
              · cases e1
              · rename_i last hl
                cases e1
                exact ⟨children_sub (List.mem_of_getLast? hl), fun p hp => by cases hp⟩
        · cases e1; exact ⟨ht, fun p hp => by cases hp⟩
      dsimp only
      unfold moveFromK moveFrom
      split
      · intro _; rfl
      · cases moveNoop db x t1 pos1 with
        | error e => intro _; rfl
        | ok b =>
          cases b with
          | true => intro _; rfl
          | false =>
            dsimp only
            cases e2 : resolveSorted cfg db pos1 t1 x.vals with
            | error e => intro _; rfl
            | ok q =>
              dsimp only
              cases e3 : resolvePos db q.1 q.2 with
              | error e => intro _; rfl
              | ok q' =>
                dsimp only
                intro hfin
                refine moveToK_eq h hM hx (resolvePos_mem (resolveSorted_mem hv.1 e2) e3) ht hv.2 ?_ hfin
                intro c hcc
                split at hcc
                · exact (hc c hcc).1
                · cases hcc

/-! ### Deleting -/

/-- a closing in the course of a deletion never raises a number -/
theorem closing_lr {rows : List Row} {g : Int × Int × Int} {G : List (Int × Int × Int)} (h : Closing rows (g :: G)) : g.2.1 ≤ g.2.2 :=
  (h.gap g (by simp)).1

theorem closings_ok : ∀ (G : List (Int × Int × Int)) (db : DB), Closing db.rows G → (∀ r ∈ db.rows, r.fits M = true) →
    (G.map DelStmt.close).foldlM (fun db s => written M (execDel db s)) db = .ok ((G.map DelStmt.close).foldl execDel db)
  | [], _, _, _ => rfl
  | g :: G, db, h, hf => by
    have h1 := (closing_step h).1
    have hg := closing_lr h
    have hf1 : ∀ r ∈ (execDel db (.close g)).rows, r.fits M = true := by
      intro r' hr'
      have k1 := h1.ni.one r' hr'
      have k2 := h1.ni.lr r' hr'
      have k3 := h1.ni.tree r' hr'
      have k4 := h1.ni.depth_le hr'
      obtain ⟨r, hr, rfl⟩ := List.mem_map.1 hr'
      have := hf r hr
      revert k1 k2 k3 k4
      unfold Row.fits at this ⊢
      rw [decide_eq_true_eq] at this ⊢
      unfold gapRow
      split
      · dsimp only; split <;> omega
      · omega
    rw [List.map_cons, List.foldlM_cons, List.foldl_cons, written_ok hf1]
    exact closings_ok G _ h1 hf1

theorem deleteK_eq (h : NInv db.rows) (hM : Room M db) (sel : Row → Bool) : deleteK M db sel = .ok (delete db sel) := by
  unfold deleteK delete deleteStmts
  simp only
  by_cases he : (removeRanges (order (db.rows.filter sel)) none).isEmpty = true
  · rw [if_pos he]; rfl
  · rw [if_neg he, removeRanges_eq]
    have hrows : (execDel db (.delete ((kept (order (db.rows.filter sel)) none).map rng))).rows =
        db.rows.filter (fun r => !doomed db.rows sel r) := removed_rows h.toNI sel
    have hc := closing_init h sel
    rw [← hrows] at hc
    have hf : ∀ r ∈ (execDel db (.delete ((kept (order (db.rows.filter sel)) none).map rng))).rows, r.fits M = true := by
      intro r hr
      rw [hrows] at hr
      have := hM.1
      exact h.fits (by omega) (fun r hr => by have := hM.2 r hr; omega) r (List.mem_of_mem_filter hr)
    rw [List.foldlM_cons, List.foldl_cons, written_ok hf]
    exact closings_ok _ _ hc hf

/-! ### Histories -/

theorem execK_eq (h : NInv db.rows) (hM : Room M db) (op : Op) : execK M cfg db op = exec cfg db op := by
  cases op with
  | addRoot k v =>
    simp only [execK, exec]
    cases e : db.get? k with
    | some r => rfl
    | none => rw [addRootK_eq h hM (fresh_of e (v := v))]
  | addChild t k v =>
    simp only [execK, exec]
    cases e : db.get? k with
    | some r => cases db.get? t <;> rfl
    | none =>
      cases e1 : db.get? t with
      | none => rfl
      | some target => simp only [addChildK_eq h hM (fresh_of e (v := v))]
  | addSibling t pos k v =>
    simp only [execK, exec]
    cases e : db.get? k with
    | some r => cases db.get? t <;> rfl
    | none =>
      cases e1 : db.get? t with
      | none => rfl
      | some target =>
        dsimp only
        rw [addSiblingK_eq h hM ((get?_eq_some h.toNI).1 e1).1 (by intro p e; cases e) (fresh_of e (v := v))]
  | move x t pos =>
    simp only [execK, exec]
    cases e : db.get? x with
    | none => rfl
    | some node =>
      cases e1 : db.get? t with
      | none => rfl
      | some target =>
        dsimp only
        rw [moveK_eq h hM ((get?_eq_some h.toNI).1 e).1 ((get?_eq_some h.toNI).1 e1).1 (by intro p e; cases e)]
  | delete S => exact deleteK_eq h hM _

/-! How fast the numbers grow: one row and one tree number per call. -/

/-- every tree number is at most `B` -/
def TreesLe (B : Int) (db : DB) : Prop := ∀ r ∈ db.rows, r.tree ≤ B

/-- the table has at most one row more, and its tree numbers grew by at most 1 -/
def Grows (db db' : DB) : Prop := db'.rows.length ≤ db.rows.length + 1 ∧ ∀ B, 0 ≤ B → TreesLe B db → TreesLe (B + 1) db'

theorem Grows.refl : Grows db db := ⟨by omega, fun B _ h r hr => by have := h r hr; omega⟩

theorem grows_gap (T l g : Int) {row : Row} (ht : ∀ B, 0 ≤ B → TreesLe B db → row.tree ≤ B + 1) : Grows db (save (alterGap db T l g) row) := by
  refine ⟨(save_length _).trans (by simp [alterGap]), fun B hB h r hr => ?_⟩
  rcases save_mem hr with hr | rfl
  · obtain ⟨q, hq, rfl⟩ := List.mem_map.1 hr
    have := h q hq
    unfold gapRow
    split <;> (try dsimp only) <;> omega
  · exact ht B hB h

theorem grows_right (T : Int) {row : Row} (ht : ∀ B, 0 ≤ B → TreesLe B db → row.tree ≤ B + 1) : Grows db (save (moveTreeRight db T) row) := by
  refine ⟨(save_length _).trans (by simp [moveTreeRight]), fun B hB h r hr => ?_⟩
  rcases save_mem hr with hr | rfl
  · obtain ⟨q, hq, rfl⟩ := List.mem_map.1 hr
    have := h q hq
    unfold treeRightRow
    split <;> (try dsimp only) <;> omega
  · exact ht B hB h

theorem grows_save {row : Row} (ht : ∀ B, 0 ≤ B → TreesLe B db → row.tree ≤ B + 1) : Grows db (save db row) := by
  refine ⟨save_length _, fun B hB h r hr => ?_⟩
  rcases save_mem hr with hr | rfl
  · have := h r hr; omega
  · exact ht B hB h

theorem lastRoot_mem {z : Row} (e : lastRootNode db = some z) : z ∈ db.rows :=
  List.mem_of_mem_filter (mem_order.1 (List.mem_of_getLast? e))

theorem addRootSibling_grows {target new obj : Row} (ht : target ∈ db.rows) {pos : Pos}
    (e : addRootSibling db target pos new = .ok (db', obj)) : Grows db db' := by
  unfold addRootSibling at e
  cases hz : lastRootNode db with
  | none => rw [hz] at e; cases e
  | some z =>
    rw [hz] at e
    dsimp only at e
    split at e
    · cases e
      exact grows_save (fun B _ h => by have := h z (lastRoot_mem hz); dsimp only; omega)
    · cases pos <;> first
        | (cases e; done)
        | (cases e; exact grows_right _ (fun B hB h => by have := h target ht; dsimp only; omega))

theorem addInnerSibling_grows {target new t obj : Row} (ht : t ∈ db.rows) {pos : Pos} {cached : Option Row} {d : Int}
    (e : addInnerSibling db target cached pos t.tree d new = .ok (db', obj)) : Grows db db' := by
  have key : ∀ T l : Int, Grows db (save (alterGap db T l 2) { new with tree := t.tree, lft := l, rgt := l + 1, depth := d }) :=
    fun T l => grows_gap _ _ _ (fun B _ h => by have := h t ht; dsimp only; omega)
  unfold addInnerSibling at e
  cases hr : resolvePos db pos target with
  | error er => rw [hr] at e; cases e
  | ok q =>
    rw [hr] at e
    dsimp only at e
    split at e
    · split at e
      · cases e
      · cases e
      · cases e; exact key _ _
    · split at e
      · cases e; exact key _ _
      · cases e

theorem addSibling_grows {t new obj : Row} (ht : t ∈ db.rows) {cached : Option Row} {pos : Option Pos}
    (e : addSibling cfg db t cached pos new = .ok (db', obj)) : Grows db db' := by
  unfold addSibling at e
  split at e
  · cases e
  · cases hs : resolveSorted cfg db _ t new.vals with
    | error er => rw [hs] at e; cases e
    | ok q =>
      rw [hs] at e
      dsimp only at e
      split at e
      · exact addRootSibling_grows (resolveSorted_mem ht hs) e
      · exact addInnerSibling_grows ht e

theorem addRoot_grows {new obj : Row} (e : addRoot cfg db new = .ok (db', obj)) : Grows db db' := by
  unfold addRoot at e
  cases hz : lastRootNode db with
  | none =>
    rw [hz] at e
    cases e
    exact grows_save (fun B hB h => by dsimp only; omega)
  | some z =>
    rw [hz] at e
    dsimp only at e
    split at e
    · exact addSibling_grows (lastRoot_mem hz) e
    · cases e
      exact grows_save (fun B _ h => by have := h z (lastRoot_mem hz); dsimp only; omega)

theorem get?_mem {k : Nat} {r : Row} (e : db.get? k = some r) : r ∈ db.rows := List.mem_of_find?_eq_some e

theorem addChild_grows {target new obj t' : Row} (e : addChild cfg db target new = .ok (db', obj, t')) : Grows db db' := by
  unfold addChild at e
  cases hg : db.get? target.pk with
  | none => rw [hg] at e; cases e
  | some node =>
    rw [hg] at e
    dsimp only at e
    split at e
    · cases e
      exact grows_gap _ _ _ (fun B _ h => by have := h node (get?_mem hg); dsimp only; omega)
    · cases hl : lastChild db node with
      | none => rw [hl] at e; cases e
      | some last =>
        rw [hl] at e
        dsimp only at e
        split at e
        · cases e
        · rename_i e1
          cases e
          exact addSibling_grows (children_sub (List.mem_of_getLast? hl)) e1

theorem moveTo_grows (h : NInv db.rows) {x target orig : Row} {parent cached : Option Row} {pos : Pos} {res : MoveResult} (hx : x ∈ db.rows)
    (ht : target ∈ db.rows) (hp : ∀ p, parent = some p → p ∈ db.rows) (hc : ∀ c, cached = some c → c ∈ db.rows)
    (e : moveTo db x target orig parent cached pos = .ok res) : Grows db res.db := by
  unfold moveTo at e
  cases e1 : makeHole db x target parent cached pos with
  | error er => rw [e1] at e; cases e
  | ok q =>
    obtain ⟨db1, T, l⟩ := q
    rw [e1] at e
    dsimp only at e
    have hT : ∀ B, 0 ≤ B → TreesLe B db → db1.rows.length = db.rows.length ∧ (∀ r ∈ db1.rows, r.tree ≤ B + 1) ∧ T ≤ B + 1 := by
      intro B hB hle
      have hM : Room (4 * (db.rows.length : Int) + 2 + (B + 1)) db := ⟨by omega, fun r hr => by have := hle r hr; omega⟩
      obtain ⟨⟨f, hf, hfr⟩, _, _⟩ := makeHole_opens h hM hx ht hp hc e1
      refine ⟨by rw [hf, List.length_map], fun r' hr' => ?_, ?_⟩
      · rw [hf] at hr'
        obtain ⟨r, hr, rfl⟩ := List.mem_map.1 hr'
        have := (hfr r hr).2.2.1
        have := hle r hr
        omega
      · have htt := hle target ht
        simp only [makeHole] at e1
        split at e1
        · cases e1; omega
        · split at e1
          · split at e1
            · split at e1
              · cases e1
              · rename_i sibs es
                split at e1
                · cases e1
                · rename_i last hl
                  cases e1
                  have := hle last (siblings_sub es (List.mem_of_getLast? hl))
                  omega
            · cases e1; omega
            · cases e1; omega
            · cases e1; omega
          · split at e1
            · split at e1
              · cases e1
              · cases e1
              · cases e1; omega
            · cases e1; omega
            · cases e1; omega
            · cases e1
    cases hg : db1.get? x.pk with
    | none => rw [hg] at e; cases e
    | some node =>
      rw [hg] at e
      dsimp only at e
      split at e
      · cases e
        have hlen : db1.rows.length = db.rows.length := by
          obtain ⟨B, hB, hle⟩ : ∃ B, 0 ≤ B ∧ TreesLe B db := by
            cases hz : lastRootNode db with
            | none => rw [lastRoot_none h.toNI hz] at hx; cases hx
            | some z => exact ⟨z.tree, by have := h.tree z (lastRoot_mem hz); omega, (root_tree_le h.toNI hz).2.2⟩
          exact (hT B hB hle).1
        refine ⟨by simp only [closeGap, alterGap, moveRows, List.length_map, hlen]; omega, fun B hB hle r hr => ?_⟩
        obtain ⟨_, k1, k2⟩ := hT B hB hle
        obtain ⟨q, hq, rfl⟩ := List.mem_map.1 hr
        obtain ⟨q', hq', rfl⟩ := List.mem_map.1 hq
        have := k1 q' hq'
        have e3 : ∀ T' a b s, (gapRow T' a b s).tree = s.tree := fun T' a b s => by unfold gapRow; split <;> rfl
        rw [e3]
        unfold jumpRow
        split <;> (try dsimp only) <;> omega
      · cases e

theorem move_grows (h : NInv db.rows) {x t : Row} (hx : x ∈ db.rows) (ht : t ∈ db.rows) {cached : Option Row}
    (hc : ∀ c, cached = some c → c ∈ db.rows) {pos : Option Pos} {res : MoveResult}
    (e : move cfg db x t cached pos = .ok res) : Grows db res.db := by
  simp only [move] at e
  split at e
  · cases e
  · split at e
    · cases e
    · rename_i pos0 _ pos1 t1 parent e1
      have hv : t1 ∈ db.rows ∧ ∀ p, parent = some p → p ∈ db.rows := by
        simp only [moveVars] at e1
        split at e1
        · split at e1
          · cases e1
          · split at e1
            · cases e1; exact ⟨ht, fun p hp => by cases hp; exact ht⟩
            · split at e1
              · cases e1
              · rename_i last hl
                cases e1
                exact ⟨children_sub (List.mem_of_getLast? hl), fun p hp => by cases hp⟩
        · cases e1; exact ⟨ht, fun p hp => by cases hp⟩
      simp only [moveFrom] at e
      split at e
      · cases e
      · split at e
        · cases e
        · cases e; exact .refl
        · split at e
          · cases e
          · rename_i e2
            split at e
            · cases e
            · rename_i e3
              refine moveTo_grows h hx (resolvePos_mem (resolveSorted_mem hv.1 e2) e3) hv.2 ?_ e
              intro c hcc
              split at hcc
              · exact hc c hcc
              · cases hcc

theorem foldl_execDel_tree (stmts : List DelStmt) : ∀ db : DB, (stmts.foldl execDel db).rows.length ≤ db.rows.length ∧
    ∀ B, TreesLe B db → TreesLe B (stmts.foldl execDel db) := by
  induction stmts with
  | nil => intro db; exact ⟨le_refl _, fun _ h => h⟩
  | cons s stmts ih =>
    intro db
    obtain ⟨h1, h2⟩ := ih (execDel db s)
    have h3 : (execDel db s).rows.length ≤ db.rows.length ∧ ∀ B, TreesLe B db → TreesLe B (execDel db s) := by
      cases s with
      | delete ranges => exact ⟨List.length_filter_le _ _, fun B h r hr => h r (List.mem_of_mem_filter hr)⟩
      | close g =>
        refine ⟨by simp [execDel, closeGap, alterGap], fun B h r hr => ?_⟩
        obtain ⟨q, hq, rfl⟩ := List.mem_map.1 hr
        have := h q hq
        unfold gapRow
        split <;> (try dsimp only) <;> omega
    exact ⟨h1.trans h3.1, fun B h => h2 B (h3.2 B h)⟩

theorem delete_grows (sel : Row → Bool) : Grows db (delete db sel) := by
  obtain ⟨h1, h2⟩ := foldl_execDel_tree (deleteStmts db sel) db
  exact ⟨Nat.le_succ_of_le h1, fun B _ h r hr => by have := h2 B h r hr; omega⟩

theorem step_grows (h : NInv db.rows) (op : Op) : Grows db (step cfg db op) := by
  unfold step
  cases e : exec cfg db op with
  | error er => exact .refl
  | ok db' =>
    dsimp only
    cases op with
    | addRoot k v =>
      simp only [exec] at e
      split at e
      · cases e
      · cases e1 : addRoot cfg db ⟨k, 0, 0, 0, 0, v⟩ with
        | error er => rw [e1] at e; cases e
        | ok q => rw [e1] at e; cases e; exact addRoot_grows e1
    | addChild t k v =>
      simp only [exec] at e
      split at e
      · cases e
      · cases e
      · rename_i target _ _
        cases e1 : addChild cfg db target ⟨k, 0, 0, 0, 0, v⟩ with
        | error er => rw [e1] at e; cases e
        | ok q => rw [e1] at e; cases e; exact addChild_grows e1
    | addSibling t pos k v =>
      simp only [exec] at e
      split at e
      · cases e
      · cases e
      · rename_i target _ ht
        cases e1 : addSibling cfg db target none pos ⟨k, 0, 0, 0, 0, v⟩ with
        | error er => rw [e1] at e; cases e
        | ok q => rw [e1] at e; cases e; exact addSibling_grows (get?_mem ht) e1
    | move x t pos =>
      simp only [exec] at e
      split at e
      · rename_i node target hx ht
        cases e1 : move cfg db node target none pos with
        | error er => rw [e1] at e; cases e
        | ok q => rw [e1] at e; cases e; exact move_grows h (get?_mem hx) (get?_mem ht) (by intro c e; cases e) e1
      · cases e
    | delete S => cases e; exact delete_grows _

theorem stepK_eq (h : NInv db.rows) (hM : Room M db) (op : Op) : stepK M cfg db op = step cfg db op := by
  unfold stepK step
  rw [execK_eq h hM]
  rfl

/-- the room for `n` calls -/
def RoomFor (M : Int) (n : Nat) (db : DB) : Prop := 4 * ((db.rows.length : Int) + n) + 2 ≤ M ∧ ∀ r ∈ db.rows, r.tree + n ≤ M

instance (M : Int) (n : Nat) (db : DB) : Decidable (RoomFor M n db) := inferInstanceAs (Decidable (_ ∧ _))

theorem RoomFor.room {n : Nat} (h : RoomFor M (n + 1) db) : Room M db :=
  ⟨by have := h.1; omega, fun r hr => by have := h.2 r hr; omega⟩

theorem RoomFor.next {n : Nat} (h : RoomFor M (n + 1) db) (hg : Grows db db') : RoomFor M n db' := by
  obtain ⟨h1, h2⟩ := h
  obtain ⟨g1, g2⟩ := hg
  refine ⟨by omega, fun r hr => ?_⟩
  have := g2 (M - (n + 1)) (by omega) (fun r hr => by have := h2 r hr; omega) r hr
  omega

theorem runOpsK_eq (ops : List Op) : ∀ {db : DB}, NInv db.rows → RoomFor M ops.length db → runOpsK M cfg db ops = runOps cfg db ops := by
  induction ops with
  | nil => intro db _ _; rfl
  | cons op ops ih =>
    intro db h hM
    have h1 : Consistent (step cfg db op) := step_consistent h op
    have := ih h1 (hM.next (step_grows h op))
    unfold runOpsK runOps at this ⊢
    rw [List.foldl_cons, List.foldl_cons, stepK_eq h hM.room, this]

end Verif.NS
