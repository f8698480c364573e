/-
AL: the column `sib_order` has a range.

It is a PositiveIntegerField (docs/source/al_tree.rst, tests/models.py:78): the database refuses a statement that leaves a
negative number, or one above the largest integer of the column, in a row.  Model.lean lets all integers in.  The functions
here are those of Model.lean, with every statement checked; they are for models without `node_order_by`, which have the column.
-/
import Verif.AL.History

namespace Verif.AL

/-- the row can be stored -/
def Row.fits (M : Int) (r : Row) : Bool := decide (0 ≤ r.sib ∧ r.sib ≤ M)

/-- The table after a statement: the statement raises if it leaves a number out of range. -/
def written (M : Int) (db : DB) : Except Err DB := if db.rows.all (Row.fits M) then .ok db else .error .integrity

/-- `obj.save()`, as `save` -/
def saveK (M : Int) (db : DB) (row : Row) : Except Err DB := (save db row).bind (written M)

/-- al_tree.py:64-74 `add_root`, as `addRoot` -/
def addRootK (M : Int) (cfg : Cfg) (db : DB) (new : Row) : Except Err (DB × Row) :=
  let new := if cfg.ordered then new else { new with sib := maxSib (withParent db none) + 1 }
  match saveK M db new with
  | .error e => .error e
  | .ok db => .ok (db, new)

/-- al_tree.py:76-93 `add_child`, as `addChild` -/
def addChildK (M : Int) (cfg : Cfg) (db : DB) (target : Row) (cached : Option Int) (new : Row) : Except Err (DB × Row × Option Int) :=
  let new := if cfg.ordered then new else { new with sib := maxSib (withParent db (some target.pk)) + 1 }
  let new := { new with parent := some target.pk }
  match saveK M db new with
  | .error e => .error e
  | .ok db => .ok (db, new, cached.map (· + 1))

/-- al_tree.py:283-287 `_get_new_sibling_order`, as `newSibOrder`: the hole is a statement -/
def newSibOrderK (M : Int) (cfg : Cfg) (db : DB) (pos : Pos) (target : Row) : Except Err (DB × Int) :=
  if isLastPos cfg db pos target then
    match lastSibling cfg db target with
    | none => .error .attributeError
    | some l => .ok (db, l.sib + 1)
  else
    match makeHole db pos target with
    | .error e => .error e
    | .ok (db, o) => match written M db with
      | .error e => .error e
      | .ok db => .ok (db, o)

/-- al_tree.py:102-103, as `addOrder` -/
def addOrderK (M : Int) (cfg : Cfg) (db : DB) (pos : Pos) (target new : Row) : Except Err (DB × Int) :=
  if cfg.ordered then .ok (db, new.sib) else newSibOrderK M cfg db pos target

/-- al_tree.py:95-106 `add_sibling`, as `addSibling` -/
def addSiblingK (M : Int) (cfg : Cfg) (db : DB) (target : Row) (pos : Option Pos) (new : Row) : Except Err (DB × Row) :=
  match preparePosForAddSibling cfg.ordered pos with
  | .error e => .error e
  | .ok pos =>
    match addOrderK M cfg db pos target new with
    | .error e => .error e
    | .ok (db, o) =>
      let new := { new with sib := o, parent := target.parent }
      match saveK M db new with
      | .error e => .error e
      | .ok db => .ok (db, new)

/-- al_tree.py:150-151, as `goalOrder` -/
def goalOrderK (M : Int) (cfg : Cfg) (db : DB) (node : Row) (g : Goal) : Except Err (DB × Int) :=
  if g.pos == .sortedSibling then .ok (db, node.sib)
  else match g.sibOrder with
    | some o => .ok (db, o)
    | none => newSibOrderK M cfg db g.pos g.target

/-- al_tree.py:149-153, as `moveTo` -/
def moveToK (M : Int) (cfg : Cfg) (db : DB) (node : Row) (g : Goal) : Except Err (DB × Row) :=
  match goalParent db g with
  | .error e => .error e
  | .ok parent => match goalOrderK M cfg db node g with
    | .error e => .error e
    | .ok (db, o) =>
      let node := { node with parent := parent.map Row.pk, sib := o }
      match saveK M db node with
      | .error e => .error e
      | .ok db => .ok (db, node)

/-- al_tree.py:108-153 `move`, as `move` -/
def moveK (M : Int) (cfg : Cfg) (db : DB) (node target : Row) (cached : Option Int) (pos : Option Pos) : Except Err (DB × Row) :=
  match preparePosForMove cfg.ordered pos with
  | .error e => .error e
  | .ok pos => match moveGoal cfg db node target pos with
    | .error e => .error e
    | .ok g => match isDescendantOf cfg db g.target node cached with
      | .error e => .error e
      | .ok true => .error .invalidMoveToDescendant
      | .ok false =>
        if noMove cfg db node g.target g.pos then .ok (db, node)
        else moveToK M cfg db node g

/-- one operation on freshly fetched nodes, as `exec` (a deletion writes no number) -/
def execK (M : Int) (cfg : Cfg) (db : DB) : Op → Except Err DB
  | .addRoot k v => match db.get? k with
    | some _ => .error .integrity
    | none => (addRootK M cfg db ⟨k, none, 0, v⟩).map (·.1)
  | .addChild t k v => match db.get? k, db.get? t with
    | _, none => .error .doesNotExist
    | some _, _ => .error .integrity
    | none, some target => (addChildK M cfg db target none ⟨k, none, 0, v⟩).map (·.1)
  | .addSibling t pos k v => match db.get? k, db.get? t with
    | _, none => .error .doesNotExist
    | some _, _ => .error .integrity
    | none, some target => (addSiblingK M cfg db target pos ⟨k, none, 0, v⟩).map (·.1)
  | .move x t pos => match db.get? x, db.get? t with
    | some node, some target => (moveK M cfg db node target none pos).map (·.1)
    | _, _ => .error .doesNotExist
  | .delete S => .ok (delete db (fun r => S.contains r.pk))

/-- one call of a history, as `step` -/
def stepK (M : Int) (cfg : Cfg) (db : DB) (op : Op) : DB :=
  match execK M cfg db op with
  | .ok db' => db'
  | .error _ => db

/-- a whole history, as `runOps` -/
def runOpsK (M : Int) (cfg : Cfg) (db : DB) (ops : List Op) : DB := ops.foldl (stepK M cfg) db

/-! ### Every statement stays in the range -/

variable {cfg : Cfg} {db db' : DB} {M : Int}

/-- every position lies between 0 and `B` -/
def SibsIn (B : Int) (db : DB) : Prop := ∀ r ∈ db.rows, 0 ≤ r.sib ∧ r.sib ≤ B

instance (B : Int) (db : DB) : Decidable (SibsIn B db) := inferInstanceAs (Decidable (∀ r ∈ db.rows, _))

theorem written_ok (h : SibsIn M db) : written M db = .ok db := by
  unfold written
  rw [if_pos (List.all_eq_true.2 (fun r hr => by unfold Row.fits; rw [decide_eq_true_eq]; exact h r hr))]

theorem SibsIn.mono {B C : Int} (h : SibsIn B db) (hBC : B ≤ C) : SibsIn C db := fun r hr => by have := h r hr; omega

theorem maxSib_le {B : Int} (h : SibsIn B db) (hB : 0 ≤ B) (p : Option Nat) : 0 ≤ maxSib (withParent db p) ∧ maxSib (withParent db p) ≤ B := by
  unfold maxSib
  cases e : ((withParent db p).map Row.sib).max? with
  | none => exact ⟨le_refl _, hB⟩
  | some m =>
    obtain ⟨r, hr, rfl⟩ := List.mem_map.1 (List.max?_mem e)
    exact h r (List.mem_of_mem_filter hr)

theorem save_sibs {B : Int} {row : Row} (h : SibsIn B db) (hr : 0 ≤ row.sib ∧ row.sib ≤ B) (e : save db row = .ok db') : SibsIn B db' := by
  have key : ∀ r ∈ (if db.rows.any (·.pk == row.pk) then db.rows.map (fun r => if r.pk == row.pk then row else r) else db.rows ++ [row]),
      0 ≤ r.sib ∧ r.sib ≤ B := by
    intro r hrm
    split at hrm
    · obtain ⟨q, hq, rfl⟩ := List.mem_map.1 hrm
      split
      · exact hr
      · exact h q hq
    · rcases List.mem_append.1 hrm with hrm | hrm
      · exact h r hrm
      · rw [List.mem_singleton.1 hrm]; exact hr
  unfold save at e
  generalize (if db.rows.any (·.pk == row.pk) then db.rows.map (fun r => if r.pk == row.pk then row else r) else db.rows ++ [row]) = rows at e key
  dsimp only at e
  split at e
  · cases e; exact key
  · split at e
    · cases e; exact key
    · cases e

theorem saveK_eq {row : Row} (h : SibsIn M db) (hr : 0 ≤ row.sib ∧ row.sib ≤ M) : saveK M db row = save db row := by
  unfold saveK
  cases e : save db row with
  | error er => rfl
  | ok db' => exact written_ok (save_sibs h hr e)

theorem order_sub {l : List Row} {r : Row} (h : r ∈ order cfg l) : r ∈ l := by
  unfold order at h
  exact (cfg.ties_perm l).mem_iff.1 ((sortBy_perm _ _).mem_iff.1 h)

theorem siblings_sub {t r : Row} (h : r ∈ siblings cfg db t) : r ∈ db.rows := by
  unfold siblings rootNodes at h
  split at h <;> exact List.mem_of_mem_filter (order_sub h)

/-- the hole: positions grow by at most 1 -/
theorem makeHole_sibs {B : Int} (h : SibsIn B db) (hB : 0 ≤ B) {t : Row} (ht : 0 ≤ t.sib ∧ t.sib ≤ B) {pos : Pos} {o : Int}
    (e : makeHole db pos t = .ok (db', o)) : SibsIn (B + 1) db' ∧ 0 ≤ o ∧ o ≤ B + 1 := by
  have key : ∀ m : Int, SibsIn (B + 1) (if m == 0 then db
      else ⟨db.rows.map (fun r => if r.parent == t.parent && decide (m ≤ r.sib) then { r with sib := r.sib + 1 } else r)⟩) := by
    intro m
    split
    · exact h.mono (by omega)
    · intro r hr
      obtain ⟨q, hq, rfl⟩ := List.mem_map.1 hr
      have := h q hq
      split
      · dsimp only; omega
      · omega
  unfold makeHole at e
  simp only at e
  cases pos <;> first
    | (cases e; done)
    | (cases e; exact ⟨key _, by omega, by omega⟩)

theorem newSibOrder_sibs {B : Int} (h : SibsIn B db) (hB : 0 ≤ B) {t : Row} (ht : 0 ≤ t.sib ∧ t.sib ≤ B) {pos : Pos} {o : Int}
    (e : newSibOrder cfg db pos t = .ok (db', o)) : SibsIn (B + 1) db' ∧ 0 ≤ o ∧ o ≤ B + 1 := by
  unfold newSibOrder at e
  split at e
  · cases hl : lastSibling cfg db t with
    | none => rw [hl] at e; cases e
    | some l =>
      rw [hl] at e
      cases e
      have := h l (siblings_sub (List.mem_of_getLast? hl))
      exact ⟨h.mono (by omega), by omega, by omega⟩
  · exact makeHole_sibs h hB ht e

theorem newSibOrderK_eq (h : SibsIn (M - 1) db) (hM : 1 ≤ M) {t : Row} (ht : 0 ≤ t.sib ∧ t.sib ≤ M - 1) (pos : Pos) :
    newSibOrderK M cfg db pos t = newSibOrder cfg db pos t := by
  unfold newSibOrderK newSibOrder
  split
  · rfl
  · cases e : makeHole db pos t with
    | error er => rfl
    | ok q =>
      have := (makeHole_sibs h (by omega) ht e).1
      dsimp only
      rw [written_ok (by rw [show M = M - 1 + 1 by omega]; exact this)]

/-! ### The operations -/

/-- what an operation leaves: positions between 0 and one more than before -/
theorem addRoot_sibs {B : Int} (h : SibsIn B db) (hB : 0 ≤ B) (ho : cfg.ordered = false) {new obj : Row}
    (e : addRoot cfg db new = .ok (db', obj)) : SibsIn (B + 1) db' := by
  unfold addRoot at e
  rw [ho] at e
  simp only [Bool.false_eq_true, if_false] at e
  have := maxSib_le h hB none
  split at e
  · cases e
  · rename_i e1
    cases e
    exact save_sibs (h.mono (by omega)) (by dsimp only; omega) e1

theorem addRootK_eq (h : SibsIn (M - 1) db) (hM : 1 ≤ M) (ho : cfg.ordered = false) (new : Row) : addRootK M cfg db new = addRoot cfg db new := by
  unfold addRootK addRoot
  rw [ho]
  simp only [Bool.false_eq_true, if_false]
  have := maxSib_le h (by omega) none
  rw [saveK_eq (h.mono (by omega)) (by dsimp only; omega)]
  rfl

theorem addChild_sibs {B : Int} (h : SibsIn B db) (hB : 0 ≤ B) (ho : cfg.ordered = false) {target new : Row} {c : Option Int} {q : Row × Option Int}
    (e : addChild cfg db target c new = .ok (db', q)) : SibsIn (B + 1) db' := by
  unfold addChild at e
  rw [ho] at e
  simp only [Bool.false_eq_true, if_false] at e
  have := maxSib_le h hB (some target.pk)
  split at e
  · cases e
  · rename_i e1
    cases e
    exact save_sibs (h.mono (by omega)) (by dsimp only; omega) e1

theorem addChildK_eq (h : SibsIn (M - 1) db) (hM : 1 ≤ M) (ho : cfg.ordered = false) (target : Row) (c : Option Int) (new : Row) :
    addChildK M cfg db target c new = addChild cfg db target c new := by
  unfold addChildK addChild
  rw [ho]
  simp only [Bool.false_eq_true, if_false]
  have := maxSib_le h (by omega) (some target.pk)
  rw [saveK_eq (h.mono (by omega)) (by dsimp only; omega)]
  rfl

theorem addSibling_sibs {B : Int} (h : SibsIn B db) (hB : 0 ≤ B) (ho : cfg.ordered = false) {t new obj : Row} (ht : 0 ≤ t.sib ∧ t.sib ≤ B)
    {pos : Option Pos} (e : addSibling cfg db t pos new = .ok (db', obj)) : SibsIn (B + 1) db' := by
  unfold addSibling addOrder at e
  rw [ho] at e
  simp only [Bool.false_eq_true, if_false] at e
  split at e
  · cases e
  · split at e
    · cases e
    · rename_i e1
      obtain ⟨h1, h2⟩ := newSibOrder_sibs h hB ht e1
      split at e
      · cases e
      · rename_i e2
        cases e
        exact save_sibs h1 h2 e2

theorem addSiblingK_eq (h : SibsIn (M - 1) db) (hM : 1 ≤ M) (ho : cfg.ordered = false) {t : Row} (ht : 0 ≤ t.sib ∧ t.sib ≤ M - 1)
    (pos : Option Pos) (new : Row) : addSiblingK M cfg db t pos new = addSibling cfg db t pos new := by
  unfold addSiblingK addSibling addOrderK addOrder
  rw [ho]
  simp only [Bool.false_eq_true, if_false]
  cases preparePosForAddSibling false pos with
  | error e => rfl
  | ok pos =>
    dsimp only
    rw [newSibOrderK_eq h hM ht]
    cases e1 : newSibOrder cfg db pos t with
    | error e => rfl
    | ok q =>
      obtain ⟨h1, h2⟩ := newSibOrder_sibs h (by omega) ht e1
      rw [show M - 1 + 1 = M by omega] at h1 h2
      dsimp only
      rw [saveK_eq h1 h2]
      rfl

/-- the goal of a move is a stored row or the target -/
theorem moveGoal_sibs {B : Int} (h : SibsIn B db) {x t : Row} (ht : 0 ≤ t.sib ∧ t.sib ≤ B) {pos : Pos} {g : Goal}
    (e : moveGoal cfg db x t pos = .ok g) : (0 ≤ g.target.sib ∧ g.target.sib ≤ B) ∧ (∀ o, g.sibOrder = some o → o = 1) := by
  unfold moveGoal at e
  split at e
  · split at e
    · cases e
    · split at e
      · cases hl : lastChild cfg db t with
        | none => rw [hl] at e; cases e
        | some l =>
          rw [hl] at e
          cases e
          refine ⟨h l (List.mem_of_mem_filter (order_sub (List.mem_of_getLast? hl))), fun o e => by cases e⟩
      · split at e
        · cases e; exact ⟨ht, fun o e => by cases e⟩
        · cases e; exact ⟨ht, fun o e => by cases e; rfl⟩
  · cases e; exact ⟨ht, fun o e => by cases e⟩

theorem goalOrder_sibs {B : Int} (h : SibsIn B db) (hB : 0 ≤ B) {x : Row} (hx : 0 ≤ x.sib ∧ x.sib ≤ B) {g : Goal}
    (hg : 0 ≤ g.target.sib ∧ g.target.sib ≤ B) (h1 : ∀ o, g.sibOrder = some o → o = 1) {o : Int}
    (e : goalOrder cfg db x g = .ok (db', o)) : SibsIn (B + 1) db' ∧ 0 ≤ o ∧ o ≤ B + 1 := by
  unfold goalOrder at e
  split at e
  · cases e; exact ⟨h.mono (by omega), by omega, by omega⟩
  · split at e
    · rename_i o' ho'
      cases e
      have := h1 _ ho'
      exact ⟨h.mono (by omega), by omega, by omega⟩
    · exact newSibOrder_sibs h hB hg e

theorem goalOrderK_eq (h : SibsIn (M - 1) db) (hM : 1 ≤ M) {x : Row} {g : Goal}
    (hg : 0 ≤ g.target.sib ∧ g.target.sib ≤ M - 1) : goalOrderK M cfg db x g = goalOrder cfg db x g := by
  unfold goalOrderK goalOrder
  split
  · rfl
  · cases g.sibOrder with
    | some o => rfl
    | none => exact newSibOrderK_eq h hM hg _

theorem move_sibs {B : Int} (h : SibsIn B db) (hB : 0 ≤ B) {x t obj : Row} (hx : 0 ≤ x.sib ∧ x.sib ≤ B) (ht : 0 ≤ t.sib ∧ t.sib ≤ B)
    {c : Option Int} {pos : Option Pos} (e : move cfg db x t c pos = .ok (db', obj)) : SibsIn (B + 1) db' := by
  unfold move at e
  split at e
  · cases e
  · split at e
    · cases e
    · rename_i g hg
      obtain ⟨h1, h2⟩ := moveGoal_sibs h ht hg
      split at e
      · cases e
      · cases e
      · split at e
        · cases e; exact h.mono (by omega)
        · unfold moveTo at e
          split at e
          · cases e
          · split at e
            · cases e
            · rename_i e1
              obtain ⟨k1, k2⟩ := goalOrder_sibs h hB hx h1 h2 e1
              dsimp only at e
              split at e
              · cases e
              · rename_i e2
                cases e
                exact save_sibs k1 k2 e2

theorem moveK_eq (h : SibsIn (M - 1) db) (hM : 1 ≤ M) {x t : Row} (hx : 0 ≤ x.sib ∧ x.sib ≤ M - 1) (ht : 0 ≤ t.sib ∧ t.sib ≤ M - 1)
    (c : Option Int) (pos : Option Pos) : moveK M cfg db x t c pos = move cfg db x t c pos := by
  unfold moveK move
  cases preparePosForMove cfg.ordered pos with
  | error e => rfl
  | ok pos =>
    dsimp only
    cases hg : moveGoal cfg db x t pos with
    | error e => rfl
    | ok g =>
      obtain ⟨h1, h2⟩ := moveGoal_sibs h ht hg
      dsimp only
      cases isDescendantOf cfg db g.target x c with
      | error e => rfl
      | ok b =>
        cases b with
        | true => rfl
        | false =>
          dsimp only
          split
          · rfl
          · unfold moveToK moveTo
            cases goalParent db g with
            | error e => rfl
            | ok p =>
              dsimp only
              rw [goalOrderK_eq h hM h1]
              cases e1 : goalOrder cfg db x g with
              | error e => rfl
              | ok q =>
                obtain ⟨k1, k2⟩ := goalOrder_sibs h (by omega) hx h1 h2 e1
                rw [show M - 1 + 1 = M by omega] at k1 k2
                dsimp only
                rw [saveK_eq k1 k2]
                rfl

/-! ### Histories -/

theorem get?_mem {k : Nat} {r : Row} (e : db.get? k = some r) : r ∈ db.rows := List.mem_of_find?_eq_some e

theorem execK_eq (h : SibsIn (M - 1) db) (hM : 1 ≤ M) (ho : cfg.ordered = false) (op : Op) : execK M cfg db op = exec cfg db op := by
  cases op with
  | addRoot k v => simp only [execK, exec, addRootK_eq h hM ho]; rfl
  | addChild t k v => simp only [execK, exec, addChildK_eq h hM ho]; rfl
  | addSibling t pos k v =>
    simp only [execK, exec]
    cases db.get? k with
    | some r => cases db.get? t <;> rfl
    | none =>
      cases e1 : db.get? t with
      | none => rfl
      | some target =>
        dsimp only
        rw [addSiblingK_eq h hM ho (h _ (get?_mem e1))]
  | move x t pos =>
    simp only [execK, exec]
    cases e : db.get? x with
    | none => rfl
    | some node =>
      cases e1 : db.get? t with
      | none => rfl
      | some target =>
        dsimp only
        rw [moveK_eq h hM (h _ (get?_mem e)) (h _ (get?_mem e1))]
  | delete S => rfl

theorem step_sibs {B : Int} (h : SibsIn B db) (hB : 0 ≤ B) (ho : cfg.ordered = false) (op : Op) : SibsIn (B + 1) (step cfg db op) := by
  unfold step
  cases e : exec cfg db op with
  | error er => exact h.mono (by omega)
  | ok db' =>
    dsimp only
    cases op with
    | addRoot k v =>
      simp only [exec] at e
      split at e
      · cases e
      · cases e1 : addRoot cfg db ⟨k, none, 0, v⟩ with
        | error er => rw [e1] at e; cases e
        | ok q => rw [e1] at e; cases e; exact addRoot_sibs h hB ho e1
    | addChild t k v =>
      simp only [exec] at e
      split at e
      · cases e
      · cases e
      · rename_i target _ _
        cases e1 : addChild cfg db target none ⟨k, none, 0, v⟩ with
        | error er => rw [e1] at e; cases e
        | ok q => rw [e1] at e; cases e; exact addChild_sibs h hB ho e1
    | addSibling t pos k v =>
      simp only [exec] at e
      split at e
      · cases e
      · cases e
      · rename_i target _ ht
        cases e1 : addSibling cfg db target pos ⟨k, none, 0, v⟩ with
        | error er => rw [e1] at e; cases e
        | ok q => rw [e1] at e; cases e; exact addSibling_sibs h hB ho (h _ (get?_mem ht)) e1
    | move x t pos =>
      simp only [exec] at e
      split at e
      · rename_i node target hx ht
        cases e1 : move cfg db node target none pos with
        | error er => rw [e1] at e; cases e
        | ok q => rw [e1] at e; cases e; exact move_sibs h hB (h _ (get?_mem hx)) (h _ (get?_mem ht)) e1
      · cases e
    | delete S =>
      cases e
      intro r hr
      have := h r (List.mem_of_mem_filter hr)
      omega

theorem stepK_eq (h : SibsIn (M - 1) db) (hM : 1 ≤ M) (ho : cfg.ordered = false) (op : Op) : stepK M cfg db op = step cfg db op := by
  unfold stepK step
  rw [execK_eq h hM ho]
  rfl

theorem runOpsK_eq (ho : cfg.ordered = false) (ops : List Op) : ∀ {db : DB} {B : Int}, SibsIn B db → 0 ≤ B → B + ops.length ≤ M →
    runOpsK M cfg db ops = runOps cfg db ops := by
  induction ops with
  | nil => intro db B _ _ _; rfl
  | cons op ops ih =>
    intro db B h hB hM
    rw [List.length_cons] at hM
    have := ih (step_sibs h hB ho op) (by omega) (by omega)
    unfold runOpsK runOps at this ⊢
    rw [List.foldl_cons, List.foldl_cons, stepK_eq (h.mono (by omega)) (by omega) ho, this]

end Verif.AL
