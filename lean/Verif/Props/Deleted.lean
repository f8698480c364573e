/-
C70: calls with the object of a node that has been deleted meanwhile.
-/
import Verif.MP.Example
import Verif.MP.Move
import Verif.Props.NSTree
import Verif.Props.ALTree
import Verif.Props.LTTree

namespace Verif

namespace MP

variable {cfg : Cfg} {db : DB}

/-- no node has this primary key (any more) -/
def Gone (db : DB) (k : Nat) : Prop := ∀ r ∈ db.rows, r.pk ≠ k

theorem Gone.get? {k : Nat} (h : Gone db k) : db.get? k = none := by
  unfold DB.get?
  rw [List.find?_eq_none]
  intro r hr
  simpa using h r hr

theorem Gone.map {k : Nat} (h : Gone db k) {f : Row → Row} (hf : ∀ r, (f r).pk = r.pk) {s : List Sig} : Gone ⟨db.rows.map f, s⟩ k := by
  intro r hr
  obtain ⟨r', hr', rfl⟩ := List.mem_map.1 hr
  rw [hf]
  exact h r' hr'

theorem Gone.setNewpath {k : Nat} (h : Gone db k) {old new : List Nat} {db' : DB} (e : setNewpath cfg db old new = .ok db') : Gone db' k := by
  unfold MP.setNewpath at e
  dsimp only at e
  split at e
  · cases e
    exact h.map (fun r => by unfold newpathRow; split <;> rfl)
  · cases e

theorem Gone.shiftLoop {k : Nat} {l : List Row} : ∀ {db : DB} {old : Option (List Nat)} {x : DB × Option (List Nat)}, Gone db k →
    shiftLoop cfg l db old = .ok x → Gone x.1 k := by
  induction l with
  | nil => intro db old x h e; cases e; exact h
  | cons n ns ih =>
    intro db old x h e
    unfold MP.shiftLoop at e
    split at e
    · cases e
    · split at e
      · cases e
      · rename_i es
        exact ih (h.setNewpath es) e

theorem Gone.moveToTemp {k : Nat} (h : Gone db k) {t : Row} {l : List Row} {d : Nat} {old new : List Nat} {x : DB × Option (List Nat)}
    (e : moveToTemp cfg db t l d old new = .ok x) : Gone x.1 k := by
  unfold MP.moveToTemp at e
  split at e
  · split at e
    · cases e
    · split at e
      · cases e
      · split at e
        · cases e
        · split at e
          · cases e
          · rename_i es
            cases e
            exact h.setNewpath es
  · cases e; exact h

theorem Gone.reorder {k : Nat} (h : Gone db k) {pos : Pos} {np : Option Int} {d : Nat} {t : Row} {l : List Row} {old : Option (List Nat)}
    {x : DB × Option (List Nat) × List Nat} (e : reorder cfg db pos np d t l old = .ok x) : Gone x.1 k := by
  unfold MP.reorder at e
  split at e
  · split at e
    · cases e
    · split at e
      · cases e
      · split at e
        · cases e; exact h
        · split at e
          · cases e
          · rename_i es
            cases e
            exact h.setNewpath es
  · split at e
    · cases e
    · split at e
      · cases e
      · split at e
        · cases e
        · rename_i db1 temp et
          have h1 : Gone db1 k := by
            split at et
            · cases et; exact h
            · exact h.moveToTemp et
          split at e
          · cases e
          · split at e
            · cases e
            · rename_i es
              have h2 := h1.shiftLoop es
              split at e
              · cases e; exact h2
              · split at e
                · cases e
                · rename_i en
                  cases e
                  exact h2.setNewpath en

theorem Gone.addNumchild {k : Nat} (h : Gone db k) {p : List Nat} {n : Int} : Gone (addNumchild db p n) k :=
  h.map (fun r => by split <;> rfl)

theorem Gone.updateParentCounts {k : Nat} (h : Gone db k) {old new : List Nat} : Gone (updateParentCounts cfg db old new) k := by
  unfold MP.updateParentCounts
  dsimp only
  split
  · split
    · split
      · exact h.addNumchild.addNumchild
      · exact h.addNumchild
    · split
      · exact h.addNumchild
      · exact h
  · exact h

theorem moveSorted_target {x : Row} {v v' : MoveVars} (e : moveSorted cfg db x v = .ok (some v')) : v'.target = v.target := by
  unfold moveSorted at e
  dsimp only at e
  split at e
  · split at e
    · cases e; rfl
    · split at e
      · cases e
      · split at e
        · split at e
          · cases e
          · split at e <;> cases e
            rfl
        · cases e; rfl
  · cases e; rfl

/-- the end of `move` fetches the node and the target again -/
theorem moveTo_gone {x t t' : Row} {v : MoveVars} (h : Gone db x.pk ∨ Gone db v.target.pk) {res : MoveResult}
    (e : moveTo cfg db x t t' v = .ok res) : res.db = db := by
  unfold moveTo at e
  split at e
  · cases e; rfl
  · split at e
    · cases e
    · rename_i db1 old new er
      unfold finishMove at e
      dsimp only at e
      split at e
      · rename_i e1 e2
        rcases h with h | h
        · rw [((h.reorder er).updateParentCounts).get?] at e1; cases e1
        · rw [((h.reorder er).updateParentCounts).get?] at e2; cases e2
      · cases e

/-- **C70 for MP, `add_child`**: a deleted node gets no children. -/
theorem C70_mp_add_child {t new : Row} (h : Gone db t.pk) : addChild cfg db t new = .error .doesNotExist := by
  unfold addChild
  rw [h.get?]

/-- **C70 for MP, `move` of a deleted node**: the table does not change, whatever it contains. -/
theorem C70_mp_move {x t : Row} (h : Gone db x.pk) {pos : Option Pos} {res : MoveResult} (e : move cfg db x t pos = .ok res) : res.db = db := by
  unfold move at e
  split at e
  · cases e
  · split at e
    · cases e
    · dsimp only at e
      split at e
      · cases e
      · split at e
        · cases e
        · cases e; rfl
        · exact moveTo_gone (.inl h) e

/-- **C70 for MP, `move` to a deleted target** (partial: next to it, or below an object that says that it is a leaf; otherwise see `C70_mp_reused`): the
table does not change, whatever it contains. -/
theorem C70_mp_move_to_partial {x t : Row} (h : Gone db t.pk) {pos : Option Pos} {p : Pos} (hp : preparePosForMove cfg.ordered pos = .ok p)
    (hl : isChildPos p = false ∨ t.isLeaf = true) {res : MoveResult} (e : move cfg db x t pos = .ok res) : res.db = db := by
  unfold move at e
  rw [hp] at e
  dsimp only at e
  split at e
  · cases e
  · rename_i v ev
    have hv : v.target = t := by
      unfold moveToChildVars at ev
      split at ev
      · rename_i hc
        rcases hl with hl | hl
        · rw [hl] at hc; cases hc
        · split at ev
          · cases ev
          · cases ev; rfl
      · cases ev; rfl
    split at e
    · cases e
    · split at e
      · cases e
      · cases e; rfl
      · rename_i v' es
        refine moveTo_gone (.inr ?_) e
        rw [moveSorted_target es, hv]
        exact h

/-- **C70 for MP, `delete` of a deleted node** changes nothing. -/
theorem C70_mp_delete {k : Nat} (h : Gone db k) : delete cfg db (fun r => r.pk == k) = db := by
  have e : db.rows.filter (fun r => r.pk == k) = [] := by
    rw [List.filter_eq_nil_iff]
    intro r hr
    simpa using h r hr
  unfold delete deleteStmts
  rw [e]
  have e1 : removedLoop cfg (orderByDepthPath []) [] = [] := rfl
  rw [e1]
  simp [deletePlan, execDel, delMatches]

/-- roots 1 and 2, and 3 below 2 -/
def goneDB : DB := { rows := [⟨1, [49], 1, 0, []⟩, ⟨2, [50], 1, 1, []⟩, ⟨3, [50, 49], 2, 0, []⟩] }

theorem goneDB_consistent : Consistent exCfg goneDB := ⟨by decide, by decide, by intro p; cases p <;> decide, by decide, by decide⟩

/-- **C70 fails for MP: below a target whose path has been used again.**  The root 2 is deleted, a new root 6 gets its path, and a child 7.  Then 1 is moved
below the deleted node, and goes below the new one instead. -/
theorem C70_mp_reused : Consistent exCfg goneDB ∧ ∃ (db₂ db₃ : DB) (o6 o7 o6' : Row) (res : MoveResult), ⟨2, [50], 1, 1, []⟩ ∈ goneDB.rows ∧
    addRoot exCfg (delete exCfg goneDB (fun r => r.pk == 2)) ⟨6, [], 0, 0, []⟩ = .ok (db₂, o6) ∧
    addChild exCfg db₂ o6 ⟨7, [], 0, 0, []⟩ = .ok (db₃, o7, o6') ∧ Gone db₃ 2 ∧
    move exCfg db₃ ⟨1, [49], 1, 0, []⟩ ⟨2, [50], 1, 1, []⟩ (some .lastChild) = .ok res ∧ forest exCfg db₃ none = [1, 6] ∧
    forest exCfg res.db none = [6] ∧ forest exCfg res.db (some 6) = [7, 1] :=
  ⟨goneDB_consistent, _, _, _, _, _, _, by decide, rfl, rfl, by unfold Gone; decide, rfl, by decide, by decide, by decide⟩

/-- **C70 fails for MP: `add_sibling` next to a node that was deleted with its parent**: the new node has no parent. -/
theorem C70_mp_orphan : Consistent exCfg goneDB ∧ ∃ (db₁ db₂ : DB) (obj : Row), ⟨3, [50, 49], 2, 0, []⟩ ∈ goneDB.rows ∧
    delete exCfg goneDB (fun r => r.pk == 2) = db₁ ∧ Gone db₁ 3 ∧
    addSibling exCfg db₁ ⟨3, [50, 49], 2, 0, []⟩ (some .left) ⟨9, [], 0, 0, []⟩ = .ok (db₂, obj) ∧ obj ∈ db₂.rows ∧ obj.depth = 2 ∧
    ∀ r ∈ db₂.rows, obj.isChildOf r = false :=
  ⟨goneDB_consistent, _, _, _, by decide, rfl, by unfold Gone; decide, rfl, by decide, by decide, by decide⟩

/-- a case of the theorems -/
example : Gone (delete exCfg goneDB (fun r => r.pk == 2)) 2 ∧ Gone (delete exCfg goneDB (fun r => r.pk == 2)) 3 ∧
    (delete exCfg goneDB (fun r => r.pk == 2)).rows = [⟨1, [49], 1, 0, []⟩] := by unfold Gone; decide

end MP

namespace NS

variable {cfg : Cfg} {db : DB}

/-- no node has this primary key (any more) -/
def Gone (db : DB) (k : Nat) : Prop := ∀ r ∈ db.rows, r.pk ≠ k

theorem Gone.get? {k : Nat} (h : Gone db k) : db.get? k = none := by
  unfold DB.get?
  rw [List.find?_eq_none]
  intro r hr
  simpa using h r hr

theorem Gone.map {k : Nat} (h : Gone db k) {f : Row → Row} (hf : ∀ r, (f r).pk = r.pk) {s : List Sig} : Gone ⟨db.rows.map f, s⟩ k := by
  intro r hr
  obtain ⟨r', hr', rfl⟩ := List.mem_map.1 hr
  rw [hf]
  exact h r' hr'

theorem Gone.alterGap {k : Nat} (h : Gone db k) {t s o : Int} : Gone (alterGap db t s o) k :=
  h.map (fun r => by unfold gapRow; split <;> rfl)

theorem Gone.moveTreeRight {k : Nat} (h : Gone db k) {t : Int} : Gone (moveTreeRight db t) k :=
  h.map (fun r => by unfold treeRightRow; split <;> rfl)

theorem Gone.moveRows {k : Nat} (h : Gone db k) {x : Row} {t j d : Int} : Gone (moveRows db x t j d) k :=
  h.map (fun r => by unfold jumpRow; split <;> rfl)

theorem Gone.makeHole {k : Nat} (h : Gone db k) {x t : Row} {p c : Option Row} {pos : Pos} {y : DB × Int × Int}
    (e : makeHole db x t p c pos = .ok y) : Gone y.1 k := by
  unfold NS.makeHole at e
  dsimp only at e
  split at e
  · cases e; exact h.alterGap
  · split at e
    · split at e
      · split at e
        · cases e
        · split at e
          · cases e
          · cases e; exact h
      · cases e; exact h.moveTreeRight
      · cases e; exact h.moveTreeRight
      · cases e; exact h
    · split at e
      · split at e
        · cases e
        · cases e
        · cases e; exact h.alterGap
      · cases e; exact h.alterGap
      · cases e; exact h.alterGap
      · cases e

/-- the node is fetched before the move, and both objects after it -/
theorem moveTo_gone {x t o : Row} {p c : Option Row} {pos : Pos} (h : Gone db x.pk ∨ Gone db o.pk) {res : MoveResult} :
    moveTo db x t o p c pos ≠ .ok res := by
  intro e
  unfold moveTo at e
  split at e
  · cases e
  · rename_i db1 tt np em
    split at e
    · cases e
    · rename_i x' ex
      dsimp only at e
      split at e
      · rename_i e1 e2
        rcases h with h | h
        · rw [(h.makeHole em).get?] at ex; cases ex
        · have h2 : Gone (closeGap (moveRows db1 x' tt (np - x'.lft) (t.depth - x'.depth + (if p.isSome then 1 else 0))) x'.lft x'.rgt x'.tree) o.pk :=
            ((h.makeHole em).moveRows).alterGap
          rw [h2.get?] at e2; cases e2
      · cases e

/-- **C70 for NS, `add_child`**: a deleted node gets no children. -/
theorem C70_ns_add_child {t new : Row} (h : Gone db t.pk) : addChild cfg db t new = .error .doesNotExist := by
  unfold addChild
  rw [h.get?]

/-- **C70 for NS, `move`** of a deleted node or to a deleted target: the table does not change, whatever it contains. -/
theorem C70_ns_move {x t : Row} (h : Gone db x.pk ∨ Gone db t.pk) {cached : Option Row} {pos : Option Pos} {res : MoveResult}
    (e : move cfg db x t cached pos = .ok res) : res.db = db := by
  unfold move at e
  split at e
  · cases e
  · split at e
    · cases e
    · unfold moveFrom at e
      split at e
      · cases e
      · split at e
        · cases e
        · cases e; rfl
        · split at e
          · cases e
          · split at e
            · cases e
            · exact absurd e (moveTo_gone h)

/-- **C70 for NS, `delete` of a deleted node** changes nothing. -/
theorem C70_ns_delete {k : Nat} (h : Gone db k) : delete db (fun r => r.pk == k) = db := by
  have e : db.rows.filter (fun r => r.pk == k) = [] := by
    rw [List.filter_eq_nil_iff]
    intro r hr
    simpa using h r hr
  unfold delete deleteStmts
  rw [e]
  rfl

/-- the root 1 with the children 2 and 3 -/
def goneDB : DB := { rows := [⟨1, 1, 1, 6, 1, []⟩, ⟨2, 1, 2, 3, 2, []⟩, ⟨3, 1, 4, 5, 2, []⟩] }

theorem goneDB_consistent : Consistent goneDB :=
  ⟨by decide, fun r hr => full_of_range 6 (by revert r; decide) (by revert r; decide)⟩

/-- **C70 fails for NS: `add_sibling` next to a deleted node.**  3 is deleted and 2 gets a child; left of 3 is now inside this child.  The table is corrupt
afterwards. -/
theorem C70_ns_corrupts : Consistent goneDB ∧ ∃ (db₂ db₃ : DB) (o4 t' obj : Row), ⟨3, 1, 4, 5, 2, []⟩ ∈ goneDB.rows ∧
    addChild ⟨[]⟩ (delete goneDB (fun r => r.pk == 3)) ⟨2, 1, 2, 3, 2, []⟩ ⟨4, 0, 0, 0, 0, []⟩ = .ok (db₂, o4, t') ∧ Gone db₂ 3 ∧ Consistent db₂ ∧
    addSibling ⟨[]⟩ db₂ ⟨3, 1, 4, 5, 2, []⟩ none (some .left) ⟨9, 0, 0, 0, 0, []⟩ = .ok (db₃, obj) ∧ ¬ Consistent db₃ :=
  ⟨goneDB_consistent, _, _, _, _, _, by decide, rfl, by unfold Gone; decide,
    ⟨by decide, fun r hr => full_of_range 6 (by revert r; decide) (by revert r; decide)⟩, rfl, fun h => absurd h.toNI (by decide)⟩

/-- a case of the theorems -/
example : Gone (delete goneDB (fun r => r.pk == 3)) 3 ∧ (delete goneDB (fun r => r.pk == 3)).rows = [⟨1, 1, 1, 4, 1, []⟩, ⟨2, 1, 2, 3, 2, []⟩] := by
  unfold Gone; decide

end NS

namespace AL

variable {cfg : Cfg} {db : DB}

/-- no node has this primary key (any more) -/
def Gone (db : DB) (k : Nat) : Prop := ∀ r ∈ db.rows, r.pk ≠ k

theorem Gone.save {k : Nat} (h : Gone db k) {r : Row} (hp : r.parent = some k) (hr : r.pk ≠ k) : save db r = .error .integrity := by
  unfold AL.save
  dsimp only
  rw [hp]
  dsimp only
  rw [if_neg]
  rw [Bool.not_eq_true, List.any_eq_false]
  intro q hq
  split at hq
  · obtain ⟨q', hq', rfl⟩ := List.mem_map.1 hq
    split
    · simpa using hr
    · simpa using h q' hq'
  · rcases List.mem_append.1 hq with hq | hq
    · simpa using h q hq
    · cases List.mem_singleton.1 hq
      simpa using hr

/-- **C70 for AL, `add_child`**: a deleted node gets no children. -/
theorem C70_al_add_child {t new : Row} (h : Gone db t.pk) (hn : new.pk ≠ t.pk) {cached : Option Int} :
    addChild cfg db t cached new = .error .integrity := by
  unfold addChild
  dsimp only
  rw [h.save rfl (by split <;> exact hn)]

/-- **C70 for AL, `delete` of a deleted node** changes nothing. -/
theorem C70_al_delete {k : Nat} (h : Gone db k) : delete db (fun r => r.pk == k) = db := by
  have hs : (fun k' => db.rows.any (fun r => r.pk == k' && r.pk == k)) = fun _ => false := by
    funext k'
    rw [List.any_eq_false]
    intro r hr
    simp [h r hr]
  have hc : ∀ n, cascade db n (fun _ => false) = fun _ => false := by
    intro n
    induction n with
    | zero => rfl
    | succ n ih =>
      unfold cascade
      have : cascadeStep db (fun _ => false) = fun _ => false := by
        funext k'
        simp only [cascadeStep, Bool.false_or, List.any_eq_false]
        intro r _
        split <;> simp
      rw [this, ih]
  unfold delete
  dsimp only
  rw [hs, hc]
  simp

theorem Gone.makeHole {k : Nat} (h : Gone db k) {pos : Pos} {t : Row} {y : DB × Int} (e : makeHole db pos t = .ok y) : Gone y.1 k := by
  unfold AL.makeHole at e
  dsimp only at e
  split at e
  · cases e
  · cases e
    dsimp only
    split
    · exact h
    · intro r hr
      obtain ⟨r', hr', rfl⟩ := List.mem_map.1 hr
      have := h r' hr'
      split <;> exact this

theorem Gone.newSibOrder {k : Nat} (h : Gone db k) {pos : Pos} {t : Row} {y : DB × Int} (e : newSibOrder cfg db pos t = .ok y) : Gone y.1 k := by
  unfold AL.newSibOrder at e
  split at e
  · split at e
    · cases e
    · cases e; exact h
  · exact h.makeHole e

/-- **C70 for AL, `add_sibling`** next to a node that was deleted with its parent raises. -/
theorem C70_al_add_sibling {t new : Row} {p : Nat} (hp : t.parent = some p) (h : Gone db p) (hn : new.pk ≠ p) {pos : Option Pos} :
    ∃ e, addSibling cfg db t pos new = .error e := by
  unfold addSibling
  split
  · exact ⟨_, rfl⟩
  · split
    · exact ⟨_, rfl⟩
    · rename_i db1 o eo
      have h1 : Gone db1 p := by
        unfold addOrder at eo
        split at eo
        · cases eo; exact h
        · exact h.newSibOrder eo
      dsimp only
      rw [h1.save (r := { new with sib := o, parent := t.parent }) hp hn]
      exact ⟨_, rfl⟩

/-- **C70 for AL, `move` below a deleted node** raises: the foreign keys of the table are valid, so that nothing is left below the node. -/
theorem C70_al_move_below {x t : Row} (h : Gone db t.pk) (hf : ∀ r ∈ db.rows, r.parent ≠ some t.pk) {cached : Option Int} {pos : Option Pos} {p : Pos}
    (hp : preparePosForMove cfg.ordered pos = .ok p) (hc : isChildPos p = true) : ∃ e, move cfg db x t cached pos = .error e := by
  have hleaf : isLeaf cfg db t = true := by
    unfold isLeaf children
    have : withParent db (some t.pk) = [] := by
      unfold withParent
      rw [List.filter_eq_nil_iff]
      intro r hr
      simpa using hf r hr
    rw [this]
    cases hl : order cfg [] with
    | nil => rfl
    | cons a l =>
      have : a ∈ order cfg [] := by rw [hl]; exact List.mem_cons_self
      cases mem_order.1 this
  unfold move
  rw [hp]
  dsimp only
  unfold moveGoal
  rw [if_pos hc, hleaf]
  by_cases hx : x.pk = t.pk
  · rw [if_pos (by simpa using hx)]
    exact ⟨_, rfl⟩
  rw [if_neg (by simpa using hx), if_neg (by simp)]
  have key : ∀ g : Goal, g.target = t → g.parent = some t → ∃ e, (match isDescendantOf cfg db g.target x cached with
      | .error e => .error e
      | .ok true => .error .invalidMoveToDescendant
      | .ok false => if noMove cfg db x g.target g.pos then .ok (db, x) else moveTo cfg db x g) = (.error e : Except Err (DB × Row)) := by
    intro g h1 h2
    split
    · exact ⟨_, rfl⟩
    · exact ⟨_, rfl⟩
    · rw [if_neg (by
        unfold noMove
        rw [h1]
        simp [hx])]
      unfold moveTo goalParent
      rw [h2]
      dsimp only
      split
      · exact ⟨_, rfl⟩
      · rename_i db1 o eo
        have hg : Gone db1 t.pk := by
          unfold goalOrder at eo
          split at eo
          · cases eo; exact h
          · split at eo
            · cases eo; exact h
            · exact h.newSibOrder eo
        rw [hg.save (r := { x with parent := (some t).map Row.pk, sib := o }) rfl hx]
        exact ⟨_, rfl⟩
  by_cases hs : (p == .sortedChild) = true
  · rw [if_pos hs]
    exact key { target := t, pos := .sortedSibling, parent := some t } rfl rfl
  · rw [if_neg hs]
    exact key { target := t, pos := .firstSibling, parent := some t, sibOrder := some 1 } rfl rfl

/-- **C70 for AL, `move` next to a node that was deleted with its parent** raises. -/
theorem C70_al_move_next {x t : Row} {q : Nat} (hq : t.parent = some q) (h : Gone db q) (hx : x.pk ≠ t.pk) {cached : Option Int} {pos : Option Pos} {p : Pos}
    (hp : preparePosForMove cfg.ordered pos = .ok p) (hc : isChildPos p = false) : ∃ e, move cfg db x t cached pos = .error e := by
  unfold move
  rw [hp]
  dsimp only
  unfold moveGoal
  rw [if_neg (by simp [hc])]
  dsimp only
  split
  · exact ⟨_, rfl⟩
  · exact ⟨_, rfl⟩
  · rw [if_neg (by simp [noMove, hx])]
    unfold moveTo goalParent getParent DB.get?
    dsimp only
    rw [hq]
    dsimp only
    have : db.rows.find? (fun r => r.pk == q) = none := by
      rw [List.find?_eq_none]
      intro r hr
      simpa using h r hr
    rw [this]
    exact ⟨_, rfl⟩

/-- **C70 fails for AL: `move` of a deleted node** puts it into the table again. -/
theorem C70_al_back : Consistent exPlain exDB ∧ ∃ (db₁ db₂ : DB) (obj : Row), ⟨4, some 3, 1, []⟩ ∈ exDB.rows ∧
    delete exDB (fun r => r.pk == 4) = db₁ ∧ Gone db₁ 4 ∧ move exPlain db₁ ⟨4, some 3, 1, []⟩ ⟨1, none, 2, []⟩ none (some .lastChild) = .ok (db₂, obj) ∧
    forest exPlain db₁ (some 1) = [2, 3] ∧ forest exPlain db₂ (some 1) = [2, 3, 4] :=
  ⟨consistent_of_inv rfl exDB_inv, _, _, _, by decide, rfl, by unfold Gone; decide, rfl, by decide, by decide⟩

/-- **C70 fails for AL: `move` next to a deleted node makes a cycle.**  The deleted node 4 was below 3 and 3 is below 1; 1 goes next to 4: the code does not find
4 below 1 any more, and makes 1 a child of 3. -/
theorem C70_al_cycle : Consistent exPlain exDB ∧ ∃ (db₁ db₂ : DB) (obj : Row), ⟨4, some 3, 1, []⟩ ∈ exDB.rows ∧
    delete exDB (fun r => r.pk == 4) = db₁ ∧ Gone db₁ 4 ∧ move exPlain db₁ ⟨1, none, 2, []⟩ ⟨4, some 3, 1, []⟩ none (some .left) = .ok (db₂, obj) ∧
    3 ∈ forest exPlain db₂ (some 1) ∧ 1 ∈ forest exPlain db₂ (some 3) :=
  ⟨consistent_of_inv rfl exDB_inv, _, _, _, by decide, rfl, by unfold Gone; decide, rfl, by decide, by decide⟩

/-- a case of the theorems: 3 and 4 have been deleted -/
example : Gone (delete exDB (fun r => r.pk == 3)) 3 ∧ Gone (delete exDB (fun r => r.pk == 3)) 4 ∧
    (∀ r ∈ (delete exDB (fun r => r.pk == 3)).rows, r.parent ≠ some 3) ∧ forest exPlain (delete exDB (fun r => r.pk == 3)) (some 1) = [2] := by
  unfold Gone; decide

end AL

namespace LT

variable {cfg : Cfg} {db : DB}

/-- no node has this primary key (any more) -/
def Gone (db : DB) (k : Nat) : Prop := ∀ r ∈ db.rows, r.pk ≠ k

/-- **C70 for LT, `add_child`**: a deleted node gets no children. -/
theorem C70_lt_add_child {t new : Row} (h : Gone db t.pk) : addChild cfg db t new = .error .doesNotExist := by
  unfold addChild
  rw [get?_eq_none.2 h]
  rfl

/-- **C70 for LT, `delete` of a deleted node** changes nothing. -/
theorem C70_lt_delete {k : Nat} (h : Gone db k) : delete db (fun r => r.pk == k) = db := by
  have e : db.rows.filter (fun r => r.pk == k) = [] := by
    rw [List.filter_eq_nil_iff]
    intro r hr
    simpa using h r hr
  unfold delete
  rw [e]
  rfl

/-- roots 1 and 2, and 3 below 2 -/
def goneDB : DB := { rows := [⟨1, [[65]], []⟩, ⟨2, [[66]], []⟩, ⟨3, [[66], [65]], []⟩] }

theorem goneDB_consistent : Consistent goneDB := consistent_iff.2 (inv_of_check (by decide))

/-- **C70 fails for LT: `move` of a deleted node** puts it into the table again, and takes the children of the node that has got its path. -/
theorem C70_lt_back : Consistent goneDB ∧ ∃ (db₂ db₃ db₄ : DB) (o6 o7 obj : Row), ⟨2, [[66]], []⟩ ∈ goneDB.rows ∧
    addRoot ⟨[]⟩ (delete goneDB (fun r => r.pk == 2)) ⟨6, [], []⟩ = .ok (db₂, o6) ∧
    addChild ⟨[]⟩ db₂ o6 ⟨7, [], []⟩ = .ok (db₃, o7) ∧ Gone db₃ 2 ∧ move ⟨[]⟩ db₃ ⟨2, [[66]], []⟩ ⟨1, [[65]], []⟩ (some .lastChild) = .ok (db₄, obj) ∧
    forest db₃ (some 1) = [] ∧ forest db₃ (some 6) = [7] ∧ forest db₄ (some 1) = [2] ∧ forest db₄ (some 2) = [7] ∧ forest db₄ (some 6) = [] :=
  ⟨goneDB_consistent, _, _, _, _, _, _, by decide, rfl, rfl, by unfold Gone; decide, rfl, by decide, by decide, by decide, by decide, by decide⟩

/-- **C70 fails for LT: `move` below a deleted node** leaves the node without a parent. -/
theorem C70_lt_orphan : Consistent goneDB ∧ ∃ (db₁ db₂ : DB) (obj : Row), ⟨2, [[66]], []⟩ ∈ goneDB.rows ∧
    delete goneDB (fun r => r.pk == 2) = db₁ ∧ Gone db₁ 2 ∧ move ⟨[]⟩ db₁ ⟨1, [[65]], []⟩ ⟨2, [[66]], []⟩ (some .lastChild) = .ok (db₂, obj) ∧
    obj ∈ db₂.rows ∧ obj.path.length = 2 ∧ ∀ r ∈ db₂.rows, r.path ≠ obj.path.dropLast :=
  ⟨goneDB_consistent, _, _, _, by decide, rfl, by unfold Gone; decide, rfl, by decide, by decide, by decide⟩

/-- **C70 fails for LT: `add_sibling` next to a node that was deleted with its parent**: the new node has no parent. -/
theorem C70_lt_add_orphan : Consistent goneDB ∧ ∃ (db₁ db₂ : DB) (obj : Row), ⟨3, [[66], [65]], []⟩ ∈ goneDB.rows ∧
    delete goneDB (fun r => r.pk == 2) = db₁ ∧ Gone db₁ 3 ∧ addSibling ⟨[]⟩ db₁ ⟨3, [[66], [65]], []⟩ (some .right) ⟨9, [], []⟩ = .ok (db₂, obj) ∧
    obj ∈ db₂.rows ∧ obj.path.length = 2 ∧ ∀ r ∈ db₂.rows, r.path ≠ obj.path.dropLast :=
  ⟨goneDB_consistent, _, _, _, by decide, rfl, by unfold Gone; decide, rfl, by decide, by decide, by decide⟩

/-- a case of the theorems -/
example : Gone (delete goneDB (fun r => r.pk == 2)) 2 ∧ (delete goneDB (fun r => r.pk == 2)).rows = [⟨1, [[65]], []⟩] := by unfold Gone; decide

end LT

end Verif
