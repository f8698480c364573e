/-
AL: `if node.parent_id:` (al_tree.py:203) is false for the key 0.  The functions that ask for siblings, as they are.
-/
import Verif.AL.Move

namespace Verif.AL

/-- al_tree.py:203: the key that `get_siblings` filters by, `None` if the parent's key counts as false -/
def sibKey (node : Row) : Option Nat :=
  match node.parent with
  | some 0 => none
  | p => p

/-- al_tree.py:198-205 `get_siblings` -/
def siblings0 (cfg : Cfg) (db : DB) (node : Row) : List Row := order cfg (withParent db (sibKey node))

/-- models.py:561-568 `get_first_sibling` -/
def firstSibling0 (cfg : Cfg) (db : DB) (node : Row) : Option Row := (siblings0 cfg db node).head?
/-- models.py:570-577 `get_last_sibling` -/
def lastSibling0 (cfg : Cfg) (db : DB) (node : Row) : Option Row := (siblings0 cfg db node).getLast?

/-- al_tree.py:226-227 `get_prev_sibling` -/
def prevSibling0 (cfg : Cfg) (db : DB) (node : Row) : Except Err (Option Row) :=
  if cfg.ordered then .error .attributeError
  else .ok ((siblings0 cfg db node).filter (fun r => decide (r.sib < node.sib))).getLast?

/-- al_tree.py:229-230 `get_next_sibling` -/
def nextSibling0 (cfg : Cfg) (db : DB) (node : Row) : Except Err (Option Row) :=
  if cfg.ordered then .error .attributeError
  else .ok ((siblings0 cfg db node).filter (fun r => decide (node.sib < r.sib))).head?

/-- al_tree.py:265-266 `_is_target_pos_the_last_sibling` -/
def isLastPos0 (cfg : Cfg) (db : DB) (pos : Pos) (target : Row) : Bool :=
  pos == .lastSibling || (pos == .right && (lastSibling0 cfg db target).map Row.pk == some target.pk)

/-- al_tree.py:268-281 `_make_hole_and_get_sibling_order`; the update filters by `parent_id` itself -/
def makeHole0 (db : DB) (pos : Pos) (target : Row) : Except Err (DB × Int) :=
  let sibs := withParent db (sibKey target)
  let chosen : Except Err (List Row × Int) := match pos with
    | .left => .ok (sibs.filter (fun r => decide (target.sib ≤ r.sib)), target.sib)
    | .right => .ok (sibs.filter (fun r => decide (target.sib < r.sib)), target.sib + 1)
    | .firstSibling => .ok (sibs, 1)
    | _ => .error .keyError
  match chosen with
  | .error e => .error e
  | .ok (sibs, o) =>
    let m := minSib sibs
    .ok (if m == 0 then db
      else ⟨db.rows.map (fun r => if r.parent == target.parent && decide (m ≤ r.sib) then { r with sib := r.sib + 1 } else r)⟩, o)

/-- al_tree.py:283-287 `_get_new_sibling_order` -/
def newSibOrder0 (cfg : Cfg) (db : DB) (pos : Pos) (target : Row) : Except Err (DB × Int) :=
  if isLastPos0 cfg db pos target then
    match lastSibling0 cfg db target with
    | none => .error .attributeError
    | some l => .ok (db, l.sib + 1)
  else makeHole0 db pos target

/-- al_tree.py:95-106 `add_sibling` -/
def addSibling0 (cfg : Cfg) (db : DB) (target : Row) (pos : Option Pos) (new : Row) : Except Err (DB × Row) :=
  match preparePosForAddSibling cfg.ordered pos with
  | .error e => .error e
  | .ok pos =>
    match if cfg.ordered then .ok (db, new.sib) else newSibOrder0 cfg db pos target with
    | .error e => .error e
    | .ok (db, o) =>
      let new := { new with sib := o, parent := target.parent }
      match save db new with
      | .error e => .error e
      | .ok db => .ok (db, new)

/-- al_tree.py:141-145, the moves that change nothing -/
def noMove0 (cfg : Cfg) (db : DB) (node target : Row) (pos : Pos) : Bool :=
  node.pk == target.pk && (pos == .left
    || ((pos == .right || pos == .lastSibling) && (lastSibling0 cfg db target).map Row.pk == some target.pk)
    || (pos == .firstSibling && (firstSibling0 cfg db target).map Row.pk == some target.pk))

/-- al_tree.py:150-151 -/
def goalOrder0 (cfg : Cfg) (db : DB) (node : Row) (g : Goal) : Except Err (DB × Int) :=
  if g.pos == .sortedSibling then .ok (db, node.sib)
  else match g.sibOrder with
    | some o => .ok (db, o)
    | none => newSibOrder0 cfg db g.pos g.target

/-- al_tree.py:149-153, the end of `move` -/
def moveTo0 (cfg : Cfg) (db : DB) (node : Row) (g : Goal) : Except Err (DB × Row) :=
  match goalParent db g with
  | .error e => .error e
  | .ok parent => match goalOrder0 cfg db node g with
    | .error e => .error e
    | .ok (db, o) =>
      let node := { node with parent := parent.map Row.pk, sib := o }
      match save db node with
      | .error e => .error e
      | .ok db => .ok (db, node)

/-- al_tree.py:108-153 `move` -/
def move0 (cfg : Cfg) (db : DB) (node target : Row) (cached : Option Int) (pos : Option Pos) : Except Err (DB × Row) :=
  match preparePosForMove cfg.ordered pos with
  | .error e => .error e
  | .ok pos => match moveGoal cfg db node target pos with
    | .error e => .error e
    | .ok g => match isDescendantOf cfg db g.target node cached with
      | .error e => .error e
      | .ok true => .error .invalidMoveToDescendant
      | .ok false =>
        if noMove0 cfg db node g.target g.pos then .ok (db, node)
        else moveTo0 cfg db node g

variable {cfg : Cfg} {db : DB}

theorem sibKey_eq {x : Row} (h : x.parent ≠ some 0) : sibKey x = x.parent := by
  unfold sibKey
  split
  · rename_i e; exact absurd e h
  · rfl

theorem siblings0_eq {x : Row} (h : x.parent ≠ some 0) : siblings0 cfg db x = siblings cfg db x := by
  rw [siblings0, sibKey_eq h, siblings_eq]

theorem newSibOrder0_eq {x : Row} (h : x.parent ≠ some 0) (pos : Pos) : newSibOrder0 cfg db pos x = newSibOrder cfg db pos x := by
  simp only [newSibOrder0, newSibOrder, isLastPos0, isLastPos, lastSibling0, lastSibling, siblings0_eq h, makeHole0, makeHole, sibKey_eq h]
  rfl

theorem addSibling0_eq {x new : Row} (h : x.parent ≠ some 0) (pos : Option Pos) : addSibling0 cfg db x pos new = addSibling cfg db x pos new := by
  simp only [addSibling0, addSibling, addOrder, newSibOrder0_eq h]
  rfl

theorem move0_eq {x t : Row} (ht : t.parent ≠ some 0) {cached : Option Int} {pos : Option Pos}
    (hk : ∀ q, preparePosForMove cfg.ordered pos = .ok q → isChildPos q = true → t.pk ≠ 0) :
    move0 cfg db x t cached pos = move cfg db x t cached pos := by
  unfold move0 move
  cases hp : preparePosForMove cfg.ordered pos with
  | error e => rfl
  | ok pos' =>
    cases hg : moveGoal cfg db x t pos' with
    | error e => simp only [hg]
    | ok g =>
      have hz : g.target.parent ≠ some 0 := by
        unfold moveGoal at hg
        split at hg
        · rename_i hc
          split at hg
          · cases hg
          · split at hg
            · split at hg
              · cases hg
              · rename_i l hl
                cases hg
                have := (mem_withParent.1 (mem_order.1 (List.mem_of_getLast? hl))).2
                rw [this]
                exact fun e => hk pos' hp hc (Option.some.inj e)
            · split at hg <;> cases hg <;> exact ht
        · cases hg; exact ht
      simp only [hg, noMove0, noMove, lastSibling0, lastSibling, firstSibling0, firstSibling, siblings0_eq hz, moveTo0, moveTo, goalOrder0, goalOrder, newSibOrder0_eq hz]
      rfl

end Verif.AL
