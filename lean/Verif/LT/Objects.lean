/-
LT: `move` and `add_sibling` with the objects that they refresh on the way.
-/
import Verif.LT.Move

namespace Verif.LT

/-- ltree/__init__.py:404-432 `_get_new_path`, with the object `insert_before` as the function leaves it: it is refreshed (line 424) after
every shift. -/
def getNewPathObj (db : DB) (pre : Path) (before after : Option Row) (moved : Bool) (left : Nat) :
    Except Err (DB × Path × Bool × Option Row) :=
  if badOrder (labelOf before) (labelOf after) then .error .valueError
  else
    match generatePath pre (labelOf before) (labelOf after) ((below db pre (pre.length + 1)).map Row.path) with
    | .ok p => .ok (db, p, moved, before)
    | .error .invalidLabelConstraints =>
      match before with
      | none => .error .attributeError
      | some b =>
        match (moveRight db b).get? b.pk with
        | none => .error .doesNotExist
        | some b' =>
          match left with
          | 0 => .error .pathOverflow
          | left + 1 => getNewPathObj (moveRight db b) pre (some b') after true left
    | .error e => .error e

/-- The caller's target: with the position `left` it is the object `insert_before` (ltree/__init__.py:254, 299); elsewhere the
neighbours are freshly fetched objects, or nothing refreshes them. -/
def targetObj (pos : Pos) (target : Row) (before : Option Row) : Row :=
  if pos = .left then before.getD target else target

/-- ltree/__init__.py:266-334 `move`; the result has the caller's node and target objects -/
def moveObj (cfg : Cfg) (db : DB) (node target : Row) (pos : Option Pos) : Except Err (DB × Row × Row) :=
  commit (match preparePosForMove cfg.ordered pos with
    | .error e => .error e
    | .ok pos =>
      if isChildPos pos = true ∧ target.pk = node.pk then .error .invalidMoveToDescendant
      else if target.isDescendantOf node then .error .invalidMoveToDescendant
      else
        match getNewPathObj db (moveNeighbours cfg db node target pos).2 (moveNeighbours cfg db node target pos).1.1
            (moveNeighbours cfg db node target pos).1.2 false 2 with
        | .error e => .error e
        | .ok (db, newPath, moved, before) =>
          match refreshed db node moved with
          | .error e => .error e
          | .ok node => .ok ((finishMove db node newPath).1, (finishMove db node newPath).2, targetObj pos target before))

/-- ltree/__init__.py:229-264 `add_sibling`; the result has the new object and the caller's target -/
def addSiblingObj (cfg : Cfg) (db : DB) (target : Row) (pos : Option Pos) (new : Row) : Except Err (DB × Row × Row) :=
  commit (match preparePosForAddSibling cfg.ordered pos with
  | .error e => .error e
  | .ok pos =>
    match getNewPathObj db target.path.dropLast (sibNeighbours cfg db target pos new).1
        (sibNeighbours cfg db target pos new).2 false 2 with
    | .error e => .error e
    | .ok (db, p, _, before) => .ok (save db { new with path := p }, { new with path := p }, targetObj pos target before))

variable {cfg : Cfg} {db db' : DB} {pre : Path} {before after : Option Row}

/-- the object `insert_before` after `_get_new_path` -/
def beforeObj (db' : DB) (before : Option Row) (moved : Bool) : Option Row :=
  if moved then before.bind (fun b => db'.get? b.pk) else before

theorem getNewPath_stays (left : Nat) {db db' : DB} {before : Option Row} {p : Path} {m : Bool}
    (e : getNewPath db pre before after true left = .ok (db', p, m)) : m = true := by
  induction left generalizing db before with
  | zero =>
    unfold getNewPath at e
    split at e
    · cases e
    · split at e
      · cases e; rfl
      · cases before with
        | none => cases e
        | some b => cases hg : (moveRight db b).get? b.pk <;> simp [hg] at e
      · cases e
  | succ left ih =>
    unfold getNewPath at e
    split at e
    · cases e
    · split at e
      · cases e; rfl
      · cases before with
        | none => cases e
        | some b => cases hg : (moveRight db b).get? b.pk with
          | none => simp [hg] at e
          | some b' => simp only [hg] at e; exact ih e
      · cases e

theorem getNewPathObj_eq (left : Nat) (db : DB) (before : Option Row) (moved : Bool) (hm : moved = true → before = before.bind (fun b => db.get? b.pk)) :
    getNewPathObj db pre before after moved left = match getNewPath db pre before after moved left with
      | .error e => .error e
      | .ok (db', p, m) => .ok (db', p, m, beforeObj db' before m) := by
  induction left generalizing db before moved with
  | zero =>
    unfold getNewPathObj getNewPath
    split
    · rfl
    · cases generatePath pre (labelOf before) (labelOf after) ((below db pre (pre.length + 1)).map Row.path) with
      | ok p =>
        simp only
        cases moved with
        | false => rfl
        | true => unfold beforeObj; rw [if_pos rfl, ← hm rfl]
      | error e =>
        cases e <;> try rfl
        cases before with
        | none => rfl
        | some b => cases hg : (moveRight db b).get? b.pk with
          | none => simp only [hg]
          | some b' => simp only [hg]
  | succ left ih =>
    unfold getNewPathObj getNewPath
    split
    · rfl
    · cases generatePath pre (labelOf before) (labelOf after) ((below db pre (pre.length + 1)).map Row.path) with
      | ok p =>
        simp only
        cases moved with
        | false => rfl
        | true => unfold beforeObj; rw [if_pos rfl, ← hm rfl]
      | error e =>
        cases e <;> try rfl
        cases before with
        | none => rfl
        | some b => cases hg : (moveRight db b).get? b.pk with
          | none => simp only [hg]
          | some b' =>
            simp only [hg]
            have hk : b'.pk = b.pk := by
              have := List.find?_some hg
              simpa using this
            rw [ih _ _ _ (by intro _; rw [Option.bind_some, hk, hg])]
            cases hr : getNewPath (moveRight db b) pre (some b') after true left with
            | error e => rfl
            | ok r =>
              obtain ⟨db', p, m⟩ := r
              simp only
              unfold beforeObj
              cases m with
              | true => simp [hk]
              | false => exact absurd (getNewPath_stays _ hr) (by simp)

/-- Forgetting the target gives the function `move` of the model. -/
theorem moveObj_move (cfg : Cfg) (db : DB) (node target : Row) (posArg : Option Pos) :
    (moveObj cfg db node target posArg).map (fun r => (r.1, r.2.1)) = move cfg db node target posArg := by
  unfold moveObj move
  cases preparePosForMove cfg.ordered posArg with
  | error e => rfl
  | ok pos =>
    simp only
    split
    · rfl
    · split
      · rfl
      · rw [getNewPathObj_eq _ _ _ _ (by simp)]
        cases getNewPath db (moveNeighbours cfg db node target pos).2 (moveNeighbours cfg db node target pos).1.1
            (moveNeighbours cfg db node target pos).1.2 false 2 with
        | error e => rfl
        | ok r =>
          obtain ⟨db', p, m⟩ := r
          simp only
          cases refreshed db' node m with
          | error e => rfl
          | ok n =>
            simp only
            unfold commit
            simp only
            split <;> rfl

/-- Forgetting the target gives the function `add_sibling` of the model. -/
theorem addSiblingObj_addSibling (cfg : Cfg) (db : DB) (target : Row) (posArg : Option Pos) (new : Row) :
    (addSiblingObj cfg db target posArg new).map (fun r => (r.1, r.2.1)) = addSibling cfg db target posArg new := by
  unfold addSiblingObj addSibling addSiblingIn
  cases preparePosForAddSibling cfg.ordered posArg with
  | error e => rfl
  | ok pos =>
    simp only
    rw [getNewPathObj_eq _ _ _ _ (by simp)]
    cases getNewPath db target.path.dropLast (sibNeighbours cfg db target pos new).1 (sibNeighbours cfg db target pos new).2 false 2 with
    | error e => rfl
    | ok r =>
      obtain ⟨db', p, m⟩ := r
      simp only
      unfold commit
      simp only
      split <;> rfl

/-! ### Where the target's row ends up -/

theorem gMap_prefix {moved : Bool} {p q : Path} (h : gPath moved pre before p <+: gPath moved pre before q) : p <+: q := by
  have hg : PathMap 1 (gPath moved pre before) := gMap
  induction hn : q.length generalizing q with
  | zero =>
    have := h.length_le
    rw [hg.len, hg.len, hn] at this
    have : p = [] := List.eq_nil_of_length_eq_zero (by omega)
    rw [this]; exact List.nil_prefix
  | succ n ih =>
    have hl := h.length_le
    rw [hg.len, hg.len] at hl
    rcases Nat.lt_or_eq_of_le hl with hlt | he
    · have hd : gPath moved pre before p <+: gPath moved pre before q.dropLast := by
        rw [← pp_one, ← hg.pp q (by simp), pp_one]
        have hle : (gPath moved pre before p).length ≤ (gPath moved pre before q).length - 1 := by rw [hg.len, hg.len]; omega
        rw [List.dropLast_eq_take]
        have h2 := List.prefix_take_iff.2 ⟨h, hle⟩
        exact h2
      exact (ih hd (by rw [List.length_dropLast]; omega)).trans (List.dropLast_prefix _)
    · have : gPath moved pre before p = gPath moved pre before q := h.eq_of_length (by rw [hg.len, hg.len, he])
      rw [hg.inj _ _ this]
      exact List.prefix_refl _

/-- A row outside the branch that moves is where the shift left it. -/
theorem moved_other {l : Label} {moved : Bool} (h : Inv db.rows) (hp : NewPath db pre before after db' l moved) {x t : Row} (hx : x ∈ db.rows) (ht : t ∈ db.rows)
    (hxt : ¬ x.path <+: t.path) (new : Path) :
    gRow moved pre before t ∈ (finishMove db' (gRow moved pre before x) new).1.rows := by
  have h1 : Inv db'.rows := by rw [hp.rows]; exact g_inv h
  have hx1 : gRow moved pre before x ∈ db'.rows := by rw [hp.rows]; exact List.mem_map_of_mem hx
  rw [finishMove_rows h1.inv hx1, List.mem_map]
  refine ⟨gRow moved pre before t, by rw [hp.rows]; exact List.mem_map_of_mem ht, ?_⟩
  unfold renRow
  rw [ren_of_not_prefix]
  rw [gRow_path, gRow_path]
  exact fun hc => hxt (gMap_prefix hc)

/-- A row left of the neighbour before which the gap is keeps its path. -/
theorem gRow_left (h : Inv db.rows) (hn : Nbrs db.rows pre before after) {moved : Bool} {t : Row} (ht : t ∈ db.rows)
    (hl : (∃ u, pre = t.path ++ u) ∨ (t.path.dropLast = pre ∧ ∀ b, before = some b → t.path < b.path)) (hb : moved = true → ∃ b, before = some b) :
    gRow moved pre before t = t := by
  cases moved with
  | false => rfl
  | true =>
    obtain ⟨b, rfl⟩ := hb rfl
    rw [gRow_true]
    unfold shRow
    have : sh pre (lastLabel b.path) t.path = t.path := by
      refine sh_kept ?_
      intro l u e
      rcases hl with ⟨v, hv⟩ | ⟨hd, hlt⟩
      · have := congrArg List.length e
        have h2 := congrArg List.length hv
        simp at this h2
        omega
      · obtain ⟨hb1, hb2⟩ := hn.b b rfl
        have hs := path_split h.inv ht
        rw [hd] at hs
        have hu := List.append_cancel_left (hs.symm.trans e)
        obtain ⟨e1, e2⟩ := List.cons.inj hu
        rw [← e1]
        exact (sib_lt h.inv ht hb1 (by rw [hd, hb2])).1 (hlt b rfl)
    rw [this]

/-- the target after a move, without `node_order_by` and not to the first place among the siblings -/
theorem moveObj_target (ho : cfg.ordered = false) (h : Inv db.rows) {x t : Row} (hx : x ∈ db.rows) (ht : t ∈ db.rows) (hne : x ≠ t)
    {posArg : Option Pos} {pos : Pos} (hpos : preparePosForMove false posArg = .ok pos) (hf : pos ≠ .firstSibling)
    (hr : ¬ (PF db.rows).MoveRefused x.pk t.pk pos) :
    ∃ db' obj t', moveObj cfg db x t posArg = .ok (db', obj, t') ∧ t' ∈ db'.rows ∧ t'.pk = t.pk := by
  obtain ⟨db', obj, e, hm⟩ := move_unsorted ho h hx ht hpos hr
  obtain ⟨hplain, _⟩ := prepMove_arg hpos
  rw [← ho] at hpos
  obtain ⟨he, hin⟩ := move_eq h hx ht hpos hr
  obtain ⟨s, hpre, hn, hs, hA, hlast⟩ := moveNeighbours_plain (cfg := cfg) h.inv hx ht hplain
  obtain ⟨db1, l, moved, hg, hp, hw⟩ := getNewPath_spec h hn
  have hd : ¬ t.isDescendantOf x = true := fun hd => hr (Or.inl ((isDescendantOf_iff h.inv hx ht).1 hd))
  have hc : ¬ (isChildPos pos = true ∧ t.pk = x.pk) := fun hc => hr (Or.inr ⟨by rw [← isChildPos_eq]; exact hc.1, hc.2⟩)
  have hxt : ¬ x.path <+: t.path := fun hpre => hr (Or.inl ((desc_iff (L := 1) h.inv (by omega) hx ht).2 ⟨hpre, hne⟩))
  rw [he] at e
  simp only [hg, refreshed_eq h hp hx] at e
  have hcommit : (finishMove db1 (gRow moved (moveNeighbours cfg db x t pos).2 (moveNeighbours cfg db x t pos).1.1 x) ((moveNeighbours cfg db x t pos).2 ++ [l])) = (db', obj) := by
    unfold commit at e
    simp only at e
    split at e
    · exact Except.ok.inj e
    · cases e
  have hmem := moved_other h hp hx ht hxt ((moveNeighbours cfg db x t pos).2 ++ [l])
  rw [hcommit] at hmem
  have hg1 : Inv db1.rows := by rw [hp.rows]; exact g_inv h
  refine ⟨db', obj, targetObj pos t (beforeObj db1 (moveNeighbours cfg db x t pos).1.1 moved), ?_, ?_⟩
  · unfold moveObj
    rw [hpos]
    simp only
    rw [if_neg hc, if_neg hd, getNewPathObj_eq _ _ _ _ (by simp), hg]
    simp only
    rw [refreshed_eq h hp hx]
    simp only
    rw [hcommit]
    exact commit_ok hm.inv.inv
  · have hto : targetObj pos t (beforeObj db1 (moveNeighbours cfg db x t pos).1.1 moved) = gRow moved (moveNeighbours cfg db x t pos).2 (moveNeighbours cfg db x t pos).1.1 t := by
      have kept : ∀ (hl : (∃ u, (moveNeighbours cfg db x t pos).2 = t.path ++ u) ∨ (t.path.dropLast = (moveNeighbours cfg db x t pos).2 ∧
          ∀ b, (moveNeighbours cfg db x t pos).1.1 = some b → t.path < b.path)), pos ≠ .left →
          targetObj pos t (beforeObj db1 (moveNeighbours cfg db x t pos).1.1 moved) = gRow moved (moveNeighbours cfg db x t pos).2 (moveNeighbours cfg db x t pos).1.1 t := fun hl hp' => by
        unfold targetObj
        rw [if_neg hp', gRow_left h hn ht hl hp.gap]
      rcases hplain with (rfl | rfl | rfl | rfl) | rfl | rfl
      · exact absurd rfl hf
      · unfold targetObj beforeObj
        rw [if_pos rfl]
        cases moved with
        | false => rfl
        | true =>
          rw [if_pos rfl]
          show ((some t).bind fun b => db1.get? b.pk).getD t = _
          rw [Option.bind_some, show db1.get? t.pk = some (gRow true (moveNeighbours cfg db x t .left).2 (moveNeighbours cfg db x t .left).1.1 t) from ?_]
          · rfl
          · rw [get?_eq_some hg1.inv, hp.rows]
            exact ⟨List.mem_map_of_mem ht, gRow_pk t⟩
      · refine kept (Or.inr ⟨rfl, ?_⟩) (by simp)
        intro b hb
        exact hn.lt b t hb rfl
      · exact kept (Or.inr ⟨rfl, by intro b hb; cases hb⟩) (by simp)
      · exact kept (Or.inl ⟨[], by simp [moveNeighbours]⟩) (by simp)
      · exact kept (Or.inl ⟨[], by simp [moveNeighbours]⟩) (by simp)
    rw [hto]
    exact ⟨hmem, gRow_pk t⟩

/-- the target after `add_sibling`, without `node_order_by` -/
theorem addSiblingObj_target (ho : cfg.ordered = false) (h : Inv db.rows) {t : Row} (ht : t ∈ db.rows) {pos : Pos} (hpos : IsSibPos pos) {new : Row}
    (hf : ∀ r ∈ db.rows, r.pk ≠ new.pk) :
    ∃ db' obj t' s, addSiblingObj cfg db t (some pos) new = .ok (db', obj, t') ∧ s ∈ db'.rows ∧ s.pk = t.pk ∧ s.path.dropLast = t.path.dropLast ∧
      s.path.length = t.path.length ∧ (pos ≠ .firstSibling → t' = s) ∧ (pos ≠ .left → t' = t) := by
  have hprep : preparePosForAddSibling false (some pos) = .ok pos := by rcases hpos with rfl | rfl | rfl | rfl <;> rfl
  obtain ⟨db', obj, e, ha⟩ := addSibling_unsorted ho h ht hprep hf
  obtain ⟨hn, _, _⟩ := sibNeighbours_plain (cfg := cfg) h.inv ht hpos new
  obtain ⟨db1, l, moved, hg, hp, hw⟩ := getNewPath_spec h hn
  have hg1 : Inv db1.rows := by rw [hp.rows]; exact g_inv h
  have hsave : db' = save db1 { new with path := t.path.dropLast ++ [l] } := by
    unfold addSibling addSiblingIn at e
    rw [ho, hprep] at e
    simp only [hg] at e
    unfold commit at e
    simp only at e
    split at e
    · cases e; rfl
    · cases e
  have hrow : gRow moved t.path.dropLast (sibNeighbours cfg db t pos new).1 t ∈ db1.rows := by rw [hp.rows]; exact List.mem_map_of_mem ht
  have hmem : gRow moved t.path.dropLast (sibNeighbours cfg db t pos new).1 t ∈ db'.rows := by
    rw [hsave, save_new]
    · exact List.mem_append_left _ hrow
    · rw [hp.rows]
      intro r hr
      obtain ⟨q, hq, rfl⟩ := List.mem_map.1 hr
      rw [gRow_pk]; exact hf q hq
  have hobj := addSiblingObj_addSibling cfg db t (some pos) new
  have hto : addSiblingObj cfg db t (some pos) new = .ok (db', obj, targetObj pos t (beforeObj db1 (sibNeighbours cfg db t pos new).1 moved)) := by
    rw [e] at hobj
    cases hr : addSiblingObj cfg db t (some pos) new with
    | error x => rw [hr] at hobj; cases hobj
    | ok r =>
      obtain ⟨a, b, c⟩ := r
      rw [hr] at hobj
      cases hobj
      unfold addSiblingObj at hr
      rw [ho, hprep] at hr
      simp only at hr
      rw [getNewPathObj_eq _ _ _ _ (by simp), hg] at hr
      simp only at hr
      unfold commit at hr
      simp only at hr
      split at hr
      · cases hr; rfl
      · cases hr
  refine ⟨db', obj, _, _, hto, hmem, gRow_pk t, ?_, ?_, ?_, ?_⟩
  · rw [gRow_path]; exact (gPath_drop _).2 rfl
  · rw [gRow_path, (gMap (moved := moved)).len]
  · intro hne
    have kept : (∀ b, (sibNeighbours cfg db t pos new).1 = some b → t.path < b.path) → pos ≠ .left →
        targetObj pos t (beforeObj db1 (sibNeighbours cfg db t pos new).1 moved) = gRow moved t.path.dropLast (sibNeighbours cfg db t pos new).1 t := fun hl hp' => by
      unfold targetObj
      rw [if_neg hp', gRow_left h hn ht (Or.inr ⟨rfl, hl⟩) hp.gap]
    rcases hpos with rfl | rfl | rfl | rfl
    · exact absurd rfl hne
    · unfold targetObj beforeObj
      rw [if_pos rfl]
      cases moved with
      | false => rfl
      | true =>
        rw [if_pos rfl]
        show ((some t).bind fun b => db1.get? b.pk).getD t = _
        rw [Option.bind_some, show db1.get? t.pk = some (gRow true t.path.dropLast (sibNeighbours cfg db t .left new).1 t) from ?_]
        · rfl
        · rw [get?_eq_some hg1.inv]
          exact ⟨hrow, gRow_pk t⟩
    · exact kept (fun b hb => hn.lt b t hb rfl) (by simp)
    · exact kept (by intro b hb; cases hb) (by simp)
  · intro hne
    unfold targetObj
    rw [if_neg hne]

/-- For the ends of the group only the siblings of the target matter. -/
theorem addSiblingObj_congr {a t : Row} (hd : a.path.dropLast = t.path.dropLast) (hl : a.path.length = t.path.length) {pos : Pos}
    (hpos : pos = .firstSibling ∨ pos = .lastSibling) (new : Row) :
    addSiblingObj cfg db a (some pos) new = (addSiblingObj cfg db t (some pos) new).map (fun r => (r.1, r.2.1, a)) := by
  unfold addSiblingObj
  cases e : preparePosForAddSibling cfg.ordered (some pos) with
  | error x => rfl
  | ok pos' =>
    have : pos' = pos := by
      unfold preparePosForAddSibling preparePosVar at e
      revert e
      rcases hpos with rfl | rfl <;> cases cfg.ordered <;> simp [validPosForAddSibling, validPosForSortedAddSibling] <;> exact fun h => h.symm
    subst this
    have hs := siblings_congr (db := db) hd hl
    have hnb : sibNeighbours cfg db a pos' new = sibNeighbours cfg db t pos' new := by
      rcases hpos with rfl | rfl
      · simp only [sibNeighbours, firstSibling, hs]
      · simp only [sibNeighbours, lastSibling, hs]
    have hl : pos' ≠ .left := by rcases hpos with rfl | rfl <;> decide
    simp only [hnb, hd]
    cases getNewPathObj db t.path.dropLast (sibNeighbours cfg db t pos' new).1 (sibNeighbours cfg db t pos' new).2 false 2 with
    | error x => rfl
    | ok r =>
      obtain ⟨db1, p, m, b⟩ := r
      simp only [targetObj, if_neg hl]
      unfold commit
      simp only
      split <;> rfl

end Verif.LT
