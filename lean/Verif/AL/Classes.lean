/-
AL: `add_sibling` and `move` for objects of different classes.

`a == b` for model instances (Django's `Model.__eq__`) is false for objects of different classes, even with the same primary key.
-/
import Verif.AL.Move
import Verif.Classes

namespace Verif.AL

/-- al_tree.py:265-266 `_is_target_pos_the_last_sibling` -/
def isLastPosC (cfg : Cfg) (db : DB) (pos : Pos) (ct : Cls) (target : Row) : Bool :=
  pos == .lastSibling || (pos == .right && (ct == treeCls && (lastSibling cfg db target).map Row.pk == some target.pk))

/-- al_tree.py:283-287 `_get_new_sibling_order` -/
def newSibOrderC (cfg : Cfg) (db : DB) (pos : Pos) (ct : Cls) (target : Row) : Except Err (DB × Int) :=
  if isLastPosC cfg db pos ct target then
    match lastSibling cfg db target with
    | none => .error .attributeError
    | some l => .ok (db, l.sib + 1)
  else makeHole db pos target

/-- al_tree.py:95-106 `add_sibling` -/
def addSiblingC (cfg : Cfg) (db : DB) (ct : Cls) (target : Row) (pos : Option Pos) (new : Row) : Except Err (DB × Row) :=
  match preparePosForAddSibling cfg.ordered pos with
  | .error e => .error e
  | .ok pos =>
    match if cfg.ordered then .ok (db, new.sib) else newSibOrderC cfg db pos ct target with
    | .error e => .error e
    | .ok (db, o) =>
      let new := { new with sib := o, parent := target.parent }
      match save db new with
      | .error e => .error e
      | .ok db => .ok (db, new)

/-- al_tree.py:120-136, with the class of the object named target afterwards: the last child is an object of the tree model -/
def moveGoalC (cfg : Cfg) (db : DB) (cn ct : Cls) (node target : Row) (pos : Pos) : Except Err (Goal × Cls) :=
  if isChildPos pos then
    if cn == ct && node.pk == target.pk then .error .invalidMoveToDescendant
    else if !isLeaf cfg db target then
      match lastChild cfg db target with
      | none => .error .attributeError
      | some t => .ok ({ target := t, pos := toSibPos pos }, treeCls)
    else if pos == .sortedChild then .ok ({ target := target, pos := .sortedSibling, parent := some target }, ct)
    else .ok ({ target := target, pos := .firstSibling, parent := some target, sibOrder := some 1 }, ct)
  else .ok ({ target := target, pos := pos }, ct)

/-- al_tree.py:141-145, the moves that change nothing -/
def noMoveC (cfg : Cfg) (db : DB) (cn ct : Cls) (node target : Row) (pos : Pos) : Bool :=
  (cn == ct && node.pk == target.pk) && (pos == .left
    || ((pos == .right || pos == .lastSibling) && (ct == treeCls && (lastSibling cfg db target).map Row.pk == some target.pk))
    || (pos == .firstSibling && (ct == treeCls && (firstSibling cfg db target).map Row.pk == some target.pk)))

/-- al_tree.py:150-151 -/
def goalOrderC (cfg : Cfg) (db : DB) (node : Row) (g : Goal) (cg : Cls) : Except Err (DB × Int) :=
  if g.pos == .sortedSibling then .ok (db, node.sib)
  else match g.sibOrder with
    | some o => .ok (db, o)
    | none => newSibOrderC cfg db g.pos cg g.target

/-- al_tree.py:149-153 -/
def moveToC (cfg : Cfg) (db : DB) (node : Row) (g : Goal) (cg : Cls) : Except Err (DB × Row) :=
  match goalParent db g with
  | .error e => .error e
  | .ok parent => match goalOrderC cfg db node g cg with
    | .error e => .error e
    | .ok (db, o) =>
      let node := { node with parent := parent.map Row.pk, sib := o }
      match save db node with
      | .error e => .error e
      | .ok db => .ok (db, node)

/-- al_tree.py:108-153 `move` of an object of the class `cn` to a target of the class `ct` -/
def moveC (cfg : Cfg) (db : DB) (cn ct : Cls) (node target : Row) (cached : Option Int) (pos : Option Pos) : Except Err (DB × Row) :=
  match preparePosForMove cfg.ordered pos with
  | .error e => .error e
  | .ok pos => match moveGoalC cfg db cn ct node target pos with
    | .error e => .error e
    | .ok (g, cg) => match isDescendantOf cfg db g.target node cached with
      | .error e => .error e
      | .ok true => .error .invalidMoveToDescendant
      | .ok false =>
        if noMoveC cfg db cn cg node g.target g.pos then .ok (db, node)
        else moveToC cfg db node g cg

variable {cfg : Cfg} {db : DB}

/-- For stored targets the class does not matter: to the right of the last sibling nobody has to make room. -/
theorem newSibOrderC_eq (ho : cfg.ordered = false) (h : AInv cfg db.rows) {t : Row} (ht : t ∈ db.rows) (pos : Pos) (ct : Cls) :
    newSibOrderC cfg db pos ct t = newSibOrder cfg db pos t := by
  unfold newSibOrderC newSibOrder isLastPosC isLastPos
  obtain ⟨l, el, hl, hlp, hmax⟩ := siblings_getLast h ht
  by_cases hc : ct = treeCls
  · subst hc
    simp only [BEq.rfl, Bool.true_and]
    rfl
  · have hc' : (ct == treeCls) = false := by simpa using hc
    simp only [hc', Bool.false_and, Bool.and_false, Bool.or_false]
    by_cases hcase : pos = .right ∧ l.pk = t.pk
    · obtain ⟨rfl, hk⟩ := hcase
      have := h.toAI.pk_inj hl ht hk
      subst this
      simp only [el, Option.map_some, BEq.rfl, Bool.and_true, Bool.or_true, if_true]
      have hp : (Pos.right == Pos.lastSibling) = false := rfl
      simp only [hp, Bool.false_eq_true, if_false]
      unfold makeHole
      simp only
      have hnil : (withParent db l.parent).filter (fun r => decide (l.sib < r.sib)) = [] := by
        rw [List.filter_eq_nil_iff]
        intro r hr
        rw [mem_withParent] at hr
        by_cases e : r = l
        · rw [e]; simp
        · have := hmax r hr.1 hr.2 e
          rw [lt_plain ho] at this
          simp; omega
      rw [hnil]
      rfl
    · have : (pos == .right && (lastSibling cfg db t).map Row.pk == some t.pk) = false := by
        rw [el, Bool.eq_false_iff]
        simpa using hcase
      rw [this, Bool.or_false]
      rfl

theorem addSiblingC_eq (ho : cfg.ordered = false) (h : AInv cfg db.rows) {t : Row} (ht : t ∈ db.rows) (ct : Cls) (pos : Option Pos) (new : Row) :
    addSiblingC cfg db ct t pos new = addSibling cfg db t pos new := by
  simp only [addSiblingC, addSibling, addOrder, newSibOrderC_eq ho h ht]
  rfl

/-- what `move` goes to -/
theorem moveGoal_spec {x t : Row} (ht : t ∈ db.rows) {pos : Pos} {g : Goal} (hg : moveGoal cfg db x t pos = .ok g) :
    g.target ∈ db.rows ∧ ((x.pk ≠ g.target.pk) ∨ g = { target := g.target, pos := g.pos }) := by
  unfold moveGoal at hg
  split at hg
  · split at hg
    · cases hg
    · rename_i hne
      split at hg
      · split at hg
        · cases hg
        · rename_i l hl
          cases hg
          exact ⟨(mem_withParent.1 (mem_order.1 (List.mem_of_getLast? hl))).1, Or.inr rfl⟩
      · split at hg <;> cases hg <;> exact ⟨ht, Or.inl (by simpa using hne)⟩
  · cases hg; exact ⟨ht, Or.inr rfl⟩

theorem moveGoalC_eq {cn ct : Cls} {x t : Row} {pos : Pos} (hs : ¬ (isChildPos pos = true ∧ x.pk = t.pk)) :
    ∃ cg, moveGoalC cfg db cn ct x t pos = (moveGoal cfg db x t pos).map (fun g => (g, cg)) := by
  unfold moveGoalC moveGoal
  by_cases hc : isChildPos pos = true
  · have hne : (x.pk == t.pk) = false := by
      rw [Bool.eq_false_iff]
      intro e
      exact hs ⟨hc, by simpa using e⟩
    simp only [hc, hne, Bool.and_false, Bool.false_eq_true, if_false, if_true]
    split
    · cases lastChild cfg db t <;> exact ⟨treeCls, rfl⟩
    · split <;> exact ⟨ct, rfl⟩
  · exact ⟨ct, by simp only [hc, Bool.false_eq_true, if_false]; rfl⟩

theorem moveToC_eq (ho : cfg.ordered = false) (h : AInv cfg db.rows) {x : Row} {g : Goal} (ht : g.target ∈ db.rows) (cg : Cls) :
    moveToC cfg db x g cg = moveTo cfg db x g := by
  simp only [moveToC, moveTo, goalOrderC, goalOrder, newSibOrderC_eq ho h ht]
  rfl

theorem noMoveC_noMove {cn cg : Cls} {x t : Row} {pos : Pos} (h : noMoveC cfg db cn cg x t pos = true) : noMove cfg db x t pos = true := by
  revert h
  unfold noMoveC noMove
  simp only [Bool.and_eq_true, Bool.or_eq_true]
  tauto

/-- **Moves of objects of any classes**: except for a child position below the node itself, the outcome is what was asked for. -/
theorem moveC_unsorted (ho : cfg.ordered = false) (h : AInv cfg db.rows) {x t : Row} (hx : x ∈ db.rows) (ht : t ∈ db.rows)
    {cached : Option Int} {posArg : Option Pos} {pos : Pos} (hpos : preparePosForMove false posArg = .ok pos)
    (hr : ¬ (PF cfg db.rows).MoveRefused x.pk t.pk pos) (cn ct : Cls) :
    ∃ db' obj, moveC cfg db cn ct x t cached posArg = .ok (db', obj) ∧
      MoveGood cfg db db' obj x ((PF cfg db.rows).moveAsked x.pk t.parent t.pk pos) := by
  obtain ⟨db', obj, e, hm⟩ := move_unsorted ho h hx ht (cached := cached) hpos hr
  have hs : ¬ (isChildPos pos = true ∧ x.pk = t.pk) := by
    rintro ⟨hc, hk⟩
    refine hr (Or.inr ⟨?_, hk.symm⟩)
    revert hc; cases pos <;> simp [Pos.isChild, isChildPos]
  obtain ⟨cg, ecg⟩ := moveGoalC_eq (cfg := cfg) (db := db) (cn := cn) (ct := ct) hs
  unfold moveC
  unfold move at e
  rw [ho, hpos] at e ⊢
  simp only at e ⊢
  rw [ecg]
  cases hg : moveGoal cfg db x t pos with
  | error er => rw [hg] at e; simp only at e; cases e
  | ok g =>
    obtain ⟨hgt, hgs⟩ := moveGoal_spec ht hg
    rw [hg] at e
    simp only [Except.map] at e ⊢
    obtain ⟨b, eb, hb⟩ := isDescendantOf_spec (cfg := cfg) h.toAI hx g.target cached
    rw [eb] at e ⊢
    cases b with
    | true => simp only at e; cases e
    | false =>
      simp only at e ⊢
      have hnd : ¬ (PF cfg db.rows).Desc x.pk g.target.pk := fun hd => absurd (hb.2 hd) (by simp)
      rw [moveToC_eq ho h hgt]
      by_cases hn : noMove cfg db x g.target g.pos = true
      · rw [if_pos hn] at e
        cases e
        by_cases hnc : noMoveC cfg db cn cg x g.target g.pos = true
        · rw [if_pos hnc]
          exact ⟨_, _, rfl, hm⟩
        · rw [if_neg hnc]
          have hk := (noMove_iff.1 hn).1
          have hgp : IsSibPos g.pos := by
            rcases (noMove_iff.1 hn).2 with e | ⟨e | e, _⟩ | ⟨e, _⟩ <;> rw [e] <;> simp [IsSibPos]
          rw [hgs.resolve_left (fun hne => hne hk)]
          obtain ⟨db2, obj2, e2, hm2⟩ := moveTo_sib ho h hx hgt hgp hnd
          refine ⟨db2, obj2, e2, hm2.inv, ?_, hm2.data, hm2.obj⟩
          rw [hm2.forest, noMove_same h hgt hn]
          exact hm.forest
      · rw [if_neg hn] at e
        rw [if_neg (fun hc => hn (noMoveC_noMove hc))]
        exact ⟨db', obj, e, hm⟩

/-- **Refused moves stay refused**, unless a leaf is moved below itself through an object of another class. -/
theorem moveC_refused (h : AI db.rows) {x t : Row} (hx : x ∈ db.rows) {cached : Option Int} {posArg : Option Pos}
    {pos : Pos} (hpos : preparePosForMove cfg.ordered posArg = .ok pos) (hr : (PF cfg db.rows).MoveRefused x.pk t.pk pos) {cn ct : Cls}
    (hs : t.pk = x.pk → cn = ct ∨ isLeaf cfg db t = false) :
    moveC cfg db cn ct x t cached posArg = .error .invalidMoveToDescendant := by
  have hdesc : ∀ q, (PF cfg db.rows).Desc x.pk q.pk → isDescendantOf cfg db q x cached = .ok true := by
    intro q hq
    obtain ⟨b, e, hb⟩ := isDescendantOf_spec (cfg := cfg) h hx q cached
    cases b with
    | true => exact e
    | false => exact absurd (hb.2 hq) (by simp)
  unfold moveC
  rw [hpos]
  simp only
  unfold moveGoalC
  by_cases hcp : isChildPos pos = true
  · simp only [hcp, if_true]
    by_cases he : cn = ct ∧ x.pk = t.pk
    · rw [if_pos (by simp [he.1, he.2])]
    · rw [if_neg (by simpa using he)]
      cases hleaf : isLeaf cfg db t with
      | true =>
        have hd : (PF cfg db.rows).Desc x.pk t.pk := by
          rcases hr with hd | ⟨_, hk⟩
          · exact hd
          · rcases hs hk with e | e
            · exact absurd ⟨e, hk.symm⟩ he
            · rw [hleaf] at e; cases e
        by_cases hsc : pos = .sortedChild
        · simp [hsc, hdesc t hd]
        · simp [hsc, hdesc t hd]
      | false =>
        have hne : children cfg db t ≠ [] := by
          intro e
          unfold isLeaf at hleaf
          rw [e] at hleaf
          cases hleaf
        obtain ⟨c, hc⟩ : ∃ c, lastChild cfg db t = some c := by
          unfold lastChild
          exact ⟨_, List.getLast?_eq_some_getLast hne⟩
        have hcm : c ∈ db.rows ∧ c.parent = some t.pk := mem_children.1 (List.mem_of_getLast? hc)
        have hcc : c.pk ∈ PF cfg db.rows (some t.pk) := mem_PF.2 ⟨c, hcm.1, hcm.2, rfl⟩
        have hd : (PF cfg db.rows).Desc x.pk c.pk := by
          rcases hr with hd | ⟨_, hk⟩
          · exact .step hd hcc
          · exact .child (by rw [← hk]; exact hcc)
        simp [hc, hdesc c hd]
  · have hd : (PF cfg db.rows).Desc x.pk t.pk := by
      refine hr.resolve_right (fun e => hcp ?_)
      rw [← e.1]; cases pos <;> rfl
    simp [hcp, hdesc t hd]

end Verif.AL
