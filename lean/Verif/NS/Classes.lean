/-
NS: `add_sibling` and `move` for objects of different classes.

`a == b` for model instances (Django's `Model.__eq__`) is false for objects of different classes, even with the same primary key.
-/
import Verif.NS.Add
import Verif.NS.Move
import Verif.Classes

namespace Verif.NS

/-- `target == b` for a target of the class `ct` and the outcome `b` of a query -/
def sameNodeC (ct : Cls) (a : Row) (b : Option Row) : Bool := ct == treeCls && sameNode a b

/-- ns_tree.py:229-235 and 310-316: the sibling after `target`; `target` itself, with its class, if it is not found or is the last -/
def nextAfterC (ct : Cls) (target : Row) : List Row → Row × Cls
  | [] => (target, ct)
  | [_] => (target, ct)
  | a :: b :: rest => if ct == treeCls && a.pk == target.pk then (b, treeCls) else nextAfterC ct target (b :: rest)

/-- ns_tree.py:221-240 and 302-321 -/
def resolvePosC (db : DB) (pos : Pos) (ct : Cls) (target : Row) : Except Err (Pos × Row) :=
  if pos = .left ∨ pos = .right ∨ pos = .firstSibling then
    match siblings db target with
    | .error e => .error e
    | .ok sibs =>
      let (pos, target, ct) :=
        if pos = .right then
          if sameNodeC ct target sibs.getLast? then (.lastSibling, target, ct) else (.left, nextAfterC ct target sibs)
        else (pos, target, ct)
      let pos := if pos = .left ∧ sameNodeC ct target sibs.head? = true then .firstSibling else pos
      if pos = .firstSibling then
        match sibs.head? with
        | none => .error .attributeError
        | some f => .ok (.firstSibling, f)
      else .ok (pos, target)
  else .ok (pos, target)

/-- ns_tree.py:194-200, 213-219 and 295-301, with the class of the object named target afterwards -/
def resolveSortedC (cfg : Cfg) (db : DB) (pos : Pos) (ct : Cls) (target : Row) (vals : Vals) : Except Err (Pos × Row × Cls) :=
  if pos = .sortedSibling then
    match siblings db target with
    | .error e => .error e
    | .ok sibs =>
      match (sortedPosQueryset cfg.orderBy Row.vals sibs vals).head? with
      | some first => .ok (.left, first, treeCls)
      | none => .ok (.lastSibling, target, ct)
  else .ok (pos, target, ct)

/-- ns_tree.py:191-209 -/
def addRootSiblingC (db : DB) (ct : Cls) (target : Row) (pos : Pos) (new : Row) : Except Err (DB × Row) :=
  match lastRootNode db with
  | none => .error .attributeError
  | some lastRoot =>
    let mk := fun tree : Int => { new with tree := tree, lft := 1, rgt := 2 }
    if pos = .lastSibling ∨ (pos = .right ∧ sameNodeC ct target (some lastRoot)) then
      let obj := mk (lastRoot.tree + 1)
      .ok (save db obj, obj)
    else
      match (match pos with
        | .firstSibling => some 1
        | .left => some target.tree
        | .right => some (target.tree + 1)
        | _ => none : Option Int) with
      | none => .error .keyError
      | some newpos =>
        let obj := mk newpos
        .ok (save (moveTreeRight db newpos) obj, obj)

/-- ns_tree.py:210-250 -/
def addInnerSiblingC (db : DB) (ct : Cls) (target : Row) (cached : Option Row) (pos : Pos) (tree depth : Int) (new : Row) :
    Except Err (DB × Row) :=
  match resolvePosC db pos ct target with
  | .error e => .error e
  | .ok (pos', target) =>
    let finish := fun newpos : Int =>
      let obj := { new with tree := tree, lft := newpos, rgt := newpos + 1, depth := depth }
      (save (alterGap db target.tree newpos 2) obj, obj)
    if pos' = .lastSibling then
      match getParent db target (if pos = .lastSibling then cached else none) with
      | .error e => .error e
      | .ok none => .error .attributeError
      | .ok (some p) => .ok (finish p.rgt)
    else if pos' = .firstSibling ∨ pos' = .left then .ok (finish target.lft)
    else .error .valueError

/-- ns_tree.py:181-255 `add_sibling` with a target of the class `ct` -/
def addSiblingC (cfg : Cfg) (db : DB) (ct : Cls) (target : Row) (cached : Option Row) (pos : Option Pos) (new : Row) :
    Except Err (DB × Row) :=
  match preparePosForAddSibling cfg.ordered pos with
  | .error e => .error e
  | .ok pos =>
    match resolveSortedC cfg db pos ct target new.vals with
    | .error e => .error e
    | .ok (pos', target', ct') =>
      if target.isRoot then addRootSiblingC db ct' target' pos' { new with depth := target.depth }
      else addInnerSiblingC db ct' target' (if pos = .sortedSibling then none else cached) pos' target.tree target.depth new

/-- ns_tree.py:287-293 -/
def moveNoopC (db : DB) (cn ct : Cls) (node target : Row) (pos : Pos) : Except Err Bool :=
  if cn = ct ∧ node.pk = target.pk then
    if pos = .left then .ok true
    else if pos = .right ∨ pos = .lastSibling then (lastSibling db target).map (sameNodeC ct target)
    else if pos = .firstSibling then (firstSibling db target).map (sameNodeC ct target)
    else .ok false
  else .ok false

/-- ns_tree.py:268-282, with the class of the object named target afterwards -/
def moveVarsC (db : DB) (cn ct : Cls) (node target : Row) (pos : Pos) : Except Err (Pos × Row × Cls × Option Row) :=
  if isChildPos pos then
    if cn = ct ∧ node.pk = target.pk then .error .invalidMoveToDescendant
    else if target.isLeaf then .ok (.lastChild, target, ct, some target)
    else
      match lastChild db target with
      | none => .error .attributeError
      | some last => .ok (childToSib pos, last, treeCls, none)
  else .ok (pos, target, ct, none)

/-- ns_tree.py:284-379 -/
def moveFromC (cfg : Cfg) (db : DB) (cn ct : Cls) (node target origTarget : Row) (parent cached : Option Row) (pos : Pos) :
    Except Err MoveResult :=
  if target.isDescendantOf node then .error .invalidMoveToDescendant
  else
    match moveNoopC db cn ct node target pos with
    | .error e => .error e
    | .ok true => .ok ⟨db, node, origTarget⟩
    | .ok false =>
      match resolveSortedC cfg db pos ct target node.vals with
      | .error e => .error e
      | .ok (pos1, target1, ct1) =>
        match resolvePosC db pos1 ct1 target1 with
        | .error e => .error e
        | .ok (pos2, target2) => moveTo db node target2 origTarget parent cached pos2

/-- ns_tree.py:257-379 `move` of an object of the class `cn` to a target of the class `ct` -/
def moveC (cfg : Cfg) (db : DB) (cn ct : Cls) (node target : Row) (cached : Option Row) (pos : Option Pos) : Except Err MoveResult :=
  match preparePosForMove cfg.ordered pos with
  | .error e => .error e
  | .ok pos0 =>
    match moveVarsC db cn ct node target pos0 with
    | .error e => .error e
    | .ok (pos, target', ct', parent) =>
      moveFromC cfg db cn ct' node target' target parent
        (if pos0 = .lastSibling ∧ ¬ (cn = ct ∧ node.pk = target.pk) then cached else none) pos

variable {cfg : Cfg} {db : DB}

/-! ### Objects of the tree model -/

theorem sameNodeC_tree (a : Row) (b : Option Row) : sameNodeC treeCls a b = sameNode a b := by simp [sameNodeC]

theorem nextAfterC_tree (t : Row) (l : List Row) : nextAfterC treeCls t l = (nextAfter t l, treeCls) := by
  induction l with
  | nil => rfl
  | cons a l ih =>
    cases l with
    | nil => rfl
    | cons b rest =>
      unfold nextAfterC nextAfter
      simp only [BEq.rfl, Bool.true_and, ih]
      split <;> rfl

theorem resolvePosC_tree (pos : Pos) (t : Row) : resolvePosC db pos treeCls t = resolvePos db pos t := by
  unfold resolvePosC resolvePos
  split
  · cases siblings db t with
    | error e => rfl
    | ok l =>
      simp only [sameNodeC_tree, nextAfterC_tree]
      by_cases hp : pos = .right
      · simp only [hp, if_true]
        split <;> simp only [sameNodeC_tree] <;> rfl
      · simp only [hp, if_false, sameNodeC_tree]
        rfl
  · rfl

theorem sameNodeC_imp {ct : Cls} {a : Row} {b : Option Row} (h : sameNodeC ct a b = true) : sameNode a b = true := by
  simp only [sameNodeC, Bool.and_eq_true] at h; exact h.2

/-! ### Positions -/

/-- The positions mean the same for objects of all classes, except for `right`. -/
theorem resolvePosC_spec (h : NI db.rows) {t : Row} (ht : t ∈ db.rows) {pos : Pos} (hpos : IsSibPos pos) {ct : Cls}
    (hr : pos = .right → ct = treeCls) :
    ∃ pos' t', resolvePosC db pos ct t = .ok (pos', t') ∧ Resolved db.rows t pos pos' t' := by
  by_cases hc : ct = treeCls
  · rw [hc, resolvePosC_tree]; exact resolvePos_spec h ht hpos
  · rcases hpos with rfl | rfl | rfl | rfl
    · obtain ⟨pos', t', e, hres⟩ := resolvePos_spec h ht (pos := .firstSibling) (Or.inl rfl)
      exact ⟨pos', t', e ▸ rfl, hres⟩
    · obtain ⟨l, hl, _⟩ := siblings_spec h ht
      refine ⟨.left, t, ?_, ht, rfl, Or.inr ⟨Or.inl rfl, Or.inr (Or.inl ⟨rfl, rfl⟩)⟩⟩
      unfold resolvePosC
      rw [if_pos (by decide), hl]
      have : (ct == treeCls) = false := by simpa using hc
      simp [sameNodeC, this]
    · exact absurd (hr rfl) hc
    · exact ⟨.lastSibling, t, rfl, ht, rfl, Or.inl ⟨rfl, rfl, Or.inl rfl⟩⟩

theorem resolveSortedC_eq (cfg : Cfg) (pos : Pos) (ct : Cls) (t : Row) (vals : Vals) :
    ∃ c1, resolveSortedC cfg db pos ct t vals = (resolveSorted cfg db pos t vals).map (fun r => (r.1, r.2, c1)) ∧
      ∀ r, pos = .sortedSibling → resolveSorted cfg db pos t vals = .ok r → resolvePosC db r.1 c1 r.2 = resolvePos db r.1 r.2 := by
  unfold resolveSortedC resolveSorted
  by_cases hp : pos = .sortedSibling
  · simp only [hp, if_true]
    cases siblings db t with
    | error e => exact ⟨ct, rfl, by intro r _ e; cases e⟩
    | ok l =>
      simp only
      cases (sortedPosQueryset cfg.orderBy Row.vals l vals).head? with
      | some f => exact ⟨treeCls, rfl, by rintro r _ ⟨⟩; exact resolvePosC_tree _ _⟩
      | none => exact ⟨ct, rfl, by rintro r _ ⟨⟩; rfl⟩
  · simp only [hp, if_false]
    exact ⟨ct, rfl, by intro _ hp'; exact absurd hp' (by simp)⟩

/-- With a target of another class `right` is resolved to `left`: the loop over the siblings never finds the target. -/
theorem resolvePosC_right (h : NI db.rows) {t : Row} (ht : t ∈ db.rows) {ct : Cls} (hc : ct ≠ treeCls) :
    resolvePosC db .right ct t = .ok (.left, t) := by
  obtain ⟨l, hl, _⟩ := siblings_spec h ht
  have hf : (ct == treeCls) = false := by simpa using hc
  have hn : ∀ l, nextAfterC ct t l = (t, ct) := by
    intro l
    induction l with
    | nil => rfl
    | cons a l ih =>
      cases l with
      | nil => rfl
      | cons b rest => unfold nextAfterC; simpa [hf] using ih
  unfold resolvePosC
  rw [if_pos (by decide), hl]
  simp [sameNodeC, hf, hn]

theorem resolvePosC_left (h : NI db.rows) {t : Row} (ht : t ∈ db.rows) {ct : Cls} (hc : ct ≠ treeCls) :
    resolvePosC db .left ct t = .ok (.left, t) := by
  obtain ⟨l, hl, _⟩ := siblings_spec h ht
  have hf : (ct == treeCls) = false := by simpa using hc
  unfold resolvePosC
  rw [if_pos (by decide), hl]
  simp [sameNodeC, hf]

/-! ### `add_sibling` -/

theorem moveTreeRight_nobody (db : DB) {T : Int} (h : ∀ r ∈ db.rows, r.tree < T) : moveTreeRight db T = db := by
  unfold moveTreeRight
  have h1 : db.rows.map (treeRightRow T) = db.rows := by
    rw [List.map_congr_left (g := id), List.map_id]
    intro r hr
    unfold treeRightRow
    rw [if_neg (by have := h r hr; omega)]; rfl
  have h2 : db.rows.any (fun r => decide (T ≤ r.tree)) = false := by
    rw [List.any_eq_false]
    intro r hr
    have := h r hr
    simp; omega
  rw [h1, h2]
  rfl

theorem addRootSiblingC_eq (h : NI db.rows) {t : Row} (ht : t ∈ db.rows) {pos : Pos} {new : Row} (ct : Cls) :
    addRootSiblingC db ct t pos new = addRootSibling db t pos new := by
  unfold addRootSiblingC addRootSibling
  cases hz : lastRootNode db with
  | none => rfl
  | some z =>
    simp only
    obtain ⟨hzm, hz1, hzmax⟩ := root_tree_le h hz
    by_cases hcase : pos = .right ∧ sameNode t (some z) = true ∧ sameNodeC ct t (some z) = false
    · obtain ⟨rfl, e1, e2⟩ := hcase
      have : t = z := h.pk_inj ht hzm (by simpa [sameNode] using e1)
      subst this
      rw [if_neg (by simp [e2]), if_pos (Or.inr ⟨rfl, e1⟩)]
      simp only
      rw [moveTreeRight_nobody]
      intro r hr
      have := hzmax r hr
      omega
    · have hiff : (pos = .lastSibling ∨ (pos = .right ∧ sameNodeC ct t (some z) = true)) ↔
          (pos = .lastSibling ∨ (pos = .right ∧ sameNode t (some z) = true)) := by
        constructor
        · rintro (e | ⟨e1, e2⟩)
          · exact Or.inl e
          · exact Or.inr ⟨e1, sameNodeC_imp e2⟩
        · rintro (e | ⟨e1, e2⟩)
          · exact Or.inl e
          · refine Or.inr ⟨e1, ?_⟩
            by_contra hn
            exact hcase ⟨e1, e2, by simpa using hn⟩
      by_cases hb : pos = .lastSibling ∨ (pos = .right ∧ sameNode t (some z) = true)
      · rw [if_pos hb, if_pos (hiff.2 hb)]
      · rw [if_neg hb, if_neg (fun e => hb (hiff.1 e))]
        rfl

theorem addInnerSiblingC_eq (h : NI db.rows) {t : Row} (ht : t ∈ db.rows) {pos : Pos} {new : Row} {ct : Cls}
    (hr : pos = .right → ct = treeCls) {cached : Option Row} {tree depth : Int} :
    addInnerSiblingC db ct t cached pos tree depth new = addInnerSibling db t cached pos tree depth new := by
  unfold addInnerSiblingC addInnerSibling
  by_cases hc : ct = treeCls
  · subst hc; rw [resolvePosC_tree]; rfl
  · by_cases hp : pos = .left
    · subst hp
      obtain ⟨pos', t', e, hres⟩ := resolvePos_spec h ht (pos := .left) (Or.inr (Or.inl rfl))
      rw [resolvePosC_left h ht hc, e]
      rcases hres.cases with ⟨_, _, e | ⟨e, _⟩⟩ | ⟨hp', ⟨e, _⟩ | ⟨_, rfl⟩ | ⟨e, _⟩⟩
      · cases e
      · cases e
      · cases e
      · rcases hp' with rfl | ⟨rfl, _⟩ <;> rfl
      · cases e
    · by_cases hp2 : pos = .firstSibling
      · subst hp2; rfl
      · have hp3 : pos ≠ .right := fun e => hc (hr e)
        have hn : ¬ (pos = .left ∨ pos = .right ∨ pos = .firstSibling) := by tauto
        have e1 : resolvePosC db pos ct t = .ok (pos, t) := by unfold resolvePosC; rw [if_neg hn]
        have e2 : resolvePos db pos t = .ok (pos, t) := by unfold resolvePos; rw [if_neg hn]
        rw [e1, e2]
        rfl

/-- **`add_sibling` with a target of any class**, except to the right of a node that is not a root: the same outcome as with an object of
the tree model. -/
theorem addSiblingC_eq (h : NI db.rows) {t : Row} (ht : t ∈ db.rows) {ct : Cls} {cached : Option Row} {posArg : Option Pos} {new : Row}
    (hr : posArg = some .right → t.lft = 1 ∨ ct = treeCls) :
    addSiblingC cfg db ct t cached posArg new = addSibling cfg db t cached posArg new := by
  unfold addSiblingC addSibling
  cases hp : preparePosForAddSibling cfg.ordered posArg with
  | error e => rfl
  | ok pos =>
    simp only
    have hr' : pos = .right → t.lft = 1 ∨ ct = treeCls := by
      rintro rfl
      apply hr
      revert hp
      unfold preparePosForAddSibling
      cases posArg with
      | none => cases cfg.ordered <;> intro e <;> cases e
      | some p => cases p <;> cases cfg.ordered <;> intro e <;> first | rfl | cases e
    unfold resolveSortedC resolveSorted
    by_cases hs : pos = .sortedSibling
    · subst hs
      simp only [if_true]
      obtain ⟨l, hl, _, hm, _⟩ := siblings_spec h ht
      rw [hl]
      simp only
      cases hf : (sortedPosQueryset cfg.orderBy Row.vals l new.vals).head? with
      | none =>
        simp only
        split
        · exact addRootSiblingC_eq h ht _
        · exact addInnerSiblingC_eq h ht (by rintro ⟨⟩)
      | some f =>
        have hfm : f ∈ db.rows := ((hm f).1 ((sortedPos_sublist _ _ _ _).subset (List.mem_of_head? hf))).1
        simp only
        split
        · exact addRootSiblingC_eq h hfm _
        · exact addInnerSiblingC_eq h hfm (fun _ => rfl)
    · simp only [hs, if_false]
      split
      · exact addRootSiblingC_eq h ht _
      · rename_i hroot
        refine addInnerSiblingC_eq h ht ?_
        intro e
        rcases hr' e with e' | e'
        · exact absurd e' (by simpa [Row.isRoot] using hroot)
        · exact e'

/-- **To the right of an inherited object** that is not a root the new node goes to its left. -/
theorem addSiblingC_right (h : NInv db.rows) (ho : cfg.ordered = false) {t : Row} (ht : t ∈ db.rows) (hl : t.lft ≠ 1) {ct : Cls} (hc : ct ≠ treeCls)
    {cached : Option Row} {new : Row} (hf : ∀ r ∈ db.rows, r.pk ≠ new.pk) :
    ∃ db' obj, addSiblingC cfg db ct t cached (some .right) new = .ok (db', obj) ∧ Added db db' obj new (par db.rows t) (.before t.pk) := by
  have e : addSiblingC cfg db ct t cached (some .right) new = addSiblingC cfg db ct t none (some .left) new := by
    unfold addSiblingC resolveSortedC
    rw [ho, show preparePosForAddSibling false (some .right) = .ok .right from rfl, show preparePosForAddSibling false (some .left) = .ok .left from rfl]
    have hroot : t.isRoot = false := by simp [Row.isRoot, hl]
    simp [hroot, addInnerSiblingC, resolvePosC_right h.toNI ht hc, resolvePosC_left h.toNI ht hc]
  rw [e, addSiblingC_eq h.toNI ht (by rintro ⟨⟩)]
  exact addSibling_unsorted h ho ht (cached := none) (by rintro p ⟨⟩) (posArg := some .left) (pos := .left) rfl hf

/-! ### `move` -/

/-- left of itself -/
theorem move_left_same {rows : List Row} (h : NI rows) {x : Row} (hx : x ∈ rows) {T l : Int} (hb : BeforeRow rows (par rows x) x T l) {s : Slot}
    (hs : PSlot rows (· ≠ x) (par rows x) T l s) : (PF rows).move x.pk (par rows x) s = PF rows := by
  have hbef : ∀ r ∈ rows, par rows r = par rows x → befH T l r → lt r x := by
    intro r hr hp hbf
    by_contra hn
    have := (hb r hr hp).2 hn
    unfold befH at hbf
    unfold aftP at this
    omega
  have haft : ∀ r ∈ rows, r ≠ x → par rows r = par rows x → aftP T l r → lt x r := by
    intro r hr hne hp ha
    rcases h.lt_total hr hx hne with e | e
    · have := (hb r hr hp).1 e
      unfold befH at this
      unfold aftP at ha
      omega
    · exact e
  refine move_same h hx ?_
  cases s with
  | first => rintro r ⟨hr, hne⟩ hp; exact haft r hr hne hp (hs r hr hne hp)
  | last => rintro r ⟨hr, hne⟩ hp; exact hbef r hr hp (hs r hr hne hp)
  | before k =>
    obtain ⟨tr, htr, hne, hk, hp, ha, hall⟩ := hs
    have hlt := haft tr htr hne hp ha
    refine ⟨tr, ⟨htr, hne⟩, hk, hp, hlt, ?_, ?_⟩
    · rintro r ⟨hr, hrne⟩ hrp e
      exact hbef r hr hrp (hall r hr hrne hrp e)
    · rintro r ⟨hr, hrne⟩ hrp e
      exact lt_trans hlt e
  | after k =>
    obtain ⟨tr, htr, hne, hk, hp, ha, hall⟩ := hs
    have hlt := hbef tr htr hp ha
    refine ⟨tr, ⟨htr, hne⟩, hk, hp, hlt, ?_, ?_⟩
    · rintro r ⟨hr, hrne⟩ hrp e
      exact lt_trans e hlt
    · rintro r ⟨hr, hrne⟩ hrp e
      exact haft r hr hrne hrp (hall r hr hrne hrp e)

/-- a move to a resolved position, also next to the node itself -/
theorem moveTo_resolved (h : NInv db.rows) {x t orig : Row} (hx : x ∈ db.rows) (ht : t ∈ db.rows) (horig : orig ∈ db.rows)
    (hin : ¬ encl x t) {pos : Pos} (hpos : IsSibPos pos) {cached : Option Row}
    (hc : ∀ p, cached = some p → p ∈ db.rows ∧ par db.rows t = some p.pk) {pos1 : Pos} {t1 : Row} (hres : Resolved db.rows t pos pos1 t1) :
    ∃ res, moveTo db x t1 orig none cached pos1 = .ok res ∧
      MoveGood db res x orig ((PF db.rows).sibMove x.pk (par db.rows t) t.pk pos) := by
  obtain ⟨res, T, l, em, hma, h1, h2, hend, hbef⟩ := moveTo_sib h hx ht horig hin hres hc
  refine ⟨res, em, ?_⟩
  by_cases hself : t = x ∧ pos = .right
  · obtain ⟨rfl, rfl⟩ := hself
    have hF : (PF db.rows).sibMove t.pk (par db.rows t) t.pk .right = PF db.rows := by simp [Forest.sibMove]
    rw [hF]
    rcases hres.cases with ⟨e1, rfl, hor⟩ | ⟨e1, ⟨e2, _⟩ | ⟨e2, _⟩ | ⟨_, hlt, hnext⟩⟩
    · rcases hor with e | ⟨_, hmax⟩
      · cases e
      · obtain ⟨g1, g2, g3⟩ := hma.result h hx (s := .last) (pslot_end (hend e1) _)
        rw [move_last_same h.toNI hx hmax] at g2
        exact ⟨g1, g2, g3, h1, h2⟩
    · cases e2
    · cases e2
    · have hb := hbef (e1.imp id (·.1))
      have hne : t1 ≠ t := by rintro rfl; exact lt_irrefl _ hlt
      obtain ⟨g1, g2, g3⟩ := hma.result h hx (s := .before t1.pk) (pslot_before hb hres.mem hne hres.par)
      rw [move_before_same h.toNI hx hres.mem hres.par hlt hnext] at g2
      exact ⟨g1, g2, g3, h1, h2⟩
  · by_cases hleft : t = x ∧ pos = .left
    · obtain ⟨rfl, rfl⟩ := hleft
      have hF : (PF db.rows).sibMove t.pk (par db.rows t) t.pk .left = PF db.rows := by simp [Forest.sibMove]
      rw [hF]
      obtain ⟨s, hs⟩ := exists_slot h.toNI (· ≠ t) (par db.rows t) T l
      obtain ⟨g1, g2, g3⟩ := hma.result h hx hs
      rcases hres.cases with ⟨_, _, e | ⟨e, _⟩⟩ | ⟨e1, ⟨e, _⟩ | ⟨_, rfl⟩ | ⟨e, _⟩⟩
      · cases e
      · cases e
      · cases e
      · rw [move_left_same h.toNI hx (hbef (e1.imp id (·.1))) hs] at g2
        exact ⟨g1, g2, g3, h1, h2⟩
      · cases e
    · have hR : t ≠ x ∨ pos = .firstSibling ∨ pos = .lastSibling := by
        by_cases e' : t = x
        · right
          rcases hpos with rfl | rfl | rfl | rfl
          · exact Or.inl rfl
          · exact absurd ⟨e', rfl⟩ hleft
          · exact absurd ⟨e', rfl⟩ hself
          · exact Or.inr rfl
        · exact Or.inl e'
      obtain ⟨g1, g2, g3⟩ := hma.result h hx (hres.slot (R := (· ≠ x)) ht hR hend hbef)
      refine ⟨g1, g2.trans ?_, g3, h1, h2⟩
      have hk : t ≠ x → t.pk ≠ x.pk := fun hne e' => hne (h.pk_inj ht hx e')
      rcases hpos with rfl | rfl | rfl | rfl
      · rfl
      · have : t ≠ x := by rcases hR with h | h | h <;> first | exact h | cases h
        simp [Forest.sibMove, sibAsked, hk this]
      · have : t ≠ x := by rcases hR with h | h | h <;> first | exact h | cases h
        simp [Forest.sibMove, sibAsked, hk this]
      · rfl

theorem moveNoopC_spec (h : NI db.rows) {x t : Row} (hx : x ∈ db.rows) (ht : t ∈ db.rows) (pos : Pos) (cn ct : Cls) :
    ∃ b, moveNoopC db cn ct x t pos = .ok b ∧
      (b = true → (PF db.rows).sibMove x.pk (par db.rows t) t.pk pos = PF db.rows) := by
  obtain ⟨l, hl, hs, hm, e1, e2⟩ := sibling_ends h ht
  obtain ⟨b, hb, hb1, _⟩ := moveNoop_spec h hx ht pos
  unfold moveNoopC
  by_cases hk : cn = ct ∧ x.pk = t.pk
  · rw [if_pos hk]
    unfold moveNoop at hb
    rw [if_pos hk.2] at hb
    by_cases hp1 : pos = .left
    · rw [if_pos hp1] at hb ⊢
      exact ⟨b, hb, fun hb' => (hb1 hb').2.2⟩
    · rw [if_neg hp1] at hb ⊢
      by_cases hp2 : pos = .right ∨ pos = .lastSibling
      · rw [if_pos hp2, e1] at hb ⊢
        refine ⟨_, rfl, fun hb' => (hb1 ?_).2.2⟩
        rw [show b = sameNode t l.getLast? from (Except.ok.inj hb).symm]
        exact sameNodeC_imp hb'
      · rw [if_neg hp2] at hb ⊢
        by_cases hp3 : pos = .firstSibling
        · rw [if_pos hp3, e2] at hb ⊢
          refine ⟨_, rfl, fun hb' => (hb1 ?_).2.2⟩
          rw [show b = sameNode t l.head? from (Except.ok.inj hb).symm]
          exact sameNodeC_imp hb'
        · rw [if_neg hp3]
          exact ⟨false, rfl, by rintro ⟨⟩⟩
  · rw [if_neg hk]
    exact ⟨false, rfl, by rintro ⟨⟩⟩

/-- **`move` of objects of any classes, without `node_order_by`**, except to the right of an inherited object. -/
theorem moveC_unsorted (h : NInv db.rows) (ho : cfg.ordered = false) {x t : Row} (hx : x ∈ db.rows) (ht : t ∈ db.rows)
    {cached : Option Row} (hc : ∀ p, cached = some p → p ∈ db.rows ∧ par db.rows t = some p.pk)
    {posArg : Option Pos} {pos : Pos} (hprep : preparePosForMove false posArg = .ok pos) (hin : ¬ Refused x t pos) {cn ct : Cls}
    (hr : pos = .right → ct = treeCls) :
    ∃ res, moveC cfg db cn ct x t cached posArg = .ok res ∧
      MoveGood db res x t ((PF db.rows).moveAsked x.pk (par db.rows t) t.pk pos) := by
  have hpos := (prepMove_arg hprep).1
  have hnd : ¬ encl x t := fun e => hin (Or.inl e)
  have hsame : ∀ F, PF db.rows = F → MoveGood db ⟨db, x, t⟩ x t F := by
    rintro _ rfl
    exact ⟨h, rfl, rfl, ⟨hx, rfl⟩, ⟨ht, rfl⟩⟩
  unfold moveC
  rw [ho, hprep]
  simp only
  have rest : ∀ (t' : Row), t' ∈ db.rows → ¬ encl x t' → ∀ (pos' : Pos), IsSibPos pos' → ∀ c' : Option Row, ∀ ct' : Cls,
      (pos' = .right → ct' = treeCls) →
      (∀ p, c' = some p → p ∈ db.rows ∧ par db.rows t' = some p.pk) →
      ∃ res, moveFromC cfg db cn ct' x t' t none c' pos' = .ok res ∧
        MoveGood db res x t ((PF db.rows).sibMove x.pk (par db.rows t') t'.pk pos') := by
    intro t' ht' hin' pos' hpos' c' ct' hr' hc'
    obtain ⟨b, hb, hb1⟩ := moveNoopC_spec h.toNI hx ht' pos' cn ct'
    have hns : pos' ≠ .sortedSibling := by rcases hpos' with rfl | rfl | rfl | rfl <;> decide
    unfold moveFromC
    rw [if_neg (by rw [isDescendantOf_iff]; exact hin'), hb]
    cases b with
    | true => exact ⟨_, rfl, hsame _ (hb1 rfl).symm⟩
    | false =>
      simp only
      unfold resolveSortedC
      rw [if_neg hns]
      simp only
      obtain ⟨pos1, t1, e1, hres⟩ := resolvePosC_spec h.toNI ht' hpos' hr'
      rw [e1]
      exact moveTo_resolved h hx ht' ht hin' hpos' hc' hres
  unfold moveVarsC
  rw [isChildPos_eq]
  by_cases hch : pos.isChild = true
  · rw [if_pos hch]
    have hne : t ≠ x := fun e => hin (Or.inr ⟨hch, e⟩)
    have hk : x.pk ≠ t.pk := fun e => hne (h.pk_inj ht hx e.symm)
    rw [if_neg (fun e => hk e.2)]
    have hcp : pos = .firstChild ∨ pos = .lastChild := by
      rcases hpos with (rfl | rfl | rfl | rfl) | e | e
      · cases hch
      · cases hch
      · cases hch
      · cases hch
      · exact Or.inl e
      · exact Or.inr e
    have hcache : (if pos = Pos.lastSibling ∧ ¬ (cn = ct ∧ x.pk = t.pk) then cached else none) = none := by
      rw [if_neg]; rintro ⟨e, _⟩; rcases hcp with e' | e' <;> (rw [e'] at e; cases e)
    simp only [hcache]
    cases hl : t.isLeaf with
    | true =>
      simp only [if_true]
      unfold moveFromC
      rw [if_neg (by rw [isDescendantOf_iff]; exact hnd)]
      have hn : moveNoopC db cn ct x t .lastChild = .ok false := by unfold moveNoopC; rw [if_neg (fun e => hk e.2)]
      rw [hn]
      simp only
      have hinB : ¬ InB x t := by rintro (e | e); exacts [hne e, hnd e]
      have hleaf := fun s hs => moveTo_leaf h hx ht hinB hl (s := s) hs (cached := none)
      unfold resolveSortedC resolvePosC
      rw [if_neg (by decide)]
      simp only
      rw [if_neg (by decide)]
      simp only
      rcases hcp with rfl | rfl
      · exact hleaf .first (Or.inl rfl)
      · exact hleaf .last (Or.inr rfl)
    | false =>
      obtain ⟨z, hz, hzm, hzp, _⟩ := lastChild_spec h ht hl
      simp only [Bool.false_eq_true, if_false, hz]
      have hi := (par_row h.toNI ht hzm).1 hzp
      have hzd : ¬ encl x z := by
        intro e
        rcases hi.2.2 x hx e with rfl | e'
        · exact hne rfl
        · exact hnd e'
      have := rest z hzm hzd (childToSib pos) (by rcases hcp with rfl | rfl <;> simp [childToSib, IsSibPos]) none treeCls (fun _ => rfl) (by rintro p ⟨⟩)
      rw [hzp] at this
      rcases hcp with rfl | rfl <;> exact this
  · rw [if_neg hch]
    simp only
    have hsib : IsSibPos pos := by
      rcases hpos with hs | rfl | rfl
      · exact hs
      · exact absurd rfl hch
      · exact absurd rfl hch
    have := rest t ht hnd pos hsib (if pos = Pos.lastSibling ∧ ¬ (cn = ct ∧ x.pk = t.pk) then cached else none) ct hr (by
      intro p e
      split at e
      · exact hc p e
      · cases e)
    have hF : (PF db.rows).moveAsked x.pk (par db.rows t) t.pk pos = (PF db.rows).sibMove x.pk (par db.rows t) t.pk pos := by
      rcases hsib with rfl | rfl | rfl | rfl <;> rfl
    rw [hF]
    exact this

/-- **To the right of another inherited object** the node goes to its left. -/
theorem moveC_right (h : NInv db.rows) (ho : cfg.ordered = false) {x t : Row} (hx : x ∈ db.rows) (ht : t ∈ db.rows) (hk : x.pk ≠ t.pk)
    {cached : Option Row} (hin : ¬ encl x t) {cn ct : Cls} (hc : ct ≠ treeCls) :
    ∃ res, moveC cfg db cn ct x t cached (some .right) = .ok res ∧
      MoveGood db res x t ((PF db.rows).move x.pk (par db.rows t) (.before t.pk)) := by
  have e : moveC cfg db cn ct x t cached (some .right) = moveC cfg db cn ct x t none (some .left) := by
    unfold moveC
    rw [ho, show preparePosForMove false (some .right) = .ok .right from rfl, show preparePosForMove false (some .left) = .ok .left from rfl]
    simp [moveVarsC, isChildPos, moveFromC, moveNoopC, hk, resolveSortedC, resolvePosC_right h.toNI ht hc, resolvePosC_left h.toNI ht hc]
  rw [e]
  obtain ⟨res, e2, hg⟩ := moveC_unsorted h ho hx ht (cached := none) (by rintro p ⟨⟩) (posArg := some .left) (pos := .left) rfl
    (by rintro (e | ⟨e, _⟩); exacts [hin e, by cases e]) (cn := cn) (ct := ct) (by rintro ⟨⟩)
  refine ⟨res, e2, ?_⟩
  have : (PF db.rows).moveAsked x.pk (par db.rows t) t.pk .left = (PF db.rows).move x.pk (par db.rows t) (.before t.pk) := by
    simp [Forest.moveAsked, Forest.sibMove, Ne.symm hk]
  rwa [this] at hg

/-- **`move` of objects of any classes, with `node_order_by`**: the same outcome as with objects of the tree model. -/
theorem moveC_sorted (ho : cfg.ordered = true) {x t : Row} {cached : Option Row} {posArg : Option Pos} {pos : Pos}
    (hprep : preparePosForMove true posArg = .ok pos) (hs : ¬ (pos.isChild = true ∧ x.pk = t.pk)) (cn ct : Cls) :
    moveC cfg db cn ct x t cached posArg = move cfg db x t cached posArg := by
  have hpos := prepMoveSorted_arg hprep
  have hfrom : ∀ c t' parent c', moveFromC cfg db cn c x t' t parent c' .sortedSibling = moveFrom cfg db x t' t parent c' .sortedSibling := by
    intro c t' parent c'
    unfold moveFromC moveFrom
    have h1 : moveNoopC db cn c x t' .sortedSibling = .ok false := by unfold moveNoopC; simp
    have h2 : moveNoop db x t' .sortedSibling = .ok false := by unfold moveNoop; simp
    rw [h1, h2]
    simp only
    obtain ⟨c1, e1, e2⟩ := resolveSortedC_eq (db := db) cfg .sortedSibling c t' x.vals
    rw [e1]
    cases hrs : resolveSorted cfg db .sortedSibling t' x.vals with
    | error e => rfl
    | ok r =>
      simp only [Except.map]
      rw [e2 r rfl hrs]
      rfl
  unfold moveC move
  rw [ho, hprep]
  simp only
  have hcache1 : (if pos = Pos.lastSibling ∧ ¬ (cn = ct ∧ x.pk = t.pk) then cached else none) = none := by
    rw [if_neg]; rintro ⟨e, _⟩; rcases hpos with e' | e' <;> (rw [e'] at e; cases e)
  have hcache2 : (if pos = Pos.lastSibling ∧ x.pk ≠ t.pk then cached else none) = none := by
    rw [if_neg]; rintro ⟨e, _⟩; rcases hpos with e' | e' <;> (rw [e'] at e; cases e)
  simp only [hcache1, hcache2]
  unfold moveVarsC moveVars
  rw [isChildPos_eq]
  rcases hpos with rfl | rfl
  · simp only [show Pos.sortedSibling.isChild = false from rfl, Bool.false_eq_true, if_false]
    exact hfrom _ _ _ _
  · have hk : x.pk ≠ t.pk := fun e => hs ⟨rfl, e⟩
    have hc : Pos.sortedChild.isChild = true := rfl
    rw [if_pos hc, if_pos hc, if_neg (fun e => hk e.2), if_neg hk]
    cases hl : t.isLeaf with
    | true =>
      simp only [if_true]
      unfold moveFromC moveFrom
      rw [show moveNoopC db cn ct x t .lastChild = .ok false by unfold moveNoopC; rw [if_neg (fun e => hk e.2)],
        show moveNoop db x t .lastChild = .ok false by unfold moveNoop; rw [if_neg hk]]
      rfl
    | false =>
      simp only [Bool.false_eq_true, if_false]
      cases hz : lastChild db t with
      | none => rfl
      | some z => exact hfrom _ _ _ _

/-- Moves below the node itself or below a descendant are refused, unless they go below the node itself, it has no children, and the objects
are of different classes. -/
theorem moveC_refused (h : NInv db.rows) {x t : Row} (hx : x ∈ db.rows) (ht : t ∈ db.rows) {cached : Option Row} {posArg : Option Pos} {pos : Pos}
    (hprep : preparePosForMove cfg.ordered posArg = .ok pos) (hr : Refused x t pos) {cn ct : Cls} (hs : t = x → cn = ct ∨ t.isLeaf = false) :
    moveC cfg db cn ct x t cached posArg = .error .invalidMoveToDescendant := by
  unfold moveC
  rw [hprep]
  simp only
  unfold moveVarsC
  rw [isChildPos_eq]
  have hdesc : ∀ c t' parent c' pos', encl x t' → moveFromC cfg db cn c x t' t parent c' pos' = .error .invalidMoveToDescendant := by
    intro c t' parent c' pos' he
    unfold moveFromC
    rw [if_pos (isDescendantOf_iff.2 he)]
  by_cases hc : pos.isChild = true
  · rw [if_pos hc]
    by_cases hk : cn = ct ∧ x.pk = t.pk
    · rw [if_pos hk]
    · rw [if_neg hk]
      cases hl : t.isLeaf with
      | true =>
        simp only [if_true]
        rcases hr with hr | ⟨_, rfl⟩
        · exact hdesc _ _ _ _ _ hr
        · rcases hs rfl with e | e
          · exact absurd ⟨e, rfl⟩ hk
          · rw [hl] at e; cases e
      | false =>
        obtain ⟨z, hz, hzm, hzp, _⟩ := lastChild_spec h ht hl
        simp only [Bool.false_eq_true, if_false, hz]
        have := ((par_row h.toNI ht hzm).1 hzp).2.1
        rcases hr with hr | ⟨_, rfl⟩
        · exact hdesc _ _ _ _ _ (encl_trans hr this)
        · exact hdesc _ _ _ _ _ this
  · rw [if_neg hc]
    rcases hr with hr | ⟨hr, _⟩
    · exact hdesc _ _ _ _ _ hr
    · exact absurd hr hc

end Verif.NS
