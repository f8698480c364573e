/-
NS: the target object that `add_child` leaves behind has an `rgt` that is too large by 2 when the target has children.  When a move
relative to this object still works.
-/
import Verif.NS.Move

namespace Verif.NS

variable {cfg : Cfg} {db : DB}

/-- the object after `add_child` to a node with children: `rgt` is too large -/
def stale (t : Row) : Row := { t with rgt := t.rgt + 2 }

theorem stale_pk (t : Row) : (stale t).pk = t.pk := rfl
theorem stale_tree (t : Row) : (stale t).tree = t.tree := rfl
theorem stale_lft (t : Row) : (stale t).lft = t.lft := rfl
theorem stale_rgt (t : Row) : (stale t).rgt = t.rgt + 2 := rfl
theorem stale_depth (t : Row) : (stale t).depth = t.depth := rfl

/-- The node is a root, or there is a sibling after it. -/
def NotLast (rows : List Row) (t : Row) : Prop := t.lft = 1 ∨ ∃ s ∈ rows, par rows s = par rows t ∧ lt t s

theorem stale_leaf (h : NI db.rows) {t : Row} (ht : t ∈ db.rows) : (stale t).isLeaf = false := by
  have := h.lr t ht
  simp only [stale, Row.isLeaf, beq_eq_false_iff_ne]
  omega

/-- the row that starts right after `t` is not deeper than `t` -/
theorem after_depth (h : NI db.rows) {t s : Row} (ht : t ∈ db.rows) (hs : s ∈ db.rows) (htree : s.tree = t.tree)
    (hl : s.lft = t.rgt + 1) : s.depth ≤ t.depth := by
  rw [h.depth s hs, h.depth t ht]
  have : above db.rows s ≤ above db.rows t := by
    unfold above
    refine List.countP_mono_left ?_
    intro q hq he
    have he : encl q s := by simpa using he
    rw [decide_eq_true_eq]
    have h1 := h.lr t ht
    have h2 := h.lr s hs
    have hne : q ≠ t := by rintro rfl; unfold encl at he; omega
    have hd := h.dist q hq t ht hne (by unfold encl at he; omega)
    have hq' := h.lr q hq
    have h3 := h.lam t ht q hq (by unfold encl at he; omega)
    unfold encl at he ⊢
    omega
  omega

theorem children_stale (h : NI db.rows) {t : Row} (ht : t ∈ db.rows) (hl : t.isLeaf = false) : children db (stale t) = children db t := by
  unfold children descendants
  rw [stale_leaf h ht, hl]
  simp only [Bool.false_eq_true, if_false]
  unfold getTree
  simp only [stale_leaf h ht, hl, Bool.false_eq_true, if_false]
  have hlr := h.lr t ht
  -- sort and filter commute
  refine sorted_unique (asymOn_lt (· ∈ db.rows)) ?_ ?_ ?_ ?_
  · intro r hr
    exact (List.mem_filter.1 (mem_order.1 (List.mem_filter.1 (List.mem_filter.1 hr).1).1)).1
  · exact ((order_filter_sorted h _).sublist List.filter_sublist).sublist List.filter_sublist
  · exact ((order_filter_sorted h _).sublist List.filter_sublist).sublist List.filter_sublist
  · intro r
    simp only [List.mem_filter, mem_order, stale_pk, stale_tree, stale_lft, stale_rgt, stale_depth, Bool.and_eq_true, beq_iff_eq, decide_eq_true_iff,
      Bool.not_eq_true', beq_eq_false_iff_ne]
    constructor
    · rintro ⟨⟨⟨h1, ⟨⟨h2, h3⟩, h4⟩, h5⟩, h6⟩, h7⟩
      replace h3 := of_decide_eq_true h3
      replace h4 := of_decide_eq_true h4
      refine ⟨⟨⟨h1, ⟨⟨h2, h3⟩, ?_⟩, h5⟩, h6⟩, h7⟩
      by_contra hc
      have hne : r ≠ t := fun e => h6 (by rw [e])
      have hd := h.dist r h1 t ht hne h2
      have := after_depth h ht h1 h2 (by omega)
      omega
    · rintro ⟨⟨⟨h1, ⟨⟨h2, h3⟩, h4⟩, h5⟩, h6⟩, h7⟩
      exact ⟨⟨⟨h1, ⟨⟨h2, decide_eq_true h3⟩, decide_eq_true (by omega)⟩, h5⟩, h6⟩, h7⟩

theorem getParent_stale (h : NI db.rows) {t : Row} (ht : t ∈ db.rows) (hn : NotLast db.rows t) (c : Option Row) :
    getParent db (stale t) c = getParent db t c := by
  have ha : t.isRoot = false → ancestors db (stale t) = ancestors db t := by
    intro hr
    have hr1 : t.lft ≠ 1 := by simpa [Row.isRoot] using hr
    rw [ancestors_eq h, ancestors_eq h]
    congr 1
    refine List.filter_congr (fun q hq => ?_)
    rw [decide_eq_decide]
    constructor
    · unfold encl stale; simp only; omega
    · intro he
      rcases hn with e | ⟨s, hs, hp, hlt⟩
      · exact absurd e hr1
      · rcases par_cases h ht with ⟨e, _⟩ | ⟨p, hi, e⟩
        · exact absurd ((par_eq_none h ht).1 e) hr1
        · have his := (par_row h hi.1 hs).1 (hp.trans e)
          have hes := his.2.1
          have het := hi.2.1
          have h1 := h.lr s hs
          have h2 := h.lr t ht
          have hne : t ≠ s := by rintro rfl; exact lt_irrefl _ hlt
          have htri := h.tri ht hs hne (by unfold encl at *; omega)
          have hnts : ¬ encl t s := fun e' => by
            rcases his.2.2 t ht e' with rfl | e''
            · exact encl_irrefl _ het
            · exact encl_asymm e'' het
          rw [lt_iff] at hlt
          have hq : q.rgt ≥ p.rgt := by
            rcases hi.2.2 q hq he with rfl | e'
            · omega
            · unfold encl at e'; omega
          unfold encl at *
          simp only [stale]
          omega
  unfold getParent
  have hroot : (stale t).isRoot = t.isRoot := rfl
  rw [hroot]
  cases hr : t.isRoot with
  | true => rfl
  | false => rw [ha hr]

theorem siblings_stale (h : NI db.rows) {t : Row} (ht : t ∈ db.rows) (hn : NotLast db.rows t) : siblings db (stale t) = siblings db t := by
  unfold siblings
  rw [getParent_stale h ht hn]
  rfl

/-- the hole is the same -/
theorem moveTo_stale (h : NI db.rows) {x t orig orig' : Row} (ht : t ∈ db.rows) (hn : NotLast db.rows t) (ho : orig'.pk = orig.pk)
    (cached : Option Row) (pos : Pos) : moveTo db x (stale t) orig' none cached pos = moveTo db x t orig none cached pos := by
  have hh : makeHole db x (stale t) none cached pos = makeHole db x t none cached pos := by
    unfold makeHole
    rw [siblings_stale h ht hn, getParent_stale h ht hn]
    rfl
  unfold moveTo
  rw [hh, ho]
  rfl

theorem moveTo_orig {x t orig orig' : Row} (ho : orig'.pk = orig.pk) (parent cached : Option Row) (pos : Pos) :
    moveTo db x t orig' parent cached pos = moveTo db x t orig parent cached pos := by
  unfold moveTo
  rw [ho]

theorem resolvePos_stale (h : NI db.rows) {t : Row} (ht : t ∈ db.rows) (hn : NotLast db.rows t) (pos : Pos) :
    resolvePos db pos (stale t) = resolvePos db pos t ∨
    ∃ pos', resolvePos db pos (stale t) = .ok (pos', stale t) ∧ resolvePos db pos t = .ok (pos', t) := by
  unfold resolvePos
  rw [siblings_stale h ht hn]
  obtain ⟨l, hl, hs, hm, hpf⟩ := siblings_spec h ht
  rw [hl]
  have hsame : ∀ o, sameNode (stale t) o = sameNode t o := fun o => by cases o <;> rfl
  have hnext : nextAfter (stale t) l = nextAfter t l ∨ (nextAfter (stale t) l = stale t ∧ nextAfter t l = t) := by
    clear hl hs hm hpf
    induction l with
    | nil => exact Or.inr ⟨rfl, rfl⟩
    | cons a l ih =>
      cases l with
      | nil => exact Or.inr ⟨rfl, rfl⟩
      | cons b l =>
        unfold nextAfter
        have : (stale t).pk = t.pk := rfl
        rw [this]
        split
        · exact Or.inl rfl
        · exact ih
  by_cases hp : pos = .left ∨ pos = .right ∨ pos = .firstSibling
  · rw [if_pos hp, if_pos hp]
    simp only [hsame]
    by_cases hr : pos = .right
    · subst hr
      simp only [if_true]
      by_cases hlast : sameNode t l.getLast? = true
      · simp only [hlast, if_true, reduceCtorEq, false_and, if_false]
        exact Or.inr ⟨_, rfl, rfl⟩
      · simp only [hlast, Bool.false_eq_true, if_false]
        rcases hnext with e | ⟨e1, e2⟩
        · rw [e]; exact Or.inl rfl
        · rw [e1, e2, hsame]
          by_cases hf : sameNode t l.head? = true
          · simp [hf]
          · simp only [hf, and_false, Bool.false_eq_true, if_false, reduceCtorEq]
            exact Or.inr ⟨_, rfl, rfl⟩
    · simp only [hr, if_false, hsame]
      generalize (if pos = Pos.left ∧ sameNode t l.head? = true then Pos.firstSibling else pos) = pos1
      by_cases hf : pos1 = .firstSibling
      · simp [hf]
      · simp only [hf, if_false]
        exact Or.inr ⟨_, rfl, rfl⟩
  · rw [if_neg hp, if_neg hp]
    exact Or.inr ⟨_, rfl, rfl⟩

theorem resolveSorted_stale (h : NI db.rows) {t : Row} (ht : t ∈ db.rows) (hn : NotLast db.rows t) (pos : Pos) (v : Vals) :
    resolveSorted cfg db pos (stale t) v = resolveSorted cfg db pos t v ∨
    ∃ pos', resolveSorted cfg db pos (stale t) v = .ok (pos', stale t) ∧ resolveSorted cfg db pos t v = .ok (pos', t) := by
  unfold resolveSorted
  rw [siblings_stale h ht hn]
  split
  · split
    · exact Or.inl rfl
    · split
      · exact Or.inl rfl
      · exact Or.inr ⟨_, rfl, rfl⟩
  · exact Or.inr ⟨_, rfl, rfl⟩

/-- what matters of a move: the table and the node -/
def MoveResult.part (res : MoveResult) : DB × Row := (res.db, res.node)

/-- **A move relative to the stale object** does the same to the table and to the node, if the target has children and the position
is below it, or the target is a root or has a sibling after it. -/
theorem move_stale (h : NI db.rows) {x t : Row} (ht : t ∈ db.rows) (hl : t.isLeaf = false) (hx : x.pk ≠ t.pk) (hnd : ¬ encl x t)
    {posArg : Option Pos} (hn : (∃ pos, preparePosForMove cfg.ordered posArg = .ok pos ∧ isChildPos pos = true) ∨ NotLast db.rows t) :
    (move cfg db x (stale t) none posArg).map MoveResult.part = (move cfg db x t none posArg).map MoveResult.part := by
  unfold move
  cases hp : preparePosForMove cfg.ordered posArg with
  | error e => rfl
  | ok pos0 =>
    simp only [ite_self]
    unfold moveVars
    have hx' : x.pk ≠ (stale t).pk := hx
    rw [stale_leaf h ht, hl]
    by_cases hc : isChildPos pos0 = true
    · rw [if_pos hc, if_pos hc, if_neg hx, if_neg hx']
      simp only [Bool.false_eq_true, if_false]
      have : lastChild db (stale t) = lastChild db t := by unfold lastChild; rw [children_stale h ht hl]
      rw [this]
      cases lastChild db t with
      | none => rfl
      | some z =>
        simp only
        unfold moveFrom
        split
        · rfl
        · split
          · rfl
          · rfl
          · split
            · rfl
            · split
              · rfl
              · rw [moveTo_orig (orig' := stale t) (orig := t) rfl]
    · have hn : NotLast db.rows t := by
        rcases hn with ⟨pos, e, hc'⟩ | hn
        · rw [hp] at e; cases e; exact absurd hc' hc
        · exact hn
      rw [if_neg hc, if_neg hc]
      simp only
      unfold moveFrom
      have hnd' : ¬ encl x (stale t) := by
        intro e
        refine hnd ?_
        unfold encl at *
        rw [stale_tree, stale_lft, stale_rgt] at e
        omega
      rw [if_neg (by rw [isDescendantOf_iff]; exact hnd'), if_neg (by rw [isDescendantOf_iff]; exact hnd)]
      have hno : ∀ q : Row, x.pk ≠ q.pk → moveNoop db x q pos0 = .ok false := fun q hq => by unfold moveNoop; rw [if_neg hq]
      rw [hno t hx, hno (stale t) hx']
      simp only
      have hres : ∀ pos1, (match resolvePos db pos1 (stale t) with
          | .error e => (.error e : Except Err MoveResult)
          | .ok (pos2, target2) => moveTo db x target2 (stale t) none none pos2) =
          match resolvePos db pos1 t with
          | .error e => (.error e : Except Err MoveResult)
          | .ok (pos2, target2) => moveTo db x target2 t none none pos2 := by
        intro pos1
        rcases resolvePos_stale h ht hn pos1 with e | ⟨pos', e1, e2⟩
        · rw [e]
          split
          · rfl
          · exact moveTo_orig rfl _ _ _
        · rw [e1, e2]
          exact moveTo_stale h ht hn rfl _ _
      rcases resolveSorted_stale (cfg := cfg) h ht hn pos0 x.vals with e | ⟨pos', e1, e2⟩
      · rw [e]
        split
        · rfl
        · split
          · rfl
          · rw [moveTo_orig (orig' := stale t) (orig := t) rfl]
      · rw [e1, e2]
        exact congrArg (Except.map MoveResult.part) (hres pos')

/-! ### The target object after `add_child` -/

theorem addInner_rows {t new : Row} {cached : Option Row} {pos : Pos} {tree depth : Int} {db' : DB} {obj : Row}
    (e : addInnerSibling db t cached pos tree depth new = .ok (db', obj)) :
    ∃ T l, db' = save (alterGap db T l 2) obj ∧ obj = { new with tree := tree, lft := l, rgt := l + 1, depth := depth } := by
  unfold addInnerSibling at e
  split at e
  · cases e
  · simp only at e
    split at e
    · split at e
      · cases e
      · cases e
      · cases e; exact ⟨_, _, rfl, rfl⟩
    · split at e
      · cases e; exact ⟨_, _, rfl, rfl⟩
      · cases e

/-- After `add_child` to a node with children the caller's object is the stored row with an `rgt` that is too large by 2. -/
theorem addChild_stale (h : NInv db.rows) {t new : Row} (ht : t ∈ db.rows) (hf : ∀ r ∈ db.rows, r.pk ≠ new.pk) (hl : t.isLeaf = false)
    {db' : DB} {obj t' : Row} {s : Slot} (e : addChild cfg db t new = .ok (db', obj, t')) (ha : Added db db' obj new (some t.pk) s) :
    ∃ t₁ ∈ db'.rows, t₁.pk = t.pk ∧ t' = stale t₁ ∧ t₁.isLeaf = false := by
  obtain ⟨z, hz, hzm, hzp, _⟩ := lastChild_spec h ht hl
  have hzr : z.isRoot = false := by
    have : z.lft ≠ 1 := fun e => by rw [(par_eq_none h.toNI hzm).2 e] at hzp; cases hzp
    simpa [Row.isRoot] using this
  unfold addChild at e
  rw [(get?_eq_some h.toNI).2 ⟨ht, rfl⟩] at e
  simp only [hl, Bool.false_eq_true, if_false, hz] at e
  split at e
  · cases e
  · rename_i db₂ obj₂ es
    injection e with e; injection e with e1 e; injection e with e2 e3
    subst e1 e2
    obtain ⟨T, l, hdb, hobj⟩ : ∃ T l, db₂ = save (alterGap db T l 2) obj₂ ∧ obj₂ = { new with tree := z.tree, lft := l, rgt := l + 1, depth := z.depth } := by
      unfold addSibling at es
      split at es
      · cases es
      · split at es
        · cases es
        · rw [hzr] at es
          simp only [Bool.false_eq_true, if_false] at es
          exact addInner_rows es
    have hrows : db₂.rows = db.rows.map (gapRow T l 2) ++ [obj₂] := by
      rw [hdb, save_fresh]
      · rfl
      · intro r' hr'
        obtain ⟨r, hr, rfl⟩ := List.mem_map.1 hr'
        rw [ha.pk]
        have : (gapRow T l 2 r).pk = r.pk := by unfold gapRow; split <;> rfl
        rw [this]; exact hf r hr
    have ht1 : gapRow T l 2 t ∈ db₂.rows := by rw [hrows]; exact List.mem_append_left _ (List.mem_map_of_mem ht)
    have hpk : (gapRow T l 2 t).pk = t.pk := by unfold gapRow; split <;> rfl
    have hpar : par db₂.rows obj₂ = some (gapRow T l 2 t).pk := by
      rw [hpk]
      have hm : obj₂.pk ∈ PF db₂.rows (par db₂.rows obj₂) := (mem_PF ha.inv.toNI).2 ⟨obj₂, ha.mem, rfl, rfl⟩
      by_contra hne
      rw [ha.forest] at hm
      unfold Forest.put at hm
      rw [if_neg hne] at hm
      obtain ⟨r, hr, _, e⟩ := (mem_PF h.toNI).1 hm
      exact hf r hr (e.trans ha.pk)
    have hen := ((par_row ha.inv.toNI ht1 ha.mem).1 hpar).2.1
    have hlr := h.lr t ht
    have key : gapRow T l 2 t = { t with rgt := t.rgt + 2 } := by
      unfold gapRow at hen ⊢
      by_cases hc : l ≤ t.rgt ∧ t.tree = T
      · rw [if_pos hc] at hen ⊢
        by_cases hc2 : l ≤ t.lft
        · exfalso
          rw [if_pos hc2, hobj] at hen
          unfold encl at hen
          simp only at hen
          omega
        · rw [if_neg hc2]
      · exfalso
        rw [if_neg hc, hobj] at hen
        unfold encl at hen
        simp only at hen
        have hT : t.tree ≠ T := by omega
        obtain ⟨q, hq, hqt, hor⟩ := h.full t ht l (by omega) (by omega)
        have hq2 : q ∈ db₂.rows := by
          rw [hrows]
          refine List.mem_append_left _ (List.mem_map.2 ⟨q, hq, ?_⟩)
          unfold gapRow
          rw [if_neg (by rw [hqt]; omega)]
        have hne : obj₂ ≠ q := fun e => hf q hq (by rw [← e, ha.pk])
        have := ha.inv.dist obj₂ ha.mem q hq2 hne (by rw [hobj, hqt]; exact hen.1.symm)
        rw [hobj] at this
        simp only at this
        omega
    refine ⟨gapRow T l 2 t, ht1, hpk, ?_, ?_⟩
    · rw [key, ← e3]; rfl
    · rw [key]
      simp only [Row.isLeaf, beq_eq_false_iff_ne]
      omega

end Verif.NS
