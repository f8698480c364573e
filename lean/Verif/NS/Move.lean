/-
NS: `move`.
-/
import Verif.NS.Add

namespace Verif.NS

variable {cfg : Cfg} {db : DB}

/-- After a move: the table is consistent, shows `F`, keeps the data, and both objects are as stored. -/
structure MoveGood (db : DB) (res : MoveResult) (x t : Row) (F : Forest) : Prop where
  inv : NInv res.db.rows
  forest : PF res.db.rows = F
  data : data res.db.rows = data db.rows
  node : res.node ∈ res.db.rows ∧ res.node.pk = x.pk
  target : res.target ∈ res.db.rows ∧ res.target.pk = t.pk

/-! ### Moves that change nothing -/

/-- moving `x` to a slot where it already stands -/
theorem move_same {rows : List Row} (h : NI rows) {x : Row} (hx : x ∈ rows) {s : Slot}
    (hs : SlotOK (fun r => r ∈ rows ∧ r ≠ x) Row.pk (par rows) lt lt x (par rows x) s) :
    (PF rows).move x.pk (par rows x) s = PF rows :=
  (Shows.move (shows_PF h) (shows_PF h) hx h.injOn (fun _ _ _ => rfl) (fun _ _ _ _ _ _ _ e => e) (asymOn_lt _) rfl hs).symm

theorem move_first_same {rows : List Row} (h : NI rows) {x : Row} (hx : x ∈ rows)
    (hmin : ∀ r ∈ rows, par rows r = par rows x → ¬ lt r x) : (PF rows).move x.pk (par rows x) .first = PF rows := by
  refine move_same h hx ?_
  rintro r ⟨hr, hne⟩ hp
  rcases h.lt_total hr hx hne with e | e
  · exact absurd e (hmin r hr hp)
  · exact e

theorem move_last_same {rows : List Row} (h : NI rows) {x : Row} (hx : x ∈ rows)
    (hmax : ∀ r ∈ rows, par rows r = par rows x → ¬ lt x r) : (PF rows).move x.pk (par rows x) .last = PF rows := by
  refine move_same h hx ?_
  rintro r ⟨hr, hne⟩ hp
  rcases h.lt_total hr hx hne with e | e
  · exact e
  · exact absurd e (hmax r hr hp)

theorem move_before_same {rows : List Row} (h : NI rows) {x t : Row} (hx : x ∈ rows) (ht : t ∈ rows) (hp : par rows t = par rows x)
    (h1 : lt x t) (h2 : ∀ r ∈ rows, par rows r = par rows x → lt x r → ¬ lt r t) :
    (PF rows).move x.pk (par rows x) (.before t.pk) = PF rows := by
  refine move_same h hx ?_
  refine ⟨t, ⟨ht, ?_⟩, rfl, hp, h1, ?_, ?_⟩
  · rintro rfl; exact lt_irrefl _ h1
  · rintro r ⟨hr, hne⟩ hpr hlt
    rcases h.lt_total hr hx hne with e | e
    · exact e
    · exact absurd hlt (h2 r hr hpr e)
  · rintro r _ _ hlt
    exact lt_trans h1 hlt

/-! ### From the hole to the result -/

/-- The branch of `x` was moved to the place `T`, `l` below `P`. -/
def MovedAt (db db' : DB) (x : Row) (P : Option Nat) (T l : Int) : Prop :=
  ∃ f p, Opened db.rows f T l (x.rgt - x.lft + 1) p ∧ (f x).rgt - (f x).lft + 1 = x.rgt - x.lft + 1 ∧
    p.map Row.pk = P ∧ (∀ q, p = some q → ¬ InB x q) ∧ db'.rows = relocate db.rows f x T l p

theorem MovedAt.result (h : NInv db.rows) {db' : DB} {x : Row} (hx : x ∈ db.rows) {P : Option Nat} {T l : Int} {s : Slot}
    (hm : MovedAt db db' x P T l) (hs : PSlot db.rows (· ≠ x) P T l s) :
    NInv db'.rows ∧ PF db'.rows = (PF db.rows).move x.pk P s ∧ data db'.rows = data db.rows := by
  obtain ⟨f, p, ho, hg, rfl, hin, e⟩ := hm
  rw [e]
  exact move_opened h hx hg ho hin hs

theorem MovedAt.inv (h : NInv db.rows) {db' : DB} {x : Row} (hx : x ∈ db.rows) {P : Option Nat} {T l : Int}
    (hm : MovedAt db db' x P T l) : NInv db'.rows := by
  obtain ⟨s, hs⟩ := exists_slot h.toNI (· ≠ x) P T l
  exact (hm.result h hx hs).1

theorem relocate_pks {rows : List Row} {f : Row → Row} {T l g : Int} {p : Option Row} (ho : Opened rows f T l g p) (x : Row) :
    ∀ r ∈ rows, ∃ r' ∈ relocate rows f x T l p, r'.pk = r.pk := by
  intro r hr
  refine ⟨_, List.mem_map_of_mem (List.mem_map_of_mem (List.mem_map_of_mem hr)), ?_⟩
  rw [show ∀ T' a b q, (gapRow T' a b q).pk = q.pk from fun T' a b q => by unfold gapRow; split <;> rfl, jrow_pk, ho.pk hr]

theorem moveTo_of_hole (h : NInv db.rows) {x orig target : Row} (hx : x ∈ db.rows) (horig : orig ∈ db.rows) {parent cached : Option Row}
    {pos : Pos} {db1 : DB} {T l : Int} (hm : makeHole db x target parent cached pos = .ok (db1, T, l)) {f : Row → Row}
    {p : Option Row} (hrows : db1.rows = db.rows.map f) (ho : Opened db.rows f T l (x.rgt - x.lft + 1) p)
    (hw : (f x).rgt - (f x).lft + 1 = x.rgt - x.lft + 1) (hin : ∀ q, p = some q → ¬ InB x q)
    (hd : target.depth + (if parent.isSome then 1 else 0) = depthIn p) :
    ∃ res, moveTo db x target orig parent cached pos = .ok res ∧ MovedAt db res.db x (p.map Row.pk) T l ∧
      (res.node ∈ res.db.rows ∧ res.node.pk = x.pk) ∧ (res.target ∈ res.db.rows ∧ res.target.pk = orig.pk) := by
  have hni := ho.ni h.toNI
  have hgx : db1.get? x.pk = some (f x) :=
    (get?_eq_some (by rw [hrows]; exact hni)).2 ⟨by rw [hrows]; exact List.mem_map_of_mem hx, ho.pk hx⟩
  unfold moveTo
  rw [hm]
  simp only
  rw [hgx]
  simp only
  generalize hdb' : closeGap (moveRows db1 (f x) T (l - (f x).lft) (target.depth - (f x).depth + if parent.isSome = true then 1 else 0))
    (f x).lft (f x).rgt (f x).tree = db'
  have hr : db'.rows = relocate db.rows f x T l p := by
    rw [← hdb']
    unfold relocate jrow closeGap alterGap moveRows
    rw [ho.depthIn, ← hd, hrows]
    simp only
    have e : target.depth - (f x).depth + (if parent.isSome = true then (1 : Int) else 0) =
        target.depth + (if parent.isSome = true then 1 else 0) - (f x).depth := by omega
    rw [e]
  have hma : MovedAt db db' x (p.map Row.pk) T l := ⟨f, p, ho, hw, rfl, hin, hr⟩
  have hinv := hma.inv h hx
  have hget : ∀ r ∈ db.rows, ∃ r', db'.get? r.pk = some r' ∧ r' ∈ db'.rows ∧ r'.pk = r.pk := by
    intro r hr'
    obtain ⟨r', h1, h2⟩ := relocate_pks ho x r hr'
    rw [← hr] at h1
    exact ⟨r', (get?_eq_some hinv.toNI).2 ⟨h1, h2⟩, h1, h2⟩
  obtain ⟨x', hx', hx2⟩ := hget x hx
  obtain ⟨t', ht', ht2⟩ := hget orig horig
  rw [ho.pk hx, hx', ht']
  exact ⟨_, rfl, hma, hx2, ht2⟩

/-! ### The holes -/

theorem gap_width {T l g : Int} {x : Row} (hlr : x.lft < x.rgt) (hout : ¬ (x.tree = T ∧ x.lft < l ∧ l ≤ x.rgt)) :
    (gapRow T l g x).rgt - (gapRow T l g x).lft + 1 = x.rgt - x.lft + 1 := by
  rw [gapRow_lft hlr, gapRow_rgt]
  unfold gapPhi
  split <;> split <;> omega

theorem width_rgt (h : NI db.rows) {x q : Row} (hx : x ∈ db.rows) (hq : q ∈ db.rows) (hin : ¬ InB x q) (g : Int) :
    (gapRow q.tree q.rgt g x).rgt - (gapRow q.tree q.rgt g x).lft + 1 = x.rgt - x.lft + 1 := by
  refine gap_width (h.lr x hx) ?_
  rintro ⟨h1, h2, h3⟩
  rcases inner_at_rgt h hq x hx h1 h2 h3 with rfl | e
  · exact hin (Or.inl rfl)
  · exact hin (Or.inr e)

theorem width_lft (h : NI db.rows) {x p t : Row} (hx : x ∈ db.rows) (hp : Inner db.rows p t) (ht : t ∈ db.rows) (hin : ¬ InB x p) (g : Int) :
    (gapRow t.tree t.lft g x).rgt - (gapRow t.tree t.lft g x).lft + 1 = x.rgt - x.lft + 1 := by
  refine gap_width (h.lr x hx) ?_
  rintro ⟨h1, h2, h3⟩
  rcases inner_at_lft h hp ht x hx (h1.trans hp.2.1.1.symm) h2 h3 with rfl | e
  · exact hin (Or.inl rfl)
  · exact hin (Or.inr e)

theorem treeRight_width (T : Int) (x : Row) : (treeRightRow T x).rgt - (treeRightRow T x).lft + 1 = x.rgt - x.lft + 1 := by
  unfold treeRightRow; split <;> rfl

/-- a move to a resolved sibling position -/
theorem moveTo_sib (h : NInv db.rows) {x t orig : Row} (hx : x ∈ db.rows) (ht : t ∈ db.rows) (horig : orig ∈ db.rows)
    (hin : ¬ encl x t) {pos pos' : Pos} {t' : Row} (hres : Resolved db.rows t pos pos' t') {cached : Option Row}
    (hc : ∀ p, cached = some p → p ∈ db.rows ∧ par db.rows t = some p.pk) :
    ∃ res T l, moveTo db x t' orig none cached pos' = .ok res ∧ MovedAt db res.db x (par db.rows t) T l ∧
      (res.node ∈ res.db.rows ∧ res.node.pk = x.pk) ∧ (res.target ∈ res.db.rows ∧ res.target.pk = orig.pk) ∧
      (pos' = .lastSibling → AtEnd db.rows (par db.rows t) T l) ∧
      (pos' = .left ∨ pos' = .firstSibling → BeforeRow db.rows (par db.rows t) t' T l) := by
  have hx' := h.lr x hx
  have ht' := hres.mem
  by_cases hl : t.lft = 1
  · have hpar := (par_eq_none h.toNI ht).2 hl
    have hl' : t'.lft = 1 := (par_eq_none h.toNI ht').1 (hres.par.trans hpar)
    have hroot : t'.isRoot = true := by simp [Row.isRoot, hl']
    have hdep : t'.depth + (if (none : Option Row).isSome = true then 1 else 0) = depthIn none := by
      simpa [depthIn] using h.toNI.depth_root ht' hl'
    have hbefore : BeforeRow db.rows none t' t'.tree 1 := by
      have := beforeRow_lft (rows := db.rows) (P := none) t'
      rwa [hl'] at this
    rw [hpar]
    rcases hres.cases with ⟨rfl, rfl, _⟩ | ⟨rfl | ⟨rfl, hmin⟩, _⟩
    · obtain ⟨z, hz⟩ := lastRoot_some ht hl
      have hm : makeHole db x t' none cached .lastSibling = .ok (db, z.tree + 1, 1) := by
        unfold makeHole siblings
        simp only [hroot, if_true]
        rw [if_pos (by simp [hl])]
        simp only
        rw [show (rootNodes db).getLast? = some z from hz]
      obtain ⟨res, e, hma, h1, h2⟩ := moveTo_of_hole h hx horig hm (f := id) (by simp) (opened_lastRoot h.toNI hz _) rfl
        (by rintro q ⟨⟩) hdep
      exact ⟨res, _, _, e, hma, h1, h2, fun _ => atEnd_root h.toNI hz, by rintro (e | e) <;> cases e⟩
    · have hm : makeHole db x t' none cached .left = .ok (moveTreeRight db t'.tree, t'.tree, 1) := by
        unfold makeHole; simp [hroot]
      obtain ⟨res, e, hma, h1, h2⟩ := moveTo_of_hole h hx horig hm (f := treeRightRow t'.tree) rfl
        (opened_right h.toNI (h.tree t' ht') _) (treeRight_width _ _) (by rintro q ⟨⟩) hdep
      exact ⟨res, _, _, e, hma, h1, h2, by rintro ⟨⟩, fun _ => hbefore⟩
    · have hm : makeHole db x t' none cached .firstSibling = .ok (moveTreeRight db 1, 1, 1) := by
        unfold makeHole; simp [hroot]
      obtain ⟨res, e, hma, h1, h2⟩ := moveTo_of_hole h hx horig hm (f := treeRightRow 1) rfl
        (opened_right h.toNI (by omega) _) (treeRight_width _ _) (by rintro q ⟨⟩) hdep
      refine ⟨res, _, _, e, hma, h1, h2, by rintro ⟨⟩, fun _ => ?_⟩
      rw [hpar] at hmin
      exact beforeRow_first h.toNI hmin
  · rcases getParent_spec h.toNI ht with ⟨h1, _⟩ | ⟨_, p, hi, hpar, hgp⟩
    · exact absurd h1 hl
    · have hi' : Inner db.rows p t' := by rw [← par_row h.toNI hi.1 ht', hres.par, hpar]
      have hl' : t'.lft ≠ 1 := (par_eq_none h.toNI ht').not.1 (by rw [hres.par, hpar]; simp)
      have hroot : t'.isRoot = false := by simp [Row.isRoot, hl']
      have hinp : ¬ InB x p := by
        rintro (rfl | e)
        · exact hin hi.2.1
        · exact hin (encl_trans e hi.2.1)
      have hdep : t'.depth + (if (none : Option Row).isSome = true then 1 else 0) = depthIn (some p) := by
        simpa using sib_depth h.toNI hi' ht'
      have htr : t'.tree = p.tree := hi'.2.1.1.symm
      rw [hpar]
      have hleft : ∀ pos', pos' = .left ∨ pos' = .firstSibling → makeHole db x t' none cached pos' =
          .ok (alterGap db t'.tree t'.lft (x.rgt - x.lft + 1), t'.tree, t'.lft) := by
        rintro _ (rfl | rfl) <;> (unfold makeHole; simp [hroot])
      have hlt : pos' = .left ∨ pos' = .firstSibling → ∃ res T l, moveTo db x t' orig none cached pos' = .ok res ∧ MovedAt db res.db x (some p.pk) T l ∧
          (res.node ∈ res.db.rows ∧ res.node.pk = x.pk) ∧ (res.target ∈ res.db.rows ∧ res.target.pk = orig.pk) ∧
          (pos' = .lastSibling → AtEnd db.rows (some p.pk) T l) ∧
          (pos' = .left ∨ pos' = .firstSibling → BeforeRow db.rows (some p.pk) t' T l) := by
        intro hor
        obtain ⟨res, e, hma, h1, h2⟩ := moveTo_of_hole h hx horig (hleft pos' hor) (f := gapRow t'.tree t'.lft (x.rgt - x.lft + 1)) rfl
          (opened_lft h.toNI hi' ht' (by omega)) (width_lft h.toNI hx hi' ht' hinp _) (by rintro q ⟨⟩; exact hinp) hdep
        refine ⟨res, _, _, e, hma, h1, h2, ?_, fun _ => beforeRow_lft t'⟩
        rintro rfl
        rcases hor with e | e <;> cases e
      rcases hres.cases with ⟨rfl, rfl, _⟩ | ⟨rfl | ⟨rfl, hmin⟩, _⟩
      · have hg : getParent db t' cached = .ok (some p) := by
          cases cached with
          | none => exact hgp
          | some p' =>
            obtain ⟨h1, h2⟩ := hc p' rfl
            rw [hpar] at h2
            have := h.pk_inj h1 hi.1 (Option.some.inj h2).symm
            subst this
            unfold getParent
            rw [if_neg (by simp [hroot])]
        have hm : makeHole db x t' none cached .lastSibling = .ok (alterGap db p.tree p.rgt (x.rgt - x.lft + 1), p.tree, p.rgt) := by
          unfold makeHole
          simp only [hroot, Bool.false_eq_true, if_false]
          rw [hg]
          simp only [htr]
        obtain ⟨res, e, hma, h1, h2⟩ := moveTo_of_hole h hx horig hm (f := gapRow p.tree p.rgt (x.rgt - x.lft + 1)) rfl
          (opened_rgt h.toNI hi.1 (by omega)) (width_rgt h.toNI hx hi.1 hinp _) (by rintro q ⟨⟩; exact hinp) hdep
        exact ⟨res, _, _, e, hma, h1, h2, fun _ => atEnd_rgt h.toNI hi.1, by rintro (e | e) <;> cases e⟩
      · exact hlt (Or.inl rfl)
      · exact hlt (Or.inr rfl)

/-- a move below a leaf -/
theorem moveTo_leaf (h : NInv db.rows) {x t : Row} (hx : x ∈ db.rows) (ht : t ∈ db.rows)
    (hin : ¬ InB x t) (hl : t.isLeaf = true) {s : Slot} (hs : s = .first ∨ s = .last) {cached : Option Row} :
    ∃ res, moveTo db x t t (some t) cached .lastChild = .ok res ∧ MoveGood db res x t ((PF db.rows).move x.pk (some t.pk) s) := by
  have hx' := h.lr x hx
  have hm : makeHole db x t (some t) cached .lastChild = .ok (alterGap db t.tree t.rgt (x.rgt - x.lft + 1), t.tree, t.rgt) := rfl
  obtain ⟨res, e, hma, h1, h2⟩ := moveTo_of_hole h hx ht hm (f := gapRow t.tree t.rgt (x.rgt - x.lft + 1)) rfl
    (opened_rgt h.toNI ht (by omega)) (width_rgt h.toNI hx ht hin _) (by rintro q ⟨⟩; exact hin) (by simp [depthIn])
  obtain ⟨g1, g2, g3⟩ := hma.result h hx (s := s) (by
    rcases hs with rfl | rfl <;> intro r hr _ hp <;> exact absurd hp (leaf_no_child h.toNI ht hl hr))
  exact ⟨res, e, g1, g2, g3, h1, h2⟩

/-! ### The special cases -/

theorem sibling_ends (h : NI db.rows) {t : Row} (ht : t ∈ db.rows) :
    ∃ l, siblings db t = .ok l ∧ l.Pairwise lt ∧ (∀ r, r ∈ l ↔ r ∈ db.rows ∧ par db.rows r = par db.rows t) ∧
      (lastSibling db t = .ok l.getLast?) ∧ (firstSibling db t = .ok l.head?) := by
  obtain ⟨l, hl, hs, hm, _⟩ := siblings_spec h ht
  refine ⟨l, hl, hs, hm, ?_, ?_⟩
  · unfold lastSibling; rw [hl]; rfl
  · unfold firstSibling; rw [hl]; rfl

/-- the code stops only where the move asks for nothing -/
theorem moveNoop_spec (h : NI db.rows) {x t : Row} (hx : x ∈ db.rows) (ht : t ∈ db.rows) (pos : Pos) :
    ∃ b, moveNoop db x t pos = .ok b ∧
      (b = true → t = x ∧ IsSibPos pos ∧ (PF db.rows).sibMove x.pk (par db.rows t) t.pk pos = PF db.rows) ∧
      (b = false → t = x → pos ≠ .left) := by
  obtain ⟨l, hl, hs, hm, e1, e2⟩ := sibling_ends h ht
  have hlr : ∀ r ∈ l, r ∈ db.rows := fun r hr => ((hm r).1 hr).1
  unfold moveNoop
  by_cases hk : x.pk = t.pk
  · have : x = t := h.pk_inj hx ht hk
    subst this
    rw [if_pos rfl]
    by_cases h1 : pos = .left
    · subst h1
      exact ⟨true, by simp, fun _ => ⟨rfl, Or.inr (Or.inl rfl), by simp [Forest.sibMove]⟩, by rintro ⟨⟩⟩
    · rw [if_neg h1]
      by_cases h2 : pos = .right ∨ pos = .lastSibling
      · rw [if_pos h2, e1]
        refine ⟨_, rfl, ?_, fun _ _ => h1⟩
        intro hb
        refine ⟨rfl, by unfold IsSibPos; tauto, ?_⟩
        have hmax := sameNode_last h hlr hs hx hb
        have hsame := move_last_same h hx (fun r hr hp => hmax r ((hm r).2 ⟨hr, hp⟩))
        rcases h2 with rfl | rfl
        · simp [Forest.sibMove]
        · exact hsame
      · rw [if_neg h2]
        by_cases h3 : pos = .firstSibling
        · rw [if_pos h3, e2]
          refine ⟨_, rfl, ?_, fun _ _ => h1⟩
          intro hb
          refine ⟨rfl, Or.inl h3, ?_⟩
          have hmin := sameNode_head h hlr hs hx hb
          subst h3
          exact move_first_same h hx (fun r hr hp => hmin r ((hm r).2 ⟨hr, hp⟩))
        · rw [if_neg h3]
          exact ⟨false, rfl, by simp, fun _ _ => h1⟩
  · rw [if_neg hk]
    refine ⟨false, rfl, by simp, ?_⟩
    rintro _ rfl
    exact absurd rfl hk

/-! ### The whole function -/

/-- the moves that are refused -/
def Refused (x t : Row) (pos : Pos) : Prop := encl x t ∨ (pos.isChild = true ∧ t = x)

theorem isChildPos_eq (pos : Pos) : isChildPos pos = pos.isChild := by cases pos <;> rfl

theorem move_refused (h : NInv db.rows) {x t : Row} (hx : x ∈ db.rows) (ht : t ∈ db.rows) {cached : Option Row} {posArg : Option Pos} {pos : Pos}
    (hprep : preparePosForMove cfg.ordered posArg = .ok pos) (hr : Refused x t pos) :
    move cfg db x t cached posArg = .error .invalidMoveToDescendant := by
  unfold move
  rw [hprep]
  simp only
  unfold moveVars
  rw [isChildPos_eq]
  rcases hr with hr | ⟨hc, rfl⟩
  · by_cases hc : pos.isChild = true
    · rw [if_pos hc]
      by_cases hk : x.pk = t.pk
      · rw [if_pos hk]
      · rw [if_neg hk]
        cases hl : t.isLeaf with
        | true =>
          simp only [if_true]
          unfold moveFrom
          rw [if_pos (isDescendantOf_iff.2 hr)]
        | false =>
          obtain ⟨z, hz, hzm, hzp, _⟩ := lastChild_spec h ht hl
          simp only [Bool.false_eq_true, if_false, hz]
          have := ((par_row h.toNI ht hzm).1 hzp).2.1
          unfold moveFrom
          rw [if_pos (isDescendantOf_iff.2 (encl_trans hr this))]
    · rw [if_neg hc]
      simp only
      unfold moveFrom
      rw [if_pos (isDescendantOf_iff.2 hr)]
  · rw [if_pos hc, if_pos rfl]

/-- what `move` does from the sibling position `pos` of `t` on, without `node_order_by` -/
theorem move_sib_unsorted (h : NInv db.rows) {x t orig : Row} (hx : x ∈ db.rows) (ht : t ∈ db.rows) (horig : orig ∈ db.rows)
    (hin : ¬ encl x t) {pos : Pos} (hpos : IsSibPos pos) {cached : Option Row}
    (hc : ∀ p, cached = some p → p ∈ db.rows ∧ par db.rows t = some p.pk) {b : Bool} (hb : moveNoop db x t pos = .ok b) :
    (b = true → PF db.rows = (PF db.rows).sibMove x.pk (par db.rows t) t.pk pos) ∧
    (b = false → ∃ pos1 t1 res, resolvePos db pos t = .ok (pos1, t1) ∧ moveTo db x t1 orig none cached pos1 = .ok res ∧
      MoveGood db res x orig ((PF db.rows).sibMove x.pk (par db.rows t) t.pk pos)) := by
  obtain ⟨b', hb', hn1, hn2⟩ := moveNoop_spec h.toNI hx ht pos
  rw [hb] at hb'
  cases hb'
  refine ⟨fun e => (hn1 e).2.2.symm, fun e => ?_⟩
  obtain ⟨pos1, t1, er, hres⟩ := resolvePos_spec h.toNI ht hpos
  obtain ⟨res, T, l, em, hma, h1, h2, hend, hbef⟩ := moveTo_sib h hx ht horig hin hres hc
  refine ⟨pos1, t1, res, er, em, ?_⟩
  by_cases hself : t = x ∧ pos = .right
  · obtain ⟨rfl, rfl⟩ := hself
    have hF : (PF db.rows).sibMove t.pk (par db.rows t) t.pk .right = PF db.rows := by simp [Forest.sibMove]
    rw [hF]
    rcases hres.cases with ⟨e1, rfl, hor⟩ | ⟨e1, ⟨e2, _⟩ | ⟨e2, _⟩ | ⟨_, hlt, hnext⟩⟩
    · rcases hor with e | ⟨_, hmax⟩
      · cases e
      · obtain ⟨g1, g2, g3⟩ := hma.result h hx (s := .last) (pslot_end (hend e1) _)
        rw [move_last_same h.toNI hx hmax] at g2
        exact ⟨g1, g2, g3, h1, h2⟩
    · cases e2
    · cases e2
    · have hb := hbef (e1.imp id (·.1))
      have hne : t1 ≠ t := by rintro rfl; exact lt_irrefl _ hlt
      obtain ⟨g1, g2, g3⟩ := hma.result h hx (s := .before t1.pk) (pslot_before hb hres.mem hne hres.par)
      rw [move_before_same h.toNI hx hres.mem hres.par hlt hnext] at g2
      exact ⟨g1, g2, g3, h1, h2⟩
  · have hR : t ≠ x ∨ pos = .firstSibling ∨ pos = .lastSibling := by
      by_cases e' : t = x
      · right
        have := hn2 e e'
        rcases hpos with rfl | rfl | rfl | rfl
        · exact Or.inl rfl
        · exact absurd rfl this
        · exact absurd ⟨e', rfl⟩ hself
        · exact Or.inr rfl
      · exact Or.inl e'
    obtain ⟨g1, g2, g3⟩ := hma.result h hx (hres.slot (R := (· ≠ x)) ht hR hend hbef)
    refine ⟨g1, g2.trans ?_, g3, h1, h2⟩
    have hk : t ≠ x → t.pk ≠ x.pk := fun hne e' => hne (h.pk_inj ht hx e')
    rcases hpos with rfl | rfl | rfl | rfl
    · rfl
    · have : t ≠ x := by rcases hR with h | h | h <;> first | exact h | cases h
      simp [Forest.sibMove, sibAsked, hk this]
    · have : t ≠ x := by rcases hR with h | h | h <;> first | exact h | cases h
      simp [Forest.sibMove, sibAsked, hk this]
    · rfl

/-- **`move` without `node_order_by`.** -/
theorem move_unsorted (h : NInv db.rows) (ho : cfg.ordered = false) {x t : Row} (hx : x ∈ db.rows) (ht : t ∈ db.rows)
    {cached : Option Row} (hc : ∀ p, cached = some p → p ∈ db.rows ∧ par db.rows t = some p.pk)
    {posArg : Option Pos} {pos : Pos} (hprep : preparePosForMove false posArg = .ok pos) (hin : ¬ Refused x t pos) :
    ∃ res, move cfg db x t cached posArg = .ok res ∧
      MoveGood db res x t ((PF db.rows).moveAsked x.pk (par db.rows t) t.pk pos) := by
  have hpos := (prepMove_arg hprep).1
  have hnd : ¬ encl x t := fun e => hin (Or.inl e)
  have hsame : ∀ F, PF db.rows = F → MoveGood db ⟨db, x, t⟩ x t F := by
    rintro _ rfl
    exact ⟨h, rfl, rfl, ⟨hx, rfl⟩, ⟨ht, rfl⟩⟩
  unfold move
  rw [ho, hprep]
  simp only
  -- the rest of the function, from a sibling position on
  have rest : ∀ (t' : Row), t' ∈ db.rows → ¬ encl x t' → ∀ (pos' : Pos), IsSibPos pos' → ∀ c' : Option Row,
      (∀ p, c' = some p → p ∈ db.rows ∧ par db.rows t' = some p.pk) →
      ∃ res, moveFrom cfg db x t' t none c' pos' = .ok res ∧
        MoveGood db res x t ((PF db.rows).sibMove x.pk (par db.rows t') t'.pk pos') := by
    intro t' ht' hin' pos' hpos' c' hc'
    obtain ⟨b, hb, _⟩ := moveNoop_spec h.toNI hx ht' pos'
    obtain ⟨g1, g2⟩ := move_sib_unsorted h hx ht' ht hin' hpos' hc' hb
    have hns : pos' ≠ .sortedSibling := by rcases hpos' with rfl | rfl | rfl | rfl <;> decide
    unfold moveFrom
    rw [if_neg (by rw [isDescendantOf_iff]; exact hin'), hb]
    cases b with
    | true => exact ⟨_, rfl, hsame _ (g1 rfl)⟩
    | false =>
      obtain ⟨pos1, t1, res, e1, e2, hg⟩ := g2 rfl
      simp only
      unfold resolveSorted
      rw [if_neg hns]
      simp only
      rw [e1]
      exact ⟨res, e2, hg⟩
  unfold moveVars
  rw [isChildPos_eq]
  by_cases hch : pos.isChild = true
  · rw [if_pos hch]
    have hne : t ≠ x := fun e => hin (Or.inr ⟨hch, e⟩)
    have hk : x.pk ≠ t.pk := fun e => hne (h.pk_inj ht hx e.symm)
    rw [if_neg hk]
    have hcp : pos = .firstChild ∨ pos = .lastChild := by
      rcases hpos with (rfl | rfl | rfl | rfl) | e | e
      · cases hch
      · cases hch
      · cases hch
      · cases hch
      · exact Or.inl e
      · exact Or.inr e
    have hcache : (if pos = Pos.lastSibling ∧ x.pk ≠ t.pk then cached else none) = none := by
      rw [if_neg]; rintro ⟨e, _⟩; rcases hcp with e' | e' <;> (rw [e'] at e; cases e)
    simp only [hcache]
    cases hl : t.isLeaf with
    | true =>
      simp only [if_true]
      unfold moveFrom
      rw [if_neg (by rw [isDescendantOf_iff]; exact hnd)]
      have hn : moveNoop db x t .lastChild = .ok false := by unfold moveNoop; rw [if_neg hk]
      rw [hn]
      simp only
      have hinB : ¬ InB x t := by rintro (e | e); exacts [hne e, hnd e]
      have hleaf := fun s hs => moveTo_leaf h hx ht hinB hl (s := s) hs (cached := none)
      unfold resolveSorted resolvePos
      rw [if_neg (by decide)]
      simp only
      rw [if_neg (by decide)]
      simp only
      rcases hcp with rfl | rfl
      · exact hleaf .first (Or.inl rfl)
      · exact hleaf .last (Or.inr rfl)
    | false =>
      obtain ⟨z, hz, hzm, hzp, _⟩ := lastChild_spec h ht hl
      simp only [Bool.false_eq_true, if_false, hz]
      have hi := (par_row h.toNI ht hzm).1 hzp
      have hzd : ¬ encl x z := by
        intro e
        rcases hi.2.2 x hx e with rfl | e'
        · exact hne rfl
        · exact hnd e'
      have := rest z hzm hzd (childToSib pos) (by rcases hcp with rfl | rfl <;> simp [childToSib, IsSibPos]) none (by rintro p ⟨⟩)
      rw [hzp] at this
      rcases hcp with rfl | rfl <;> exact this
  · rw [if_neg hch]
    simp only
    have hsib : IsSibPos pos := by
      rcases hpos with hs | rfl | rfl
      · exact hs
      · exact absurd rfl hch
      · exact absurd rfl hch
    have := rest t ht hnd pos hsib (if pos = Pos.lastSibling ∧ x.pk ≠ t.pk then cached else none) (by
      intro p e
      split at e
      · exact hc p e
      · cases e)
    have hF : (PF db.rows).moveAsked x.pk (par db.rows t) t.pk pos = (PF db.rows).sibMove x.pk (par db.rows t) t.pk pos := by
      rcases hsib with rfl | rfl | rfl | rfl <;> rfl
    rw [hF]
    exact this

/-- **`move` with `node_order_by`**: the node goes before the first node that the sorted query finds below the new
parent, or to the end if it finds none. -/
theorem move_sorted (h : NInv db.rows) (ho : cfg.ordered = true) {x t : Row} (hx : x ∈ db.rows) (ht : t ∈ db.rows)
    {cached : Option Row} {posArg : Option Pos} {pos : Pos} (hprep : preparePosForMove true posArg = .ok pos) (hin : ¬ Refused x t pos) :
    ∃ res s l, move cfg db x t cached posArg = .ok res ∧
      MoveGood db res x t ((PF db.rows).move x.pk (pos.dest (par db.rows t) t.pk) s) ∧
      l.Pairwise lt ∧ (∀ r, r ∈ l ↔ r ∈ db.rows ∧ par db.rows r = pos.dest (par db.rows t) t.pk) ∧
      ((∃ z ∈ l, (sortedPosQueryset cfg.orderBy Row.vals l x.vals).head? = some z ∧ (z ≠ x → s = .before z.pk) ∧ (z = x → (∀ r ∈ l, ¬ lt r x) → s = .first)) ∨
       ((sortedPosQueryset cfg.orderBy Row.vals l x.vals).head? = none ∧ s = .last)) := by
  have hpos := prepMoveSorted_arg hprep
  have hnd : ¬ encl x t := fun e => hin (Or.inl e)
  unfold move
  rw [ho, hprep]
  simp only
  have hcache : (if pos = Pos.lastSibling ∧ x.pk ≠ t.pk then cached else none) = none := by
    rw [if_neg]; rintro ⟨e, _⟩; rcases hpos with e' | e' <;> (rw [e'] at e; cases e)
  simp only [hcache]
  have rest : ∀ (t' : Row), t' ∈ db.rows → ¬ encl x t' →
      ∃ res s l, moveFrom cfg db x t' t none none .sortedSibling = .ok res ∧
        MoveGood db res x t ((PF db.rows).move x.pk (par db.rows t') s) ∧
        l.Pairwise lt ∧ (∀ r, r ∈ l ↔ r ∈ db.rows ∧ par db.rows r = par db.rows t') ∧
        ((∃ z ∈ l, (sortedPosQueryset cfg.orderBy Row.vals l x.vals).head? = some z ∧ (z ≠ x → s = .before z.pk) ∧ (z = x → (∀ r ∈ l, ¬ lt r x) → s = .first)) ∨
         ((sortedPosQueryset cfg.orderBy Row.vals l x.vals).head? = none ∧ s = .last)) := by
    intro t' ht' hin'
    have hn : moveNoop db x t' .sortedSibling = .ok false := by
      unfold moveNoop
      simp
    unfold moveFrom
    rw [if_neg (by rw [isDescendantOf_iff]; exact hin'), hn]
    simp only
    obtain ⟨l, hl, pos1, t1, e, ht1, hpar1, hcase⟩ := resolveSorted_spec h.toNI ht' (cfg := cfg) (vals := x.vals)
    obtain ⟨l', hl', hs, hm, _⟩ := siblings_spec h.toNI ht'
    rw [hl] at hl'
    cases hl'
    rw [e]
    simp only
    have hsib : IsSibPos pos1 := by
      unfold IsSibPos
      rcases hcase with ⟨rfl, _⟩ | ⟨rfl, _⟩ <;> simp
    have hin1 : ¬ encl x t1 := by
      intro e'
      have hnot : ∀ q, Inner db.rows q t1 → Inner db.rows q t' → False := by
        intro q hq hq'
        rcases hq.2.2 x hx e' with rfl | e2
        · exact hin' hq'.2.1
        · exact hin' (encl_trans e2 hq'.2.1)
      rcases par_cases h.toNI ht1 with ⟨_, hno⟩ | ⟨q, hq, eq⟩
      · exact hno x hx e'
      · exact hnot q hq ((par_row h.toNI hq.1 ht').1 (hpar1.symm.trans eq))
    obtain ⟨pos2, t2, er, hres⟩ := resolvePos_spec h.toNI ht1 hsib
    obtain ⟨res, T, L, em, hma, h1, h2, hend, hbef⟩ := moveTo_sib h hx ht1 ht hin1 hres (cached := none) (by rintro p ⟨⟩)
    rw [er]
    rw [hpar1] at hma
    rcases hcase with ⟨rfl, hz⟩ | ⟨rfl, rfl, hz⟩
    · have ht1l : t1 ∈ l := (hm t1).2 ⟨ht1, hpar1⟩
      by_cases hzx : t1 = x
      · by_cases hmin : ∀ r ∈ l, ¬ lt r x
        · have hslot : PSlot db.rows (· ≠ x) (par db.rows t') T L .first := by
            intro r hr hrx hrp
            rcases hres.cases with ⟨_, _, e | ⟨e, _⟩⟩ | ⟨e1, ⟨e, _⟩ | ⟨_, e2⟩ | ⟨e, _⟩⟩
            · cases e
            · cases e
            · cases e
            · have hb := hbef (e1.imp_right And.left) r hr (hrp.trans hpar1.symm)
              exact hb.2 (by rw [e2, hzx]; exact hmin r ((hm r).2 ⟨hr, hrp⟩))
            · cases e
          obtain ⟨g1, g2, g3⟩ := hma.result h hx hslot
          exact ⟨res, .first, l, em, ⟨g1, g2, g3, h1, h2⟩, hs, hm, Or.inl ⟨t1, ht1l, hz, fun hne => absurd hzx hne, fun _ _ => rfl⟩⟩
        obtain ⟨s, hslot⟩ := exists_slot h.toNI (· ≠ x) (par db.rows t') T L
        obtain ⟨g1, g2, g3⟩ := hma.result h hx hslot
        exact ⟨res, s, l, em, ⟨g1, g2, g3, h1, h2⟩, hs, hm, Or.inl ⟨t1, ht1l, hz, fun hne => absurd hzx hne, fun _ h => absurd h hmin⟩⟩
      · have hslot := hres.slot (R := (· ≠ x)) ht1 (Or.inl hzx) hend hbef
        rw [hpar1] at hslot
        obtain ⟨g1, g2, g3⟩ := hma.result h hx hslot
        exact ⟨res, _, l, em, ⟨g1, g2, g3, h1, h2⟩, hs, hm, Or.inl ⟨t1, ht1l, hz, fun _ => rfl, fun e => absurd e hzx⟩⟩
    · have hslot := hres.slot (R := (· ≠ x)) ht1 (Or.inr (Or.inr rfl)) hend hbef
      obtain ⟨g1, g2, g3⟩ := hma.result h hx hslot
      exact ⟨res, _, l, em, ⟨g1, g2, g3, h1, h2⟩, hs, hm, Or.inr ⟨hz, rfl⟩⟩
  unfold moveVars
  rw [isChildPos_eq]
  rcases hpos with rfl | rfl
  · rw [if_neg (by decide)]
    exact rest t ht hnd
  · have hne : t ≠ x := fun e => hin (Or.inr ⟨rfl, e⟩)
    have hk : x.pk ≠ t.pk := fun e => hne (h.pk_inj ht hx e.symm)
    rw [if_pos (show Pos.sortedChild.isChild = true from rfl), if_neg hk]
    have hdest : Pos.sortedChild.dest (par db.rows t) t.pk = some t.pk := rfl
    rw [hdest]
    cases hl : t.isLeaf with
    | true =>
      simp only [if_true]
      unfold moveFrom
      rw [if_neg (by rw [isDescendantOf_iff]; exact hnd)]
      have hn : moveNoop db x t .lastChild = .ok false := by unfold moveNoop; rw [if_neg hk]
      rw [hn]
      simp only
      have hinB : ¬ InB x t := by rintro (e | e); exacts [hne e, hnd e]
      obtain ⟨res, e, hg⟩ := moveTo_leaf h hx ht hinB hl (s := .last) (Or.inr rfl) (cached := none)
      unfold resolveSorted resolvePos
      rw [if_neg (by decide)]
      simp only
      rw [if_neg (by decide)]
      simp only
      refine ⟨res, .last, [], e, hg, List.Pairwise.nil, ?_, Or.inr ⟨?_, rfl⟩⟩
      · intro r
        constructor
        · intro hr; simp at hr
        · rintro ⟨hr, hp⟩; exact absurd hp (leaf_no_child h.toNI ht hl hr)
      · have hsub := sortedPos_sublist cfg.orderBy Row.vals ([] : List Row) x.vals
        rw [List.sublist_nil.1 hsub]; rfl
    | false =>
      obtain ⟨z, hz, hzm, hzp, _⟩ := lastChild_spec h ht hl
      simp only [Bool.false_eq_true, if_false, hz]
      have hi := (par_row h.toNI ht hzm).1 hzp
      have hzd : ¬ encl x z := by
        intro e
        rcases hi.2.2 x hx e with rfl | e'
        · exact hne rfl
        · exact hnd e'
      have := rest z hzm hzd
      rw [hzp] at this
      exact this

end Verif.NS
