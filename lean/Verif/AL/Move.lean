/-
AL: moves without `node_order_by`.
-/
import Verif.AL.Add

namespace Verif.AL

variable {cfg : Cfg} {db : DB} {rows : List Row}

/-- the outcome of a move -/
structure MoveGood (cfg : Cfg) (db db' : DB) (obj x : Row) (F : Forest) : Prop where
  inv : AInv cfg db'.rows
  forest : PF cfg db'.rows = F
  data : data db'.rows = data db.rows
  obj : obj ∈ db'.rows ∧ obj.pk = x.pk

theorem getParent_pk (h : AI db.rows) {r : Row} (hr : r ∈ db.rows) : ∃ o, getParent db r = .ok o ∧ o.map Row.pk = r.parent := by
  rcases getParent_spec h hr with ⟨e, e'⟩ | ⟨p, _, e, e'⟩
  · exact ⟨_, e', by rw [e]; rfl⟩
  · exact ⟨_, e', by rw [e]; rfl⟩

/-- the parent of a node outside the branch of `x` is outside the branch of `x` -/
theorem parent_ok (h : AI rows) {x t : Row} (ht : t ∈ rows) (hnd : ¬ (PF cfg rows).Desc x.pk t.pk) :
    ∀ k, t.parent = some k → (∃ q ∈ rows, q.pk = k) ∧ k ≠ x.pk ∧ ¬ (PF cfg rows).Desc x.pk k := by
  intro k e
  have hm : t.pk ∈ PF cfg rows (some k) := mem_PF.2 ⟨t, ht, e, rfl⟩
  refine ⟨h.exist t ht k e, ?_, ?_⟩
  · rintro rfl; exact hnd (.child hm)
  · intro hd; exact hnd (.step hd hm)

theorem data_moveMap {x : Row} (h : AI rows) (hx : x ∈ rows) (p : Option Nat) (o : Int) : data (rows.map (moveMap x p o)) = data rows := by
  refine data_map (fun r _ => moveMap_pk x p o r) ?_
  intro r hr
  unfold moveMap
  split
  · rename_i e; rw [h.pk_inj hr hx e]
  · exact shift_vals p o r

/-- the end of `move`: the room was made, the node is saved -/
theorem save_move {x : Row} (hx : x ∈ db.rows) {p : Option Nat} {o : Int}
    (hp : ∀ k, p = some k → ∃ q ∈ db.rows, q.pk = k) :
    save ⟨db.rows.map (shift p o)⟩ { x with parent := p, sib := o } = .ok ⟨db.rows.map (moveMap x p o)⟩ := by
  rw [save_old (db := ⟨db.rows.map (shift p o)⟩) (row := { x with parent := p, sib := o }) (x := shift p o x) (List.mem_map_of_mem hx) (shift_pk _ _ _)]
  · simp only [List.map_map]
    congr 2
    refine List.map_congr_left ?_
    intro r _
    unfold moveMap
    simp only [Function.comp, shift_pk]
  · intro k e
    obtain ⟨q, hq, rfl⟩ := hp k e
    exact ⟨_, List.mem_map_of_mem hq, shift_pk _ _ _⟩

theorem moved_at (ho : cfg.ordered = false) (h : AInv cfg db.rows) {x : Row} (hx : x ∈ db.rows) {p : Option Nat} {o : Int} (ho1 : 1 ≤ o)
    (hp : ∀ k, p = some k → (∃ q ∈ db.rows, q.pk = k) ∧ k ≠ x.pk ∧ ¬ (PF cfg db.rows).Desc x.pk k) {F : Forest}
    (hF : PF cfg (db.rows.map (moveMap x p o)) = F) :
    MoveGood cfg db ⟨db.rows.map (moveMap x p o)⟩ { x with parent := p, sib := o } x F :=
  ⟨ainv_moveMap ho h hx hp ho1, hF, data_moveMap h.toAI hx p o, List.mem_map.2 ⟨x, hx, moveMap_self x p o⟩, rfl⟩

theorem noMove_iff {node target : Row} {pos : Pos} : noMove cfg db node target pos = true ↔ node.pk = target.pk ∧ (pos = .left ∨
    ((pos = .right ∨ pos = .lastSibling) ∧ (lastSibling cfg db target).map Row.pk = some target.pk) ∨
    (pos = .firstSibling ∧ (firstSibling cfg db target).map Row.pk = some target.pk)) := by
  unfold noMove
  simp only [Bool.and_eq_true, Bool.or_eq_true, beq_iff_eq, or_assoc]

theorem move_last_same {F : Forest} {p : Option Nat} {x : Nat} {l : List Nat} (hu : ∀ q, x ∈ F q → q = p) (e : F p = l ++ [x]) (hx : x ∉ l) :
    F.move x p .last = F := by
  have hfil : ∀ l : List Nat, x ∉ l → l.filter (fun k => decide (k ≠ x)) = l := by
    intro l hl
    rw [List.filter_eq_self]
    intro k hk
    simp only [decide_eq_true_eq]
    rintro rfl; exact hl hk
  funext q
  unfold Forest.move Forest.put Forest.remove
  by_cases hq : q = p
  · subst hq
    rw [if_pos rfl, e, List.filter_append, hfil l hx]
    simp [Slot.ins]
  · rw [if_neg hq]
    exact hfil _ (fun hm => hq (hu q hm))

theorem move_first_same {F : Forest} {p : Option Nat} {x : Nat} {l : List Nat} (hu : ∀ q, x ∈ F q → q = p) (e : F p = x :: l) (hx : x ∉ l) :
    F.move x p .first = F := by
  have hfil : ∀ l : List Nat, x ∉ l → l.filter (fun k => decide (k ≠ x)) = l := by
    intro l hl
    rw [List.filter_eq_self]
    intro k hk
    simp only [decide_eq_true_eq]
    rintro rfl; exact hl hk
  funext q
  unfold Forest.move Forest.put Forest.remove
  by_cases hq : q = p
  · subst hq
    rw [if_pos rfl, e, List.filter_cons_of_neg (by simp), hfil l hx]
    rfl
  · rw [if_neg hq]
    exact hfil _ (fun hm => hq (hu q hm))

/-- the moves that the code skips ask for nothing -/
theorem noMove_same (h : AInv cfg db.rows) {x t : Row} (ht : t ∈ db.rows) {pos : Pos} (hn : noMove cfg db x t pos = true) :
    (PF cfg db.rows).sibMove x.pk t.parent t.pk pos = PF cfg db.rows := by
  obtain ⟨hk, hc⟩ := noMove_iff.1 hn
  rw [hk]
  have hnd := PF_nodup (cfg := cfg) h.toAI t.parent
  have hu : ∀ q, t.pk ∈ PF cfg db.rows q → q = t.parent := fun q hq => ((key_iff h.toAI ht).1 hq).symm
  have hmapl : (lastSibling cfg db t).map Row.pk = (PF cfg db.rows t.parent).getLast? := by
    unfold lastSibling PF
    rw [siblings_eq, List.getLast?_map]
  have hmapf : (firstSibling cfg db t).map Row.pk = (PF cfg db.rows t.parent).head? := by
    unfold firstSibling PF
    rw [siblings_eq, List.head?_map]
  rcases hc with rfl | ⟨rfl | rfl, e⟩ | ⟨rfl, e⟩
  · unfold Forest.sibMove; simp
  · unfold Forest.sibMove; simp
  · rw [hmapl, List.getLast?_eq_some_iff] at e
    obtain ⟨l, e⟩ := e
    refine move_last_same hu e ?_
    rw [e, List.nodup_append] at hnd
    intro hm
    exact hnd.2.2 _ hm t.pk (by simp) rfl
  · rw [hmapf, List.head?_eq_some_iff] at e
    obtain ⟨l, e⟩ := e
    refine move_first_same hu e ?_
    rw [e, List.nodup_cons] at hnd
    exact hnd.1

/-- moves among the siblings of a stored node, also those that could be skipped -/
theorem moveTo_sib (ho : cfg.ordered = false) (h : AInv cfg db.rows) {x t : Row} (hx : x ∈ db.rows) (ht : t ∈ db.rows) {pos : Pos}
    (hpos : IsSibPos pos) (hnd : ¬ (PF cfg db.rows).Desc x.pk t.pk) :
    ∃ db' obj, moveTo cfg db x { target := t, pos := pos } = .ok (db', obj) ∧
      MoveGood cfg db db' obj x ((PF cfg db.rows).sibMove x.pk t.parent t.pk pos) := by
  obtain ⟨o, e, ho1, hr, hl, hfst, hlst⟩ := newSibOrder_spec ho h ht hpos
  obtain ⟨po, ep, epk⟩ := getParent_pk h.toAI ht
  have hpar := parent_ok h.toAI ht hnd
  have hres : moveTo cfg db x { target := t, pos := pos } = .ok (⟨db.rows.map (moveMap x t.parent o)⟩, { x with parent := t.parent, sib := o }) := by
    unfold moveTo goalParent goalOrder
    have hns : (pos == Pos.sortedSibling) = false := by rcases hpos with rfl | rfl | rfl | rfl <;> rfl
    simp only
    rw [ep]
    simp only [hns, Bool.false_eq_true, if_false]
    rw [e]
    simp only
    rw [epk, save_move hx (fun k ek => (hpar k ek).1)]
  refine ⟨_, _, hres, moved_at ho h hx ho1 hpar ?_⟩
  have htx : t.pk ≠ x.pk → t ∈ db.rows ∧ t ≠ x := fun hne => ⟨ht, fun e => hne (by rw [e])⟩
  rcases hpos with rfl | rfl | rfl | rfl
  · exact move_at ho h hx hpar ho1 (s := .first) (fun r hr' hp => hfst rfl r hr'.1 hp)
  · unfold Forest.sibMove
    simp only
    split
    · rename_i hk
      have := h.toAI.pk_inj ht hx hk
      subst this
      rw [hl rfl]
      exact move_left_same ho h hx
    · rename_i hk
      exact move_at ho h hx hpar ho1 (s := .before t.pk) ⟨t, htx hk, rfl, rfl, (hl rfl).symm⟩
  · unfold Forest.sibMove
    simp only
    split
    · rename_i hk
      have := h.toAI.pk_inj ht hx hk
      subst this
      rw [hr rfl]
      exact move_same ho h hx
    · rename_i hk
      exact move_at ho h hx hpar ho1 (s := .after t.pk) ⟨t, htx hk, rfl, rfl, (hr rfl).symm⟩
  · exact move_at ho h hx hpar ho1 (s := .last) (fun r hr' hp => hlst rfl r hr'.1 hp)

/-- moves among the siblings of a stored node -/
theorem move_sib (ho : cfg.ordered = false) (h : AInv cfg db.rows) {x t : Row} (hx : x ∈ db.rows) (ht : t ∈ db.rows) {pos : Pos}
    (hpos : IsSibPos pos) (hnd : ¬ (PF cfg db.rows).Desc x.pk t.pk) :
    ∃ db' obj, (if noMove cfg db x t pos then .ok (db, x) else moveTo cfg db x { target := t, pos := pos }) = .ok (db', obj) ∧
      MoveGood cfg db db' obj x ((PF cfg db.rows).sibMove x.pk t.parent t.pk pos) := by
  by_cases hn : noMove cfg db x t pos = true
  · rw [if_pos hn]
    exact ⟨db, x, rfl, h, (noMove_same h ht hn).symm, rfl, hx, rfl⟩
  · rw [if_neg hn]
    exact moveTo_sib ho h hx ht hpos hnd

theorem isLeaf_iff {t : Row} : isLeaf cfg db t = true ↔ ∀ r ∈ db.rows, r.parent ≠ some t.pk := by
  unfold isLeaf
  rw [List.isEmpty_iff, List.eq_nil_iff_forall_not_mem]
  simp only [mem_children, not_and]

/-- **Moves without `node_order_by`.** -/
theorem move_unsorted (ho : cfg.ordered = false) (h : AInv cfg db.rows) {x t : Row} (hx : x ∈ db.rows) (ht : t ∈ db.rows)
    {cached : Option Int} {posArg : Option Pos} {pos : Pos} (hpos : preparePosForMove false posArg = .ok pos)
    (hr : ¬ (PF cfg db.rows).MoveRefused x.pk t.pk pos) :
    ∃ db' obj, move cfg db x t cached posArg = .ok (db', obj) ∧
      MoveGood cfg db db' obj x ((PF cfg db.rows).moveAsked x.pk t.parent t.pk pos) := by
  have hplain := (prepMove_arg hpos).1
  have hnd : ¬ (PF cfg db.rows).Desc x.pk t.pk := fun hd => hr (Or.inl hd)
  have hdesc : ∀ q ∈ db.rows, ¬ (PF cfg db.rows).Desc x.pk q.pk → isDescendantOf cfg db q x cached = .ok false := by
    intro q _ hq
    obtain ⟨b, e, hb⟩ := isDescendantOf_spec (cfg := cfg) h.toAI hx q cached
    cases b with
    | true => exact absurd (hb.1 rfl) hq
    | false => exact e
  unfold move
  rw [ho, hpos]
  simp only
  rcases hplain with hsib | hch
  · have hg : moveGoal cfg db x t pos = .ok { target := t, pos := pos } := by
      unfold moveGoal
      have : isChildPos pos = false := by rcases hsib with rfl | rfl | rfl | rfl <;> rfl
      rw [this]; rfl
    rw [hg]
    simp only
    rw [hdesc t ht hnd]
    simp only
    obtain ⟨db', obj, e, hm⟩ := move_sib ho h hx ht hsib hnd
    refine ⟨db', obj, e, ?_⟩
    have : (PF cfg db.rows).moveAsked x.pk t.parent t.pk pos = (PF cfg db.rows).sibMove x.pk t.parent t.pk pos := by
      rcases hsib with rfl | rfl | rfl | rfl <;> rfl
    rw [this]; exact hm
  · have hcp : isChildPos pos = true := by rcases hch with rfl | rfl <;> rfl
    have hxt : x.pk ≠ t.pk := by
      intro e
      refine hr (Or.inr ⟨?_, e.symm⟩)
      rcases hch with rfl | rfl <;> rfl
    by_cases hleaf : isLeaf cfg db t = true
    · -- no children yet
      have hg : moveGoal cfg db x t pos = .ok { target := t, pos := .firstSibling, parent := some t, sibOrder := some 1 } := by
        unfold moveGoal
        rw [hcp, hleaf]
        simp only [if_true, beq_iff_eq]
        rw [if_neg hxt]
        rcases hch with rfl | rfl <;> rfl
      rw [hg]
      simp only
      rw [hdesc t ht hnd]
      simp only
      have hnm : noMove cfg db x t .firstSibling = false := by
        rw [Bool.eq_false_iff]
        intro hn
        exact hxt (noMove_iff.1 hn).1
      rw [hnm]
      simp only [Bool.false_eq_true, if_false]
      rw [isLeaf_iff] at hleaf
      have hpar : ∀ k, some t.pk = some k → (∃ q ∈ db.rows, q.pk = k) ∧ k ≠ x.pk ∧ ¬ (PF cfg db.rows).Desc x.pk k := by
        intro k e
        cases e
        exact ⟨⟨t, ht, rfl⟩, Ne.symm hxt, hnd⟩
      have hres : moveTo cfg db x { target := t, pos := .firstSibling, parent := some t, sibOrder := some 1 } =
          .ok (⟨db.rows.map (moveMap x (some t.pk) 1)⟩, { x with parent := some t.pk, sib := 1 }) := by
        have hs := save_move (o := 1) hx (fun k ek => (hpar k ek).1)
        rw [shift_id (fun r hr' hp => absurd hp (hleaf r hr'))] at hs
        unfold moveTo goalParent goalOrder
        simp only [Option.map_some]
        have : (Pos.firstSibling == Pos.sortedSibling) = false := rfl
        simp only [this, Bool.false_eq_true, if_false]
        rw [hs]
      refine ⟨_, _, hres, moved_at ho h hx (by omega) hpar ?_⟩
      rcases hch with rfl | rfl
      · exact move_at ho h hx hpar (by omega) (s := .first) (fun r hr' hp => absurd hp (hleaf r hr'.1))
      · exact move_at ho h hx hpar (by omega) (s := .last) (fun r hr' hp => absurd hp (hleaf r hr'.1))
    · -- relative to the last child
      rw [Bool.not_eq_true] at hleaf
      have hne : children cfg db t ≠ [] := by
        intro e
        unfold isLeaf at hleaf
        rw [e] at hleaf
        cases hleaf
      obtain ⟨c, hc⟩ : ∃ c, lastChild cfg db t = some c := by
        unfold lastChild
        exact ⟨_, List.getLast?_eq_some_getLast hne⟩
      have hcm : c ∈ db.rows ∧ c.parent = some t.pk := mem_children.1 (List.mem_of_getLast? hc)
      have hg : moveGoal cfg db x t pos = .ok { target := c, pos := toSibPos pos } := by
        unfold moveGoal
        rw [hcp, hleaf, hc]
        simp only [if_true, beq_iff_eq, Bool.not_false]
        rw [if_neg hxt]
      rw [hg]
      simp only
      have hndc : ¬ (PF cfg db.rows).Desc x.pk c.pk := by
        intro hd
        obtain ⟨r, hrm, ek, p, ep, hp⟩ := desc_last hd
        have := h.toAI.pk_inj hrm hcm.1 ek
        subst this
        rw [hcm.2] at ep
        cases ep
        exact hp.elim (fun e => hxt e.symm) hnd
      rw [hdesc c hcm.1 hndc]
      simp only
      have hsp : IsSibPos (toSibPos pos) := by
        rcases hch with rfl | rfl
        · exact Or.inl rfl
        · exact Or.inr (Or.inr (Or.inr rfl))
      obtain ⟨db', obj, e, hm⟩ := move_sib ho h hx hcm.1 hsp hndc
      refine ⟨db', obj, e, ?_⟩
      rw [hcm.2] at hm
      rcases hch with rfl | rfl <;> exact hm

/-- moves into the own branch are refused, with or without `node_order_by` -/
theorem move_refused (h : AI db.rows) {x t : Row} (hx : x ∈ db.rows) {cached : Option Int} {posArg : Option Pos}
    {pos : Pos} (hpos : preparePosForMove cfg.ordered posArg = .ok pos) (hr : (PF cfg db.rows).MoveRefused x.pk t.pk pos) :
    move cfg db x t cached posArg = .error .invalidMoveToDescendant := by
  have hdesc : ∀ q ∈ db.rows, (PF cfg db.rows).Desc x.pk q.pk → isDescendantOf cfg db q x cached = .ok true := by
    intro q _ hq
    obtain ⟨b, e, hb⟩ := isDescendantOf_spec (cfg := cfg) h hx q cached
    cases b with
    | true => exact e
    | false => exact absurd (hb.2 hq) (by simp)
  unfold move
  rw [hpos]
  simp only
  rcases hr with hd | ⟨hc, hk⟩
  · obtain ⟨r, hrm, ek, _⟩ := desc_last hd
    have htd : isDescendantOf cfg db t x cached = .ok true := by
      obtain ⟨b, e, hb⟩ := isDescendantOf_spec (cfg := cfg) h hx t cached
      cases b with
      | true => exact e
      | false => exact absurd (hb.2 hd) (by simp)
    unfold moveGoal
    by_cases hcp : isChildPos pos = true
    · rw [hcp]
      simp only [if_true, beq_iff_eq]
      rw [if_neg (by intro e; exact desc_irrefl h _ (e ▸ hd))]
      by_cases hleaf : isLeaf cfg db t = true
      · rw [hleaf]
        simp only [Bool.not_true, Bool.false_eq_true, if_false]
        by_cases hsc : pos = .sortedChild
        · rw [if_pos hsc]; simp only; rw [htd]
        · rw [if_neg hsc]; simp only; rw [htd]
      · rw [Bool.not_eq_true] at hleaf
        rw [hleaf]
        simp only [Bool.not_false, if_true]
        have hne : children cfg db t ≠ [] := by
          intro e
          unfold isLeaf at hleaf
          rw [e] at hleaf
          cases hleaf
        obtain ⟨c, hc⟩ : ∃ c, lastChild cfg db t = some c := by
          unfold lastChild
          exact ⟨_, List.getLast?_eq_some_getLast hne⟩
        have hcm : c ∈ db.rows ∧ c.parent = some t.pk := mem_children.1 (List.mem_of_getLast? hc)
        rw [hc]
        simp only
        rw [hdesc c hcm.1 (.step hd (mem_PF.2 ⟨c, hcm.1, hcm.2, rfl⟩))]
    · rw [if_neg hcp]
      simp only
      rw [htd]
  · have hcp : isChildPos pos = true := by
      revert hc; cases pos <;> simp [Pos.isChild, isChildPos]
    unfold moveGoal
    rw [hcp]
    simp only [if_true, beq_iff_eq]
    rw [if_pos hk.symm]

end Verif.AL
