/-
AL: additions and moves with `node_order_by`.
-/
import Verif.AL.Move

namespace Verif.AL

variable {cfg : Cfg} {db : DB} {rows : List Row}

/-! ### Values -/

theorem data_keys (rows : List Row) : (data rows).map Prod.fst = rows.map Row.pk := by
  unfold data; rw [List.map_map]; rfl

theorem vals_eq (h : AI rows) {r : Row} (hr : r ∈ rows) : valsIn (data rows) r.pk = r.vals :=
  valsIn_mem (by rw [data_keys]; exact h.pks) (List.mem_map.2 ⟨r, hr, rfl⟩)

theorem sorted_list (h : AI rows) (ho : cfg.ordered = true) {l : List Row} (hl : l.Pairwise (fun a b => ltB cfg b a = false)) (hm : ∀ r ∈ l, r ∈ rows) :
    (l.map Row.pk).Pairwise (fun a b => ¬ keyLt cfg.orderBy (valsIn (data rows) b) (valsIn (data rows) a)) := by
  rw [List.pairwise_map]
  refine hl.imp_of_mem ?_
  intro a b ha hb hlt
  rw [vals_eq h (hm a ha), vals_eq h (hm b hb), ← lt_ordered ho]
  unfold lt
  rw [hlt]
  simp

/-- the siblings are sorted, without null values, whatever the order of equal ones -/
theorem sortedBy_nonNull (h : AI rows) (ho : cfg.ordered = true) (hn : ∀ r ∈ rows, NonNull cfg.orderBy r.vals) :
    (PF cfg rows).SortedBy cfg.orderBy (valsIn (data rows)) := by
  intro p
  have hm : ∀ r ∈ order cfg (withParent ⟨rows⟩ p), r ∈ rows := fun r hr => (mem_withParent.1 (mem_order.1 hr)).1
  refine sorted_list h ho ?_ hm
  have hm' : ∀ r ∈ cfg.ties (withParent ⟨rows⟩ p), r ∈ rows := fun r hr => (mem_withParent.1 ((cfg.ties_perm _).mem_iff.1 hr)).1
  refine sortBy_sorted_on ?_ ?_
  · intro a _ b _ hab
    exact Bool.eq_false_iff.2 (lt_asymm (cfg := cfg) hab)
  · intro a ha b hb c hc h1 h2
    rw [Bool.eq_false_iff] at *
    intro h3
    apply h2
    have e1 := (lt_ordered (a := c) (b := a) ho).1 h3
    have e2 : ¬ keyLt cfg.orderBy b.vals a.vals := fun e => h1 ((lt_ordered ho).2 e)
    exact (lt_ordered ho).2 (keyLt_of_lt_of_le (hn c (hm' c hc)) (hn a (hm' a ha)) (hn b (hm' b hb)) e1 e2)

theorem sortedBy_inv (h : AInv cfg rows) (ho : cfg.ordered = true) : (PF cfg rows).SortedBy cfg.orderBy (valsIn (data rows)) := by
  intro p
  have hm : ∀ r ∈ order cfg (withParent ⟨rows⟩ p), r ∈ rows := fun r hr => (mem_withParent.1 (mem_order.1 hr)).1
  refine sorted_list h.toAI ho ?_ hm
  exact (order_sorted (db := ⟨rows⟩) h p).imp (fun hab => Bool.eq_false_iff.2 (lt_asymm hab))

/-- every node is at its sorted place -/
theorem sortedAt_inv (h : AInv cfg rows) (ho : cfg.ordered = true) {x : Row} (hx : x ∈ rows) :
    (PF cfg rows).SortedAt cfg.orderBy (valsIn (data rows)) x.parent x.pk := by
  have hs := order_sorted (db := ⟨rows⟩) h x.parent
  have hxm : x ∈ order cfg (withParent ⟨rows⟩ x.parent) := mem_order.2 (mem_withParent.2 ⟨hx, rfl⟩)
  have hm : ∀ r ∈ order cfg (withParent ⟨rows⟩ x.parent), r ∈ rows := fun r hr => (mem_withParent.1 (mem_order.1 hr)).1
  obtain ⟨l₁, l₂, e⟩ := List.append_of_mem hxm
  refine ⟨l₁.map Row.pk, l₂.map Row.pk, by unfold PF; rw [e]; simp, ?_, ?_⟩
  · intro k hk
    obtain ⟨a, ha, rfl⟩ := List.mem_map.1 hk
    rw [e, List.pairwise_append] at hs
    rw [vals_eq h.toAI hx, vals_eq h.toAI (hm a (by rw [e]; simp [ha])), ← lt_ordered ho]
    exact lt_asymm (hs.2.2 a ha x (by simp))
  · intro k hk
    obtain ⟨b, hb, rfl⟩ := List.mem_map.1 hk
    rw [e, List.pairwise_append, List.pairwise_cons] at hs
    rw [vals_eq h.toAI hx, vals_eq h.toAI (hm b (by rw [e]; simp [hb])), ← lt_ordered ho]
    exact hs.2.1.1 b hb

/-- there is a place for `x` among siblings that can all be told from it -/
theorem exists_slot (h : AInv cfg rows) {R : Row → Prop} (hR : ∀ r, R r → r ∈ rows) {G : Row → Row} (hG : ∀ r, R r → G r = r) {x : Row}
    {p : Option Nat} (hcomp : ∀ r, R r → r.parent = p → lt cfg r (G x) ∨ lt cfg (G x) r) :
    ∃ s, SlotOK R Row.pk Row.parent (lt cfg) (fun a b => lt cfg (G a) (G b)) x p s := by
  classical
  let l := (order cfg (withParent ⟨rows⟩ p)).filter (fun r => decide (R r))
  have hl : ∀ r, r ∈ l ↔ R r ∧ r.parent = p := by
    intro r
    simp only [l, List.mem_filter, mem_order, mem_withParent, decide_eq_true_eq]
    constructor
    · rintro ⟨⟨_, h1⟩, h2⟩; exact ⟨h2, h1⟩
    · rintro ⟨h1, h2⟩; exact ⟨⟨hR r h1, h2⟩, h1⟩
  have hs : l.Pairwise (lt cfg) := (order_sorted (db := ⟨rows⟩) h p).filter _
  cases e : l.find? (fun r => decide (lt cfg (G x) r)) with
  | none =>
    refine ⟨.last, ?_⟩
    intro r hr hp
    rw [List.find?_eq_none] at e
    have := e r ((hl r).2 ⟨hr, hp⟩)
    simp only [hG r hr]
    exact (hcomp r hr hp).resolve_right (by simpa using this)
  | some z =>
    obtain ⟨hz, l₁, l₂, el, hl₁⟩ := List.find?_eq_some_iff_append.1 e
    have hzl := (hl z).1 (by rw [el]; simp)
    have hz' : lt cfg (G x) z := of_decide_eq_true hz
    refine ⟨.before z.pk, z, hzl.1, rfl, hzl.2, by simp only [hG z hzl.1]; exact hz', ?_, ?_⟩
    · intro r hr hp hrz
      simp only [hG r hr]
      have hrl := (hl r).2 ⟨hr, hp⟩
      rw [el, List.mem_append, List.mem_cons] at hrl
      rw [el, List.pairwise_append, List.pairwise_cons] at hs
      rcases hrl with h1 | rfl | h1
      · exact (hcomp r hr hp).resolve_right (by simpa using hl₁ r h1)
      · exact absurd hrz (lt_irrefl _)
      · exact absurd hrz (lt_asymm (hs.2.1.1 r h1))
    · intro r hr hp hzr
      simp only [hG r hr]
      exact lt_trans hz' hzr

/-! ### Additions -/

/-- the outcome of an addition whatever the values: no cycle, the new row is there, nothing else changed -/
structure AddedRow (db db' : DB) (obj new : Row) (p : Option Nat) : Prop where
  rows : db'.rows = db.rows ++ [obj]
  inv : AI db'.rows
  obj : obj.pk = new.pk ∧ obj.vals = new.vals ∧ obj.parent = p

theorem AddedRow.of (h : AI db.rows) {new obj : Row} (hf : ∀ r ∈ db.rows, r.pk ≠ new.pk) (hk : obj.pk = new.pk) (hv : obj.vals = new.vals)
    (hp : ∀ p, obj.parent = some p → ∃ q ∈ db.rows, q.pk = p) : AddedRow db ⟨db.rows ++ [obj]⟩ obj new obj.parent :=
  ⟨rfl, ai_add h (by rw [hk]; exact hf) hp, hk, hv, rfl⟩

theorem AddedRow.data {db' : DB} {obj new : Row} {p : Option Nat} (h : AddedRow db db' obj new p) :
    AL.data db'.rows = AL.data db.rows ++ [(new.pk, new.vals)] := by
  rw [h.rows]
  unfold AL.data
  rw [List.map_append]
  simp [h.obj.1, h.obj.2.1]

theorem addRoot_sorted (ho : cfg.ordered = true) (h : AI db.rows) {new : Row} (hf : ∀ r ∈ db.rows, r.pk ≠ new.pk) (hn : new.parent = none) :
    ∃ db' obj, addRoot cfg db new = .ok (db', obj) ∧ AddedRow db db' obj new none := by
  have ha := AddedRow.of (obj := new) h hf rfl rfl (by simp [hn])
  rw [hn] at ha
  refine ⟨_, _, ?_, ha⟩
  unfold addRoot
  simp only [ho, if_true]
  rw [save_new hf (by simp [hn])]

theorem addChild_sorted (ho : cfg.ordered = true) (h : AI db.rows) {t target : Row} (ht : t ∈ db.rows) (hk : target.pk = t.pk)
    {cached : Option Int} {new : Row} (hf : ∀ r ∈ db.rows, r.pk ≠ new.pk) :
    ∃ db' obj c, addChild cfg db target cached new = .ok (db', obj, c) ∧ AddedRow db db' obj new (some t.pk) := by
  have hp : ∀ p, some t.pk = some p → ∃ q ∈ db.rows, q.pk = p := by intro p e; exact ⟨t, ht, by simpa using e⟩
  have ha := AddedRow.of (new := new) (obj := { new with parent := some t.pk }) h hf rfl rfl hp
  refine ⟨_, _, cached.map (· + 1), ?_, ha⟩
  unfold addChild
  simp only [ho, if_true, hk]
  rw [save_new]
  · exact hf
  · exact hp

theorem addSibling_sorted (ho : cfg.ordered = true) (h : AI db.rows) {t : Row} (ht : t ∈ db.rows) {posArg : Option Pos} {pos : Pos}
    (hpos : preparePosForAddSibling true posArg = .ok pos) {new : Row} (hf : ∀ r ∈ db.rows, r.pk ≠ new.pk) :
    ∃ db' obj, addSibling cfg db t posArg new = .ok (db', obj) ∧ AddedRow db db' obj new t.parent := by
  have ha := AddedRow.of (new := new) (obj := { new with sib := new.sib, parent := t.parent }) h hf rfl rfl (fun p e => h.exist t ht p e)
  refine ⟨_, _, ?_, ha⟩
  unfold addSibling addOrder
  rw [ho, hpos]
  simp only [if_true]
  rw [save_new]
  · exact hf
  · exact fun p e => h.exist t ht p e

/-- the new node can be told from its siblings: it stands at its sorted place -/
theorem AddedRow.place (ho : cfg.ordered = true) (h : AInv cfg db.rows) {db' : DB} {obj new : Row} {p : Option Nat} (ha : AddedRow db db' obj new p)
    (hf : ∀ r ∈ db.rows, r.pk ≠ new.pk)
    (hcomp : ∀ r ∈ db.rows, r.parent = p → keyLt cfg.orderBy r.vals new.vals ∨ keyLt cfg.orderBy new.vals r.vals) :
    AInv cfg db'.rows ∧ ∃ s, PF cfg db'.rows = (PF cfg db.rows).put p s new.pk := by
  obtain ⟨hk, hv, rfl⟩ := ha.obj
  have hc : ∀ r ∈ db.rows, r.parent = obj.parent → lt cfg r obj ∨ lt cfg obj r := by
    intro r hr e
    rw [lt_ordered ho, lt_ordered ho, hv]
    exact hcomp r hr e
  have hp : ∀ p, obj.parent = some p → ∃ q ∈ db.rows, q.pk = p := by
    intro p e
    obtain ⟨q, hq, e'⟩ := ha.inv.exist obj (by rw [ha.rows]; simp) p e
    rw [ha.rows, List.mem_append, List.mem_singleton] at hq
    rcases hq with hq | rfl
    · exact ⟨q, hq, e'⟩
    · exfalso
      obtain ⟨rank, hrk⟩ := ha.inv.rank
      have := hrk q (by rw [ha.rows]; simp) p e
      rw [e'] at this
      omega
  have hfo : ∀ r ∈ db.rows, r.pk ≠ obj.pk := by rw [hk]; exact hf
  have h' : AInv cfg (db.rows.map id ++ [obj]) :=
    ainv_add (g := id) h (fun _ => rfl) (fun _ => rfl) (fun ho' => by rw [ho] at ho'; cases ho') (fun _ _ _ _ _ hab => hab) hfo hp
      (fun ho' => by rw [ho] at ho'; cases ho') hc
  obtain ⟨s, hs⟩ := exists_slot (G := addMap id obj) (x := obj) (R := (· ∈ db.rows)) (p := obj.parent) h (fun _ hr => hr)
    (fun r hr => if_neg (hfo r hr)) (by
      intro r hr e
      rw [show addMap id obj obj = obj from if_pos rfl]
      exact hc r hr e)
  have hF := forest_add (g := id) h (fun _ => rfl) (fun _ => rfl) (fun _ _ _ _ _ hab => hab) hfo h' hs
  rw [List.map_id] at h' hF
  rw [ha.rows, ← hk]
  exact ⟨h', s, hF⟩

/-! ### Moves -/

/-- the row `x` gets the parent `p` -/
def setParent (x : Row) (p : Option Nat) (r : Row) : Row := if r.pk = x.pk then { x with parent := p } else r

theorem setParent_pk (x : Row) (p : Option Nat) (r : Row) : (setParent x p r).pk = r.pk := by
  unfold setParent
  split
  · rename_i e; exact e.symm
  · rfl

theorem setParent_self (x : Row) (p : Option Nat) : setParent x p x = { x with parent := p } := if_pos rfl

theorem setParent_other (h : AI rows) {x r : Row} (hx : x ∈ rows) (hr : r ∈ rows) (hne : r ≠ x) (p : Option Nat) : setParent x p r = r :=
  if_neg (fun e => hne (h.pk_inj hr hx e))

/-- the outcome of a sorted move whatever the values -/
structure MovedRow (db db' : DB) (obj x : Row) (p : Option Nat) : Prop where
  rows : db'.rows = db.rows.map (setParent x p)
  inv : AI db'.rows
  obj : obj = { x with parent := p }

theorem MovedRow.data {db' : DB} {obj x : Row} {p : Option Nat} (h : AI db.rows) (hx : x ∈ db.rows) (hm : MovedRow db db' obj x p) :
    AL.data db'.rows = AL.data db.rows := by
  rw [hm.rows]
  refine data_map (fun r _ => setParent_pk x p r) ?_
  intro r hr
  unfold setParent
  split
  · rename_i e; rw [h.pk_inj hr hx e]
  · rfl

theorem MovedRow.mem {db' : DB} {obj x : Row} {p : Option Nat} (hx : x ∈ db.rows) (hm : MovedRow db db' obj x p) : obj ∈ db'.rows := by
  rw [hm.rows, hm.obj]
  exact List.mem_map.2 ⟨x, hx, setParent_self x p⟩

theorem noMove_sorted {x t : Row} : noMove cfg db x t .sortedSibling = false := by
  rw [Bool.eq_false_iff]
  intro hn
  rcases (noMove_iff.1 hn).2 with e | ⟨e | e, _⟩ | ⟨e, _⟩ <;> cases e

theorem moveTo_sorted (h : AI db.rows) {x : Row} (hx : x ∈ db.rows) {g : Goal} (hg : g.pos = .sortedSibling) {po : Option Row}
    (ep : goalParent db g = .ok po) {p : Option Nat} (epk : po.map Row.pk = p)
    (hp : ∀ k, p = some k → (∃ q ∈ db.rows, q.pk = k) ∧ k ≠ x.pk ∧ ¬ (PF cfg db.rows).Desc x.pk k) :
    ∃ db' obj, moveTo cfg db x g = .ok (db', obj) ∧ MovedRow db db' obj x p := by
  refine ⟨⟨db.rows.map (setParent x p)⟩, { x with parent := p }, ?_, rfl, ?_, rfl⟩
  · unfold moveTo goalOrder
    rw [ep]
    simp only [hg, BEq.rfl, if_true, epk]
    rw [save_old (row := { x with parent := p }) hx rfl (fun k ek => (hp k ek).1)]
    rfl
  · refine ai_move (cfg := cfg) h hx (fun r _ => setParent_pk x p r) ?_ ?_
    · intro r hr hne; rw [setParent_other h hx hr hne]
    · rw [setParent_self]; exact hp

/-- **Moves with `node_order_by`.** -/
theorem move_sorted (ho : cfg.ordered = true) (h : AI db.rows) {x t : Row} (hx : x ∈ db.rows) (ht : t ∈ db.rows)
    {cached : Option Int} {posArg : Option Pos} {pos : Pos} (hpos : preparePosForMove true posArg = .ok pos)
    (hr : ¬ (PF cfg db.rows).MoveRefused x.pk t.pk pos) :
    ∃ db' obj, move cfg db x t cached posArg = .ok (db', obj) ∧ MovedRow db db' obj x (pos.dest t.parent t.pk) := by
  have hnd : ¬ (PF cfg db.rows).Desc x.pk t.pk := fun hd => hr (Or.inl hd)
  have hdesc : ∀ q ∈ db.rows, ¬ (PF cfg db.rows).Desc x.pk q.pk → isDescendantOf cfg db q x cached = .ok false := by
    intro q _ hq
    obtain ⟨b, e, hb⟩ := isDescendantOf_spec (cfg := cfg) h hx q cached
    cases b with
    | true => exact absurd (hb.1 rfl) hq
    | false => exact e
  unfold move
  rw [ho, hpos]
  simp only
  rcases prepMoveSorted_arg hpos with rfl | rfl
  · have hg : moveGoal cfg db x t .sortedSibling = .ok { target := t, pos := .sortedSibling } := rfl
    rw [hg]
    simp only
    rw [hdesc t ht hnd]
    simp only
    rw [noMove_sorted]
    simp only [Bool.false_eq_true, if_false]
    obtain ⟨po, ep, epk⟩ := getParent_pk h ht
    exact moveTo_sorted (g := { target := t, pos := .sortedSibling }) (p := t.parent) h hx rfl ep epk (parent_ok h ht hnd)
  · have hxt : x.pk ≠ t.pk := fun e => hr (Or.inr ⟨rfl, e.symm⟩)
    have hpar : ∀ k, some t.pk = some k → (∃ q ∈ db.rows, q.pk = k) ∧ k ≠ x.pk ∧ ¬ (PF cfg db.rows).Desc x.pk k := by
      intro k e
      cases e
      exact ⟨⟨t, ht, rfl⟩, Ne.symm hxt, hnd⟩
    by_cases hleaf : isLeaf cfg db t = true
    · have hg : moveGoal cfg db x t .sortedChild = .ok { target := t, pos := .sortedSibling, parent := some t } := by
        unfold moveGoal
        rw [hleaf]
        simp only [isChildPos, if_true, beq_iff_eq]
        rw [if_neg hxt]
        rfl
      rw [hg]
      simp only
      rw [hdesc t ht hnd]
      simp only
      rw [noMove_sorted]
      simp only [Bool.false_eq_true, if_false]
      exact moveTo_sorted (p := some t.pk) h hx rfl (po := some t) rfl rfl hpar
    · rw [Bool.not_eq_true] at hleaf
      have hne : children cfg db t ≠ [] := by
        intro e
        unfold isLeaf at hleaf
        rw [e] at hleaf
        cases hleaf
      obtain ⟨c, hc⟩ : ∃ c, lastChild cfg db t = some c := by
        unfold lastChild
        exact ⟨_, List.getLast?_eq_some_getLast hne⟩
      have hcm : c ∈ db.rows ∧ c.parent = some t.pk := mem_children.1 (List.mem_of_getLast? hc)
      have hg : moveGoal cfg db x t .sortedChild = .ok { target := c, pos := .sortedSibling } := by
        unfold moveGoal
        rw [hleaf, hc]
        simp only [isChildPos, if_true, beq_iff_eq, Bool.not_false]
        rw [if_neg hxt]
        rfl
      rw [hg]
      simp only
      have hndc : ¬ (PF cfg db.rows).Desc x.pk c.pk := by
        intro hd
        obtain ⟨r, hrm, ek, p, ep, hp⟩ := desc_last hd
        have := h.pk_inj hrm hcm.1 ek
        subst this
        rw [hcm.2] at ep
        cases ep
        exact hp.elim (fun e => hxt e.symm) hnd
      rw [hdesc c hcm.1 hndc]
      simp only
      rw [noMove_sorted]
      simp only [Bool.false_eq_true, if_false]
      obtain ⟨po, ep, epk⟩ := getParent_pk h hcm.1
      exact moveTo_sorted (g := { target := c, pos := .sortedSibling }) (p := some t.pk) h hx rfl ep (epk.trans hcm.2) hpar

/-- the moved node can be told from its new siblings: it stands at its sorted place -/
theorem MovedRow.place (ho : cfg.ordered = true) (h : AInv cfg db.rows) {db' : DB} {obj x : Row} {p : Option Nat} (hx : x ∈ db.rows)
    (hm : MovedRow db db' obj x p)
    (hp : ∀ k, p = some k → (∃ q ∈ db.rows, q.pk = k) ∧ k ≠ x.pk ∧ ¬ (PF cfg db.rows).Desc x.pk k)
    (hcomp : ∀ r ∈ db.rows, r ≠ x → r.parent = p → keyLt cfg.orderBy r.vals x.vals ∨ keyLt cfg.orderBy x.vals r.vals) :
    AInv cfg db'.rows ∧ ∃ s, PF cfg db'.rows = (PF cfg db.rows).move x.pk p s := by
  have hother : ∀ r ∈ db.rows, r ≠ x → setParent x p r = r := fun r hr hne => setParent_other h.toAI hx hr hne p
  have hmono : ∀ a ∈ db.rows, ∀ b ∈ db.rows, a ≠ x → b ≠ x → a.parent = b.parent → lt cfg a b → lt cfg (setParent x p a) (setParent x p b) := by
    intro a ha b hb hax hbx _ hab
    rw [hother a ha hax, hother b hb hbx]; exact hab
  have hpx : (setParent x p x).parent = p := by rw [setParent_self]
  have hc : ∀ r ∈ db.rows, r ≠ x → r.parent = p → lt cfg r (setParent x p x) ∨ lt cfg (setParent x p x) r := by
    intro r hr hne e
    rw [lt_ordered ho, lt_ordered ho, setParent_self]
    exact hcomp r hr hne e
  have h' : AInv cfg (db.rows.map (setParent x p)) := by
    refine ainv_move h hx (fun r _ => setParent_pk x p r) ?_ ?_ (fun ho' => by rw [ho] at ho'; cases ho') hmono ?_
    · intro r hr hne; rw [hother r hr hne]
    · rw [hpx]; exact hp
    · intro r hr hne e
      rw [hpx] at e
      rw [hother r hr hne]
      exact hc r hr hne e
  obtain ⟨s, hs⟩ := exists_slot (G := setParent x p) (x := x) (R := fun r => r ∈ db.rows ∧ r ≠ x) (p := p) h (fun _ hr => hr.1)
    (fun r hr => hother r hr.1 hr.2) (fun r hr e => hc r hr.1 hr.2 e)
  have hF := forest_move (G := setParent x p) (s := s) h hx (fun r _ => setParent_pk x p r)
    (fun r hr hne => by rw [hother r hr hne]) hmono h' (by rw [hpx]; exact hs)
  rw [hpx] at hF
  rw [hm.rows]
  exact ⟨h', s, hF⟩

end Verif.AL
