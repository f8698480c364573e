/-
C44 and C52 for AL: the move form and the drag and drop of the admin.
-/
import Verif.FormLemmas
import Verif.AL.Dump
import Verif.Props.ALQuery

namespace Verif.AL

variable {cfg : Cfg} {db : DB}

/-- the form's view of an AL manager.  The objects the form passes were just fetched, so they have no cached depth
(`move` does not depend on it, `C31_move`), and `add_child` does not touch its target. -/
def manager (cfg : Cfg) : Manager DB Row where
  orderBy := cfg.orderBy
  addRoot := addRoot cfg
  addChild := fun db t new => (addChild cfg db t none new).map (fun res => (res.1, res.2.1, t))
  move := fun db x t pos => move cfg db x t none (some pos)
  save := save
  refresh := fun db x => match db.get? x.pk with
    | none => .error .doesNotExist
    | some r => .ok r
  firstRoot := fun db => (rootNodes cfg db).head?

/-! ### Vocabulary -/

/-- After saving the form, without `node_order_by`: the table is consistent, its forest is `F`, its data are `D` and the
form's instance is the stored row of the node `k`. -/
structure FormDone (cfg : Cfg) (db' : DB) (obj : Row) (k : Nat) (F : Forest) (D : List (Nat × Vals)) : Prop where
  consistent : Consistent cfg db'
  forest : forest cfg db' = F
  data : data db'.rows = D
  obj : obj ∈ db'.rows ∧ obj.pk = k

/-- After saving the form, with `node_order_by`: the table is well formed, the node `k` is below `p` and every other node
is where it was in `F`, the data are `D`, the instance is the stored row. -/
structure FormSorted (cfg : Cfg) (F : Forest) (db' : DB) (obj : Row) (k : Nat) (p : Option Nat) (D : List (Nat × Vals)) : Prop where
  wf : Wf cfg db'
  parents : ∀ q j, j ∈ forest cfg db' q ↔ if j = k then q = p else j ∈ F q
  data : data db'.rows = D
  obj : obj ∈ db'.rows ∧ obj.pk = k
  /-- with values in all order fields, everything is in order -/
  sorted : (∀ e ∈ D, NonNull cfg.orderBy e.2) → (AL.forest cfg db').SortedBy cfg.orderBy (valsIn (AL.data db'.rows))

/-- the values `v` can be told from those of the nodes below `p` other than `k` -/
def DistinctAt (cfg : Cfg) (db : DB) (k : Nat) (p : Option Nat) (v : Vals) : Prop :=
  ∀ r ∈ db.rows, r.pk ≠ k → r.parent = p → keyLt cfg.orderBy r.vals v ∨ keyLt cfg.orderBy v r.vals

/-! ### Lemmas -/

theorem settled (h : AI db.rows) {x r : Row} (hr : r ∈ db.rows) (hk : r.pk = x.pk) : Settled (manager cfg) db x r := by
  constructor
  · show (match db.get? x.pk with | none => _ | some r => _) = _
    rw [(get?_eq_some h).2 ⟨hr, hk⟩]
  · show save db r = .ok db
    have hmap : db.rows.map (fun q => if q.pk = r.pk then r else q) = db.rows := by
      conv_rhs => rw [← List.map_id db.rows]
      refine List.map_congr_left (fun q hq => ?_)
      by_cases e : q.pk = r.pk
      · simp [h.pk_inj hq hr e]
      · simp [e]
    rw [save_old hr rfl (h.exist r hr), hmap]

/-- the new row, where a row with the same key is -/
def edit (x : Row) (v : Vals) (r : Row) : Row := if r.pk = x.pk then { x with vals := v } else r

theorem edit_same (h : AI db.rows) {x : Row} (hx : x ∈ db.rows) (v : Vals) {r : Row} (hr : r ∈ db.rows) :
    edit x v r = { r with vals := (edit x v r).vals } := by
  unfold edit
  by_cases e : r.pk = x.pk
  · rw [h.pk_inj hr hx e]; simp
  · simp [e]

theorem edit_ai (h : AI db.rows) {x : Row} (hx : x ∈ db.rows) (v : Vals) : AI (db.rows.map (edit x v)) := by
  have hs := fun r hr => edit_same h hx v (r := r) hr
  obtain ⟨rank, hrk⟩ := h.rank
  refine ⟨?_, ?_, rank, ?_⟩
  · rw [List.map_map, show db.rows.map (Row.pk ∘ edit x v) = db.rows.map Row.pk from
      List.map_congr_left (fun r hr => by show (edit x v r).pk = r.pk; rw [hs r hr])]
    exact h.pks
  · intro r' hr' p e
    obtain ⟨r, hr, rfl⟩ := List.mem_map.1 hr'
    rw [hs r hr] at e
    obtain ⟨q, hq, e'⟩ := h.exist r hr p e
    exact ⟨edit x v q, List.mem_map_of_mem hq, by rw [hs q hq]; exact e'⟩
  · intro r' hr' p e
    obtain ⟨r, hr, rfl⟩ := List.mem_map.1 hr'
    rw [hs r hr] at e ⊢
    exact hrk r hr p e

theorem edit_save (h : AI db.rows) {x : Row} (hx : x ∈ db.rows) (v : Vals) :
    save db { x with vals := v } = .ok ⟨db.rows.map (edit x v)⟩ := save_old hx rfl (h.exist x hx)

theorem edit_data (x : Row) (v : Vals) : data (db.rows.map (edit x v)) = editData (data db.rows) x.pk v := by
  unfold data editData
  rw [List.map_map, List.map_map]
  refine List.map_congr_left (fun r hr => ?_)
  unfold edit
  by_cases e : r.pk = x.pk <;> simp [e]

theorem edit_mem {x : Row} (hx : x ∈ db.rows) (v : Vals) : { x with vals := v } ∈ db.rows.map (edit x v) :=
  List.mem_map.2 ⟨x, hx, by simp [edit]⟩

theorem edit_other {x t : Row} (ht : t ∈ db.rows) (hne : t.pk ≠ x.pk) (v : Vals) : t ∈ db.rows.map (edit x v) :=
  List.mem_map.2 ⟨t, ht, by simp [edit, hne]⟩

/-- parents do not change -/
theorem edit_parents (h : AI db.rows) {x : Row} (hx : x ∈ db.rows) (v : Vals) (q : Option Nat) (k : Nat) :
    k ∈ PF cfg (db.rows.map (edit x v)) q ↔ k ∈ PF cfg db.rows q := by
  rw [mem_PF, mem_PF]
  constructor
  · rintro ⟨r', hr', e1, e2⟩
    obtain ⟨r, hr, rfl⟩ := List.mem_map.1 hr'
    rw [edit_same h hx v hr] at e1 e2
    exact ⟨r, hr, e1, e2⟩
  · rintro ⟨r, hr, e1, e2⟩
    refine ⟨edit x v r, List.mem_map_of_mem hr, ?_, ?_⟩ <;> rw [edit_same h hx v hr]
    · exact e1
    · exact e2

theorem desc_parents {F G : Forest} (h : ∀ q k, k ∈ F q → k ∈ G q) {a b : Nat} (hd : F.Desc a b) : G.Desc a b := by
  induction hd with
  | child hc => exact .child (h _ _ hc)
  | step _ hc ih => exact .step ih (h _ _ hc)

theorem edit_offered (h : AI db.rows) {x : Row} (hx : x ∈ db.rows) (v : Vals) {a b : Nat} (ho : (forest cfg db).Offered a b) :
    (forest cfg ⟨db.rows.map (edit x v)⟩).Offered a b := by
  refine ⟨ho.1, fun hd => ho.2 ?_⟩
  rw [forest_eq (edit_ai h hx v)] at hd
  rw [forest_eq h]
  exact desc_parents (fun q k hk => (edit_parents h hx v q k).1 hk) hd

/-- without `node_order_by` nothing moves -/
theorem edit_plain (ho : cfg.ordered = false) (h : AInv cfg db.rows) {x : Row} (hx : x ∈ db.rows) (v : Vals) :
    AInv cfg (db.rows.map (edit x v)) ∧ PF cfg (db.rows.map (edit x v)) = PF cfg db.rows := by
  have hs := fun r hr => edit_same h.toAI hx v (r := r) hr
  have hlt : ∀ a ∈ db.rows, ∀ b ∈ db.rows, (lt cfg (edit x v a) (edit x v b) ↔ lt cfg a b) := by
    intro a ha b hb
    rw [lt_plain ho, lt_plain ho, hs a ha, hs b hb]
  have hi : AInv cfg (db.rows.map (edit x v)) := by
    refine ⟨edit_ai h.toAI hx v, ?_, ?_⟩
    · intro _ r' hr'
      obtain ⟨r, hr, rfl⟩ := List.mem_map.1 hr'
      rw [hs r hr]; exact h.sib ho r hr
    · intro a' ha' b' hb' hne hpar
      obtain ⟨a, ha, rfl⟩ := List.mem_map.1 ha'
      obtain ⟨b, hb, rfl⟩ := List.mem_map.1 hb'
      rw [hs a ha, hs b hb] at hpar
      rw [hlt a ha b hb, hlt b hb a ha]
      exact h.comp a ha b hb (fun e => hne (by rw [e])) hpar
  refine ⟨hi, forest_same h (fun r hr => by rw [hs r hr]) (fun r hr => by rw [hs r hr]) ?_ hi⟩
  intro a ha b hb _ hab
  exact (hlt a ha b hb).2 hab

theorem formPlace_edit_ref (h : AI db.rows) {x t : Row} (hx : x ∈ db.rows) (v : Vals) (pos : Pos) :
    formPlace (manager cfg) db { x with vals := v } false (some t) pos =
      move cfg ⟨db.rows.map (edit x v)⟩ { x with vals := v } t none (some pos) := by
  unfold formPlace
  simp only [Bool.false_eq_true, if_false]
  rw [show (manager cfg).save db { x with vals := v } = .ok _ from edit_save h hx v]
  rfl

theorem formPlace_edit_root (h : AI db.rows) {x r : Row} (hx : x ∈ db.rows) (v : Vals)
    (hr : (rootNodes cfg ⟨db.rows.map (edit x v)⟩).head? = some r) (pos : Pos) :
    formPlace (manager cfg) db { x with vals := v } false none pos =
      move cfg ⟨db.rows.map (edit x v)⟩ { x with vals := v } r none (some (if (manager cfg).ordered then .sortedSibling else .firstSibling)) := by
  unfold formPlace
  simp only [Bool.false_eq_true, if_false]
  rw [show (manager cfg).save db { x with vals := v } = .ok _ from edit_save h hx v]
  simp only
  rw [show (manager cfg).firstRoot ⟨db.rows.map (edit x v)⟩ = some r from hr]
  rfl

theorem formPos_prep {pos : Pos} (hpos : pos ∈ formPositions false) : preparePosForMove false (some pos) = .ok pos := by
  simp only [formPositions, Bool.false_eq_true, if_false, List.mem_cons, List.not_mem_nil, or_false] at hpos
  rcases hpos with rfl | rfl | rfl <;> decide

theorem parent_unique (h : AI db.rows) {p q : Option Nat} {k : Nat} (hp : k ∈ forest cfg db p) (hq : k ∈ forest cfg db q) : p = q := by
  rw [forest_eq h] at hp hq
  exact PF_parent_unique h hp hq

/-- the first root is a root, and nothing is above it -/
theorem firstRoot_spec (h : AI db.rows) (hne : db.rows ≠ []) :
    ∃ r ∈ db.rows, (rootNodes cfg db).head? = some r ∧ r.parent = none ∧ r.pk ∈ forest cfg db none ∧ ∀ x, ¬ (forest cfg db).Desc x r.pk := by
  cases e : rootNodes cfg db with
  | nil =>
    exfalso
    obtain ⟨r, hr⟩ := List.exists_mem_of_ne_nil _ hne
    obtain ⟨l, hd, _, hp⟩ := (isForestOn (cfg := cfg) h).listing
    have : forest cfg db none = [] := by show (rootNodes cfg db).map Row.pk = []; rw [e]; rfl
    have hm : r.pk ∈ l := hp.mem_iff.2 (by rw [data_keys]; exact List.mem_map_of_mem hr)
    rw [Forest.DFS.mem hd, this] at hm
    obtain ⟨c, hc, _⟩ := hm
    simp at hc
  | cons r l =>
    have hr : r ∈ rootNodes cfg db := by rw [e]; simp
    have hm : r.pk ∈ forest cfg db none := List.mem_map_of_mem hr
    have hr' := mem_withParent.1 (mem_order.1 hr)
    refine ⟨r, hr'.1, rfl, hr'.2, hm, ?_⟩
    intro x hd
    cases hd with
    | child hd => cases parent_unique h hm hd
    | step _ hd => cases parent_unique h hm hd

/-- the outcome of the move, turned into the outcome of the form -/
theorem formDone_of (ho : cfg.ordered = false) {db₁ db' : DB} {obj x : Row} {F : Forest} (hm : MovedTo cfg db₁ db' obj x F) :
    Settled (manager cfg) db' obj obj ∧ FormDone cfg db' obj x.pk F (data db₁.rows) :=
  ⟨settled (hm.consistent.inv ho).toAI hm.obj.1 rfl, hm.consistent, hm.forest, hm.data, hm.obj⟩

/-! ### Editing a node -/

/-- **C44 for AL, an existing node and a reference.**  On every consistent tree without `node_order_by`, for every node, all
new values, every offered reference and position: the node stands at this position relative to the reference, every
other node keeps its place, the new values are stored, and the form's instance is the stored row. -/
theorem C44_al_edit (h : Consistent cfg db) (ho : cfg.orderBy = []) {x t : Row} (hx : x ∈ db.rows) (v : Vals) (ht : t ∈ db.rows)
    (hoff : (forest cfg db).Offered x.pk t.pk) {pos : Pos} (hpos : pos ∈ formPositions false) {ch : Changed} (hc : ch.Touches cfg.orderBy) :
    ∃ p, t.pk ∈ forest cfg db p ∧ ∃ db' obj, formSave (manager cfg) db { x with vals := v } false ch (some t) pos = .ok (db', obj) ∧
      FormDone cfg db' obj x.pk ((forest cfg db).move x.pk (pos.dest p t.pk) (formSlot t.pk pos)) (editData (data db.rows) x.pk v) := by
  have hord : cfg.ordered = false := ordered_false (m := manager cfg) ho
  have hi := h.inv hord
  obtain ⟨he, hF⟩ := edit_plain hord hi hx v
  obtain ⟨p, hp, db', obj, e, hm⟩ := C31_move hord (consistent_of_inv (db := ⟨db.rows.map (edit x v)⟩) hord he) (edit_mem hx v)
    (edit_other ht hoff.1 v) (cached := none) (formPos_prep hpos) ((edit_offered hi.toAI hx v hoff).not_refused pos)
  rw [forest_eq he.toAI, hF, ← forest_eq hi.toAI] at hp hm
  rw [moveAsked_form hoff.1 hpos] at hm
  obtain ⟨h1, h2⟩ := formDone_of hord hm
  rw [edit_data] at h2
  refine ⟨p, hp, db', obj, formSave_ok hc ?_ h1, h2⟩
  rw [formPlace_edit_ref hi.toAI hx, e]

/-- **C44 for AL, an existing node and no reference**: the node becomes the first root, whatever the position field says. -/
theorem C44_al_edit_root (h : Consistent cfg db) (ho : cfg.orderBy = []) {x : Row} (hx : x ∈ db.rows) (v : Vals) (pos : Pos) {ch : Changed}
    (hc : ch.Touches cfg.orderBy) :
    ∃ db' obj, formSave (manager cfg) db { x with vals := v } false ch none pos = .ok (db', obj) ∧
      FormDone cfg db' obj x.pk ((forest cfg db).move x.pk none .first) (editData (data db.rows) x.pk v) := by
  have hord : cfg.ordered = false := ordered_false (m := manager cfg) ho
  have hi := h.inv hord
  obtain ⟨he, hF⟩ := edit_plain hord hi hx v
  obtain ⟨r, hr, er, _, hrr, hrd⟩ := firstRoot_spec (cfg := cfg) (db := ⟨db.rows.map (edit x v)⟩) he.toAI (List.ne_nil_of_mem (edit_mem hx v))
  obtain ⟨p, hp, db', obj, e, hm⟩ := C31_move hord (consistent_of_inv (db := ⟨db.rows.map (edit x v)⟩) hord he) (edit_mem hx v)
    hr (cached := none) (posArg := some .firstSibling) (pos := .firstSibling) (by decide) (by rintro (hd | ⟨hd, _⟩); exacts [hrd _ hd, by cases hd])
  obtain rfl := parent_unique (db := ⟨db.rows.map (edit x v)⟩) he.toAI hrr hp
  rw [forest_eq he.toAI, hF, ← forest_eq hi.toAI] at hm
  have hplace := formPlace_edit_root hi.toAI hx v er pos
  rw [show (manager cfg).ordered = false from hord] at hplace
  simp only [Bool.false_eq_true, if_false] at hplace
  obtain ⟨h1, h2⟩ := formDone_of hord hm
  rw [edit_data] at h2
  exact ⟨db', obj, formSave_ok hc (hplace.trans e) h1, h2⟩

theorem formSave_unchanged (h : AI db.rows) {x : Row} (hx : x ∈ db.rows) (v : Vals) (ref : Option Row) (pos : Pos) {ch : Changed}
    (hc : ¬ ch.Touches cfg.orderBy) :
    formSave (manager cfg) db { x with vals := v } false ch ref pos = .ok (⟨db.rows.map (edit x v)⟩, { x with vals := v }) := by
  exact formSave_untouched hc (show (manager cfg).save db { x with vals := v } = .ok _ from edit_save h hx v)

/-- **C44 for AL, no tree field changed**: only the values are stored. -/
theorem C44_al_unchanged (h : Consistent cfg db) (ho : cfg.orderBy = []) {x : Row} (hx : x ∈ db.rows) (v : Vals) (ref : Option Row) (pos : Pos)
    {ch : Changed} (hc : ¬ ch.Touches cfg.orderBy) :
    ∃ db' obj, formSave (manager cfg) db { x with vals := v } false ch ref pos = .ok (db', obj) ∧
      FormDone cfg db' obj x.pk (forest cfg db) (editData (data db.rows) x.pk v) := by
  have hord : cfg.ordered = false := ordered_false (m := manager cfg) ho
  have hi := h.inv hord
  obtain ⟨he, hF⟩ := edit_plain hord hi hx v
  refine ⟨_, _, formSave_unchanged hi.toAI hx v ref pos hc, consistent_of_inv hord he, ?_, edit_data x v, edit_mem hx v, rfl⟩
  rw [forest_eq (db := ⟨db.rows.map (edit x v)⟩) he.toAI, hF, forest_eq hi.toAI]

/-! ### The same with `node_order_by` -/

theorem formSorted_of {F : Forest} (ho : cfg.ordered = true) {db' : DB} (h : AI db'.rows) {obj : Row} {k : Nat} {p : Option Nat} {D : List (Nat × Vals)}
    (hp : ∀ q j, j ∈ PF cfg db'.rows q ↔ if j = k then q = p else j ∈ F q) (hd : data db'.rows = D) (hobj : obj ∈ db'.rows ∧ obj.pk = k) :
    FormSorted cfg F db' obj k p D := by
  refine ⟨wf_of_ai h, by rw [forest_eq h]; exact hp, hd, hobj, ?_⟩
  intro hn
  refine C16_al_sorted ho (wf_of_ai h) ?_
  intro r hr
  rw [← hd] at hn
  exact hn (r.pk, r.vals) (List.mem_map.2 ⟨r, hr, rfl⟩)

/-- **C44 for AL with `node_order_by`, no tree field changed**: no node gets another parent, and the tree is sorted by the
new values (also if only a descending field changed, unlike in `C44_descending_unsorted`). -/
theorem C44_al_unchanged_sorted (h : Wf cfg db) (ho : cfg.orderBy ≠ []) {x : Row} (hx : x ∈ db.rows) (v : Vals) (ref : Option Row) (pos : Pos)
    {ch : Changed} (hc : ¬ ch.Touches cfg.orderBy) :
    ∃ p, x.pk ∈ forest cfg db p ∧ ∃ db' obj, formSave (manager cfg) db { x with vals := v } false ch ref pos = .ok (db', obj) ∧
      FormSorted cfg (forest cfg db) db' obj x.pk p (editData (data db.rows) x.pk v) := by
  have hord : cfg.ordered = true := ordered_true (m := manager cfg) ho
  refine ⟨x.parent, (mem_forest h.ai hx).2 rfl, _, _, formSave_unchanged h.ai hx v ref pos hc, ?_⟩
  refine formSorted_of hord (edit_ai h.ai hx v) ?_ (edit_data x v) ⟨edit_mem hx v, rfl⟩
  intro q j
  rw [edit_parents h.ai hx, forest_eq h.ai]
  split
  · rename_i e
    rw [e, key_iff h.ai hx]
    exact eq_comm
  · rfl

/-- the rows after a move in the edited table -/
theorem movedRow_edit {db' : DB} {obj x : Row} {v : Vals} {p : Option Nat}
    (hm : MovedRow ⟨db.rows.map (edit x v)⟩ db' obj { x with vals := v } p) : db'.rows = db.rows.map (edit { x with parent := p } v) := by
  rw [hm.rows]
  show (db.rows.map (edit x v)).map _ = _
  rw [List.map_map]
  refine List.map_congr_left (fun r _ => ?_)
  by_cases e : r.pk = x.pk <;> simp [edit, setParent, e]

/-- the values can be told from those of the new siblings: the node stands at their place -/
theorem edit_place (ho : cfg.ordered = true) (h : AInv cfg db.rows) {db' : DB} {obj x : Row} {v : Vals} {p : Option Nat} (hx : x ∈ db.rows)
    (hm : MovedRow ⟨db.rows.map (edit x v)⟩ db' obj { x with vals := v } p)
    (hp : ∀ k, p = some k → (∃ q ∈ db.rows, q.pk = k) ∧ k ≠ x.pk ∧ ¬ (PF cfg db.rows).Desc x.pk k) (hcomp : DistinctAt cfg db x.pk p v) :
    AInv cfg db'.rows ∧ ∃ s, PF cfg db'.rows = (PF cfg db.rows).move x.pk p s := by
  have hrows := movedRow_edit hm
  have hne' : ∀ r ∈ db.rows, r ≠ x → r.pk ≠ x.pk := fun r hr hne e => hne (h.toAI.pk_inj hr hx e)
  have hother : ∀ r ∈ db.rows, r ≠ x → edit { x with parent := p } v r = r := fun r hr hne => by simp [edit, hne' r hr hne]
  have hself : edit { x with parent := p } v x = { x with parent := p, vals := v } := by simp [edit]
  have hpk : ∀ r ∈ db.rows, (edit { x with parent := p } v r).pk = r.pk := by
    intro r hr
    by_cases e : r = x
    · subst e; rw [hself]
    · rw [hother r hr e]
  have hmono : ∀ a ∈ db.rows, ∀ b ∈ db.rows, a ≠ x → b ≠ x → a.parent = b.parent → lt cfg a b →
      lt cfg (edit { x with parent := p } v a) (edit { x with parent := p } v b) := by
    intro a ha b hb hax hbx _ hab
    rw [hother a ha hax, hother b hb hbx]; exact hab
  have hpx : (edit { x with parent := p } v x).parent = p := by rw [hself]
  have hc : ∀ r ∈ db.rows, r ≠ x → r.parent = p → lt cfg r (edit { x with parent := p } v x) ∨ lt cfg (edit { x with parent := p } v x) r := by
    intro r hr hne e
    rw [lt_ordered ho, lt_ordered ho, hself]
    exact hcomp r hr (hne' r hr hne) e
  have h' : AInv cfg (db.rows.map (edit { x with parent := p } v)) := by
    refine ainv_move h hx hpk ?_ ?_ (fun ho' => by rw [ho] at ho'; cases ho') hmono ?_
    · intro r hr hne; rw [hother r hr hne]
    · rw [hpx]; exact hp
    · intro r hr hne e
      rw [hpx] at e
      rw [hother r hr hne]
      exact hc r hr hne e
  obtain ⟨s, hs⟩ := exists_slot (G := edit { x with parent := p } v) (x := x) (R := fun r => r ∈ db.rows ∧ r ≠ x) (p := p) h (fun _ hr => hr.1)
    (fun r hr => hother r hr.1 hr.2) (fun r hr e => hc r hr.1 hr.2 e)
  have hF := forest_move (G := edit { x with parent := p } v) (s := s) h hx hpk (fun r hr hne => by rw [hother r hr hne]) hmono h' (by rw [hpx]; exact hs)
  rw [hpx] at hF
  rw [hrows]
  exact ⟨h', s, hF⟩

/-- what a move in the edited table gives -/
theorem formSorted_edit (ho : cfg.ordered = true) (h : AI db.rows) {db' : DB} {obj x : Row} {v : Vals} {p : Option Nat} (hx : x ∈ db.rows)
    (hm : MovedRow ⟨db.rows.map (edit x v)⟩ db' obj { x with vals := v } p) :
    FormSorted cfg (forest cfg db) db' obj x.pk p (editData (data db.rows) x.pk v) := by
  have hrows := movedRow_edit hm
  refine formSorted_of ho hm.inv ?_ ?_ ⟨hm.mem (edit_mem hx v), by rw [hm.obj]⟩
  · intro q j
    rw [mem_PF, hrows, forest_eq h, mem_PF]
    constructor
    · rintro ⟨r', hr', e1, e2⟩
      obtain ⟨r, hr, rfl⟩ := List.mem_map.1 hr'
      by_cases e : r.pk = x.pk
      · simp only [edit, e, if_true] at e1 e2
        rw [if_pos e2.symm]; exact e1.symm
      · simp only [edit, e, if_false] at e1 e2
        rw [if_neg (by rw [← e2]; exact e)]
        exact ⟨r, hr, e1, e2⟩
    · intro hj
      by_cases e : j = x.pk
      · rw [if_pos e] at hj
        exact ⟨edit { x with parent := p } v x, List.mem_map_of_mem hx, by simp [edit, hj], by simp [edit, e]⟩
      · rw [if_neg e] at hj
        obtain ⟨r, hr, e1, e2⟩ := hj
        refine ⟨edit { x with parent := p } v r, List.mem_map_of_mem hr, ?_, ?_⟩ <;> simp [edit, e2, e, e1]
  · rw [hm.data (edit_ai h hx v) (edit_mem hx v)]
    exact edit_data x v

/-- **C44 for AL with `node_order_by`, an existing node and a reference** (partial: the exact place among its siblings only if
the order fields tell them apart, as `C16_al_ties` shows).  "Child of" and "sibling of" put the node below the reference or its
parent, the tree is sorted by the new values, and every other node keeps its parent, its place and its values. -/
theorem C44_al_edit_sorted_partial (h : Wf cfg db) (ho : cfg.orderBy ≠ []) {x t : Row} (hx : x ∈ db.rows) (v : Vals) (ht : t ∈ db.rows)
    (hoff : (forest cfg db).Offered x.pk t.pk) {pos : Pos} (hpos : pos ∈ formPositions true) {ch : Changed} (hc : ch.Touches cfg.orderBy) :
    ∃ p, t.pk ∈ forest cfg db p ∧ ∃ db' obj, formSave (manager cfg) db { x with vals := v } false ch (some t) pos = .ok (db', obj) ∧
      FormSorted cfg (forest cfg db) db' obj x.pk (pos.dest p t.pk) (editData (data db.rows) x.pk v) ∧
      (NoTies cfg db → DistinctAt cfg db x.pk (pos.dest p t.pk) v →
        NoTies cfg db' ∧ ∃ s, forest cfg db' = (forest cfg db).move x.pk (pos.dest p t.pk) s) := by
  have hord : cfg.ordered = true := ordered_true (m := manager cfg) ho
  have hr := (edit_offered h.ai hx v hoff).not_refused pos
  rw [forest_eq (edit_ai h.ai hx v)] at hr
  obtain ⟨db', obj, e, hm⟩ := move_sorted hord (edit_ai h.ai hx v) (edit_mem hx v) (edit_other ht hoff.1 v) (db := ⟨db.rows.map (edit x v)⟩) (cached := none)
    (formPos_sorted hpos) hr
  have hs := formSorted_edit hord h.ai hx hm
  refine ⟨t.parent, (mem_forest h.ai ht).2 rfl, db', obj, formSave_ok hc ?_ (settled hm.inv hs.obj.1 rfl), hs, ?_⟩
  · rw [formPlace_edit_ref h.ai hx, e]
  · intro hn hd
    have hp : ∀ k, pos.dest t.parent t.pk = some k → (∃ q ∈ db.rows, q.pk = k) ∧ k ≠ x.pk ∧ ¬ (PF cfg db.rows).Desc x.pk k := by
      rw [forest_eq h.ai] at hoff
      unfold Pos.dest
      split
      · intro k ek
        cases ek
        exact ⟨⟨t, ht, rfl⟩, hoff⟩
      · exact parent_ok h.ai ht hoff.2
    obtain ⟨h1, s, h2⟩ := edit_place hord (inv_of_noTies hord h hn) hx hm hp hd
    refine ⟨noTies_of_inv hord h1, s, ?_⟩
    rw [forest_eq h1.toAI, forest_eq h.ai, h2]

/-- **C44 for AL with `node_order_by`, an existing node and no reference** (partial in the same way): it becomes a root. -/
theorem C44_al_edit_root_sorted_partial (h : Wf cfg db) (ho : cfg.orderBy ≠ []) {x : Row} (hx : x ∈ db.rows) (v : Vals) (pos : Pos)
    {ch : Changed} (hc : ch.Touches cfg.orderBy) :
    ∃ db' obj, formSave (manager cfg) db { x with vals := v } false ch none pos = .ok (db', obj) ∧
      FormSorted cfg (forest cfg db) db' obj x.pk none (editData (data db.rows) x.pk v) ∧
      (NoTies cfg db → DistinctAt cfg db x.pk none v → NoTies cfg db' ∧ ∃ s, forest cfg db' = (forest cfg db).move x.pk none s) := by
  have hord : cfg.ordered = true := ordered_true (m := manager cfg) ho
  have hea := edit_ai h.ai hx v
  obtain ⟨r, hr, er, hrp, hrr, hrd⟩ := firstRoot_spec (cfg := cfg) (db := ⟨db.rows.map (edit x v)⟩) hea (List.ne_nil_of_mem (edit_mem hx v))
  rw [forest_eq hea] at hrd
  obtain ⟨db', obj, e, hm⟩ := move_sorted hord hea (edit_mem hx v) hr (db := ⟨db.rows.map (edit x v)⟩) (cached := none)
    (posArg := some .sortedSibling) (pos := .sortedSibling) (by decide) (by rintro (hd | ⟨hd, _⟩); exacts [hrd _ hd, by cases hd])
  rw [show Pos.dest r.parent r.pk .sortedSibling = none from hrp] at hm
  have hs := formSorted_edit hord h.ai hx hm
  have hplace := formPlace_edit_root h.ai hx v er pos
  rw [show (manager cfg).ordered = true from hord] at hplace
  simp only [if_true] at hplace
  refine ⟨db', obj, formSave_ok hc (hplace.trans e) (settled hm.inv hs.obj.1 rfl), hs, ?_⟩
  intro hn hd
  obtain ⟨h1, s, h2⟩ := edit_place hord (inv_of_noTies hord h hn) hx hm (by rintro k ⟨⟩) hd
  refine ⟨noTies_of_inv hord h1, s, ?_⟩
  rw [forest_eq h1.toAI, forest_eq h.ai, h2]

/-! ### Adding a node -/

theorem formPlace_add_ref {db₁ : DB} {t new obj : Row} {c : Option Int} (e : addChild cfg db t none new = .ok (db₁, obj, c)) (pos : Pos) :
    formPlace (manager cfg) db new true (some t) pos = move cfg db₁ obj t none (some pos) := by
  unfold formPlace
  simp only [if_true]
  rw [show (manager cfg).addChild db t new = .ok (db₁, obj, t) by show (addChild cfg db t none new).map _ = _; rw [e]; rfl]
  rfl

theorem formPlace_add_root (db : DB) (new : Row) (pos : Pos) : formPlace (manager cfg) db new true none pos = addRoot cfg db new := rfl

theorem addChild_keeps {t new : Row} (hf : Fresh db new) (ht : t ∈ db.rows) {db₁ : DB} {obj : Row} {c : Option Int}
    (e : addChild cfg db t none new = .ok (db₁, obj, c)) : t ∈ db₁.rows := by
  unfold addChild at e
  simp only at e
  split at e
  · cases e
  · rename_i db₂ es
    injection e with e; injection e with e1 e
    subst e1
    rw [save_new] at es
    · injection es with es
      rw [← es]
      exact List.mem_append_left _ ht
    · intro r hr; split <;> exact hf r hr
    · intro p ep
      injection ep with ep
      exact ⟨t, ht, ep⟩

/-- **C44 for AL, a new node and a reference.**  For every consistent tree without `node_order_by`: the new node stands at
this position relative to the reference, all others keep their places. -/
theorem C44_al_add (h : Consistent cfg db) (ho : cfg.orderBy = []) {t new : Row} (ht : t ∈ db.rows) (hf : Fresh db new)
    {pos : Pos} (hpos : pos ∈ formPositions false) {ch : Changed} (hc : ch.Touches cfg.orderBy) :
    ∃ p, t.pk ∈ forest cfg db p ∧ ∃ db' obj, formSave (manager cfg) db new true ch (some t) pos = .ok (db', obj) ∧
      FormDone cfg db' obj new.pk ((forest cfg db).put (pos.dest p t.pk) (formSlot t.pk pos) new.pk) (data db.rows ++ [(new.pk, new.vals)]) := by
  have hord : cfg.ordered = false := ordered_false (m := manager cfg) ho
  have hi := h.inv hord
  obtain ⟨db₁, obj, c, e, ha⟩ := C31_add_child hord h ht rfl (cached := none) hf
  have ht1 := addChild_keeps hf ht e
  have hi1 := ha.consistent.inv hord
  have hfk : new.pk ∉ (data db.rows).map Prod.fst := by
    rw [data_keys]
    intro hm
    obtain ⟨r, hr, e⟩ := List.mem_map.1 hm
    exact hf r hr e
  have hno : ∀ q, new.pk ∉ forest cfg db q := by
    intro q hm
    rw [forest_eq hi.toAI] at hm
    obtain ⟨r, hr, _, e⟩ := mem_PF.1 hm
    exact hf r hr e
  have hoff : (forest cfg db₁).Offered obj.pk t.pk := by
    rw [ha.forest, ha.obj.2]
    exact offered_new ((isForestOn hi.toAI).outside _ hfk) (hf t ht) _ _ (by intro e; exact hf t ht (Option.some.inj e))
  obtain ⟨p, hp, db', obj', e', hm⟩ := C31_move hord ha.consistent ha.obj.1 ht1 (cached := none) (formPos_prep hpos) (hoff.not_refused pos)
  have hpp : p = t.parent := parent_unique (cfg := cfg) hi1.toAI hp ((mem_forest hi1.toAI ht1).2 rfl)
  subst hpp
  rw [moveAsked_form hoff.1 hpos, ha.forest, ha.obj.2, put_move hno] at hm
  obtain ⟨h1, h2⟩ := formDone_of hord hm
  rw [ha.data, ha.obj.2] at h2
  refine ⟨_, (mem_forest hi.toAI ht).2 rfl, db', obj', formSave_ok hc ?_ h1, h2⟩
  rw [formPlace_add_ref e, e']

/-- **C44 for AL, a new node and no reference**: it becomes the last root. -/
theorem C44_al_add_root (h : Consistent cfg db) (ho : cfg.orderBy = []) {new : Row} (hf : Fresh db new) (hn : new.parent = none) (pos : Pos)
    {ch : Changed} (hc : ch.Touches cfg.orderBy) :
    ∃ db' obj, formSave (manager cfg) db new true ch none pos = .ok (db', obj) ∧
      FormDone cfg db' obj new.pk ((forest cfg db).put none .last new.pk) (data db.rows ++ [(new.pk, new.vals)]) := by
  have hord : cfg.ordered = false := ordered_false (m := manager cfg) ho
  obtain ⟨db₁, obj, e, ha⟩ := C31_add_root hord h hf hn
  exact ⟨db₁, obj, formSave_ok hc ((formPlace_add_root db new pos).trans e) (settled (ha.consistent.inv hord).toAI ha.obj.1 rfl),
    ha.consistent, ha.forest, ha.data, ha.obj⟩

/-- what an addition gives -/
theorem formSorted_add (ho : cfg.ordered = true) (h : AI db.rows) {db' : DB} {obj new : Row} {p : Option Nat} (hf : Fresh db new)
    (ha : AddedRow db db' obj new p) :
    FormSorted cfg (forest cfg db) db' obj new.pk p (data db.rows ++ [(new.pk, new.vals)]) ∧
    (NoTies cfg db → DistinctAt cfg db new.pk p new.vals → NoTies cfg db' ∧ ∃ s, forest cfg db' = (forest cfg db).put p s new.pk) := by
  constructor
  · refine formSorted_of ho ha.inv ?_ ha.data ⟨by rw [ha.rows]; simp, ha.obj.1⟩
    intro q j
    rw [mem_PF, ha.rows, forest_eq h, mem_PF]
    simp only [List.mem_append, List.mem_singleton]
    constructor
    · rintro ⟨r, hr | rfl, e1, e2⟩
      · rw [if_neg (by rw [← e2]; exact hf r hr)]
        exact ⟨r, hr, e1, e2⟩
      · rw [if_pos (by rw [← e2, ha.obj.1]), ← e1, ha.obj.2.2]
    · intro hj
      split at hj
      · exact ⟨obj, Or.inr rfl, by rw [ha.obj.2.2, hj], by rw [ha.obj.1]; rename_i e; exact e.symm⟩
      · obtain ⟨r, hr, e1, e2⟩ := hj
        exact ⟨r, Or.inl hr, e1, e2⟩
  · intro hn hd
    obtain ⟨h1, s, h2⟩ := ha.place ho (inv_of_noTies ho (wf_of_ai h) hn) hf (fun r hr e => hd r hr (hf r hr) e)
    refine ⟨noTies_of_inv ho h1, s, ?_⟩
    rw [forest_eq h1.toAI, forest_eq h, h2]

/-- **C44 for AL with `node_order_by`, a new node and no reference** (partial in the same way): it becomes a root. -/
theorem C44_al_add_root_sorted_partial (h : Wf cfg db) (ho : cfg.orderBy ≠ []) {new : Row} (hf : Fresh db new) (hn : new.parent = none) (pos : Pos)
    {ch : Changed} (hc : ch.Touches cfg.orderBy) :
    ∃ db' obj, formSave (manager cfg) db new true ch none pos = .ok (db', obj) ∧
      FormSorted cfg (forest cfg db) db' obj new.pk none (data db.rows ++ [(new.pk, new.vals)]) ∧
      (NoTies cfg db → DistinctAt cfg db new.pk none new.vals → NoTies cfg db' ∧ ∃ s, forest cfg db' = (forest cfg db).put none s new.pk) := by
  have hord : cfg.ordered = true := ordered_true (m := manager cfg) ho
  obtain ⟨db', obj, e, ha⟩ := addRoot_sorted hord h.ai hf hn
  obtain ⟨h1, h2⟩ := formSorted_add hord h.ai hf ha
  exact ⟨db', obj, formSave_ok hc ((formPlace_add_root db new pos).trans e) (settled ha.inv h1.obj.1 rfl), h1, h2⟩

/-- **C44 for AL with `node_order_by`, a new node and a reference** (partial in the same way): it is below the reference or
its parent, at its sorted place. -/
theorem C44_al_add_sorted_partial (h : Wf cfg db) (ho : cfg.orderBy ≠ []) {t new : Row} (ht : t ∈ db.rows) (hf : Fresh db new)
    {pos : Pos} (hpos : pos ∈ formPositions true) {ch : Changed} (hc : ch.Touches cfg.orderBy) :
    ∃ p, t.pk ∈ forest cfg db p ∧ ∃ db' obj, formSave (manager cfg) db new true ch (some t) pos = .ok (db', obj) ∧
      FormSorted cfg (forest cfg db) db' obj new.pk (pos.dest p t.pk) (data db.rows ++ [(new.pk, new.vals)]) ∧
      (NoTies cfg db → DistinctAt cfg db new.pk (pos.dest p t.pk) new.vals →
        NoTies cfg db' ∧ ∃ s, forest cfg db' = (forest cfg db).put (pos.dest p t.pk) s new.pk) := by
  have hord : cfg.ordered = true := ordered_true (m := manager cfg) ho
  obtain ⟨db₁, obj, c, e, ha⟩ := addChild_sorted hord h.ai ht rfl (cached := none) hf
  have ht1 := addChild_keeps hf ht e
  have hobj : obj ∈ db₁.rows := by rw [ha.rows]; simp
  have hnd : ∀ d, ¬ (PF cfg db₁.rows).Desc obj.pk d := by
    intro d hd
    have hnil : ∀ k, k ∉ PF cfg db₁.rows (some obj.pk) := by
      intro k hk
      obtain ⟨r, hr, e1, _⟩ := mem_PF.1 hk
      rw [ha.rows, List.mem_append, List.mem_singleton] at hr
      rcases hr with hr | rfl
      · obtain ⟨q, hq, eq⟩ := h.ai.exist r hr _ e1
        exact hf q hq (by rw [eq, ha.obj.1])
      · rw [ha.obj.2.2] at e1
        injection e1 with e1
        exact hf t ht (by rw [e1, ha.obj.1])
    generalize obj.pk = k at hd hnil
    induction hd with
    | child hc => exact hnil _ hc
    | step _ _ ih => exact ih
  have hne : t.pk ≠ obj.pk := by rw [ha.obj.1]; exact hf t ht
  obtain ⟨db', obj', e', hm⟩ := move_sorted hord ha.inv hobj ht1 (cached := none) (formPos_sorted hpos)
    (by rintro (hd | ⟨_, hd⟩); exacts [hnd _ hd, hne hd])
  have ha' : AddedRow db db' obj' new (pos.dest t.parent t.pk) := by
    refine ⟨?_, hm.inv, by rw [hm.obj]; exact ⟨ha.obj.1, ha.obj.2.1, rfl⟩⟩
    rw [hm.rows, ha.rows, List.map_append]
    congr 1
    · conv_rhs => rw [← List.map_id db.rows]
      refine List.map_congr_left (fun r hr => ?_)
      have : r.pk ≠ obj.pk := by rw [ha.obj.1]; exact hf r hr
      simp [setParent, this]
    · simp [setParent, hm.obj]
  obtain ⟨h1, h2⟩ := formSorted_add hord h.ai hf ha'
  refine ⟨t.parent, (mem_forest h.ai ht).2 rfl, db', obj', formSave_ok hc ?_ (settled hm.inv h1.obj.1 rfl), h1, h2⟩
  rw [formPlace_add_ref e, e']

/-! ### What the form shows and offers -/

/-- **C44 for AL, the initial values**, without `node_order_by`: the form can always be built, and it shows where the node
is. -/
theorem C44_al_initial (h : Consistent cfg db) (ho : cfg.orderBy = []) {x : Row} (hx : x ∈ db.rows) :
    ∃ ref pos, formInitial false (alNav cfg db x) = .ok (ref, pos) ∧ pos ∈ formPositions false ∧ (forest cfg db).ShowsPlace x.pk ref pos := by
  have hord : cfg.ordered = false := ordered_false (m := manager cfg) ho
  exact formInitial_shows (C32_nav hord h hx) (fun _ _ h1 h2 => parent_unique (h.inv hord).toAI h1 h2) false

/-- **C44 for AL, the initial values**, with `node_order_by`. -/
theorem C44_al_initial_sorted (h : Wf cfg db) {x : Row} (hx : x ∈ db.rows) :
    ∃ ref pos, formInitial true (alNav cfg db x) = .ok (ref, pos) ∧ pos ∈ formPositions true ∧ (forest cfg db).ShowsPlace x.pk ref pos := by
  obtain ⟨prev, next, hn⟩ := C32_nav_partial h hx
  exact formInitial_shows hn (fun _ _ h1 h2 => parent_unique h.ai h1 h2) true

/-- **C44 for AL, the offered references**: the form lists exactly the nodes outside the branch of the instance, and every
node for a new instance. -/
theorem C44_al_offered (h : Wf cfg db) :
    ∃ all, getTree cfg db none none = .ok all ∧
    (∀ x ∈ db.rows, ∃ below, descendants cfg db x none true none = .ok below ∧
      ∀ k, k ∈ formRefs (all.map (fun e => e.1.pk)) (below.map (fun e => e.1.pk)) ↔ k ∈ db.rows.map Row.pk ∧ (forest cfg db).Offered x.pk k) ∧
    ∀ k, k ∈ formRefs (all.map (fun e => e.1.pk)) [] ↔ k ∈ db.rows.map Row.pk := by
  have hF := isForestOn (cfg := cfg) h.ai
  rw [data_keys] at hF
  obtain ⟨all, e, hall, _⟩ := C11_al h (p := none) (by simp) none (by simp)
  refine ⟨all, e, fun x hx => ?_, fun k => formRefs_add hF hall k⟩
  obtain ⟨below, e', hb, _⟩ := C11_al h (p := some x) (by rintro q e; cases e; exact hx) none (by simp)
  refine ⟨below, ?_, fun k => formRefs_edit hF hall hb k⟩
  unfold descendants
  rw [show getTree cfg db (some (x, none)) none = .ok below from e']
  rfl

/-- **C44 fails for AL when the reference is in the branch of the instance.**  The form does not list such a node, but it
accepts one (forms.py:115-118: the field's query set is all nodes), and `save` raises InvalidMoveToDescendant on every
tree. -/
theorem C44_al_accepts_branch (h : Wf cfg db) {x t : Row} (hx : x ∈ db.rows) (v : Vals) (hd : (forest cfg db).Desc x.pk t.pk)
    {pos : Pos} (hpos : pos ∈ formPositions cfg.ordered) {ch : Changed} (hc : ch.Touches cfg.orderBy) :
    formSave (manager cfg) db { x with vals := v } false ch (some t) pos = .error .invalidMoveToDescendant := by
  refine formSave_error hc ?_
  rw [formPlace_edit_ref h.ai hx]
  refine C08_al (db := ⟨db.rows.map (edit x v)⟩) (wf_of_ai (edit_ai h.ai hx v)) (edit_mem hx v) (pos := pos) ?_ (Or.inl ?_)
  · cases ho : cfg.ordered with
    | true => rw [ho] at hpos; exact formPos_sorted hpos
    | false => rw [ho] at hpos; exact formPos_prep hpos
  · rw [forest_eq (edit_ai h.ai hx v)]
    rw [forest_eq h.ai] at hd
    exact desc_parents (fun q k hk => (edit_parents h.ai hx v q k).2 hk) hd

/-! ### The admin's drag and drop -/

/-- **C52 for AL.**  Dragging a node onto another makes it the last child of the other, or puts it immediately to its left;
below itself it is refused. -/
theorem C52_al (h : Consistent cfg db) (ho : cfg.orderBy = []) {x t : Row} (hx : x ∈ db.rows) (ht : t ∈ db.rows) (child : Bool) :
    ∃ p, t.pk ∈ forest cfg db p ∧
      ((forest cfg db).MoveRefused x.pk t.pk (adminPos child false) →
        adminMove (manager cfg) db x t child = .error .invalidMoveToDescendant) ∧
      (¬ (forest cfg db).MoveRefused x.pk t.pk (adminPos child false) →
        ∃ db' obj, adminMove (manager cfg) db x t child = .ok (db', obj) ∧
          FormDone cfg db' obj x.pk (if child then (forest cfg db).move x.pk (some t.pk) .last
            else if t.pk = x.pk then forest cfg db else (forest cfg db).move x.pk p (.before t.pk)) (data db.rows)) := by
  have hord : (manager cfg).ordered = false := ordered_false ho
  have hord' : cfg.ordered = false := hord
  have hi := h.inv hord'
  have hprep : preparePosForMove false (some (adminPos child false)) = .ok (adminPos child false) := by cases child <;> decide
  refine ⟨t.parent, (mem_forest hi.toAI ht).2 rfl, ?_, ?_⟩
  · intro hr
    refine adminMove_error ?_
    rw [hord]
    exact C08_al h.toWf hx (by rw [hord']; exact hprep) hr
  · intro hr
    obtain ⟨p, hp, db', obj, e, hm⟩ := C31_move hord' h hx ht (cached := none) hprep hr
    obtain rfl := parent_unique hi.toAI hp ((mem_forest hi.toAI ht).2 rfl)
    have hF : (forest cfg db).moveAsked x.pk t.parent t.pk (adminPos child false) =
      if child then (forest cfg db).move x.pk (some t.pk) .last
        else if t.pk = x.pk then forest cfg db else (forest cfg db).move x.pk t.parent (.before t.pk) := by cases child <;> rfl
    rw [hF] at hm
    obtain ⟨h1, h2⟩ := formDone_of hord' hm
    refine ⟨db', obj, adminMove_ok (obj := obj) ?_ h1, h2⟩
    rw [hord]
    exact e

/-- **C52 for AL with `node_order_by`** (partial: the exact place only if the order fields tell the siblings apart): the node
goes below the other or its parent. -/
theorem C52_al_sorted_partial (h : Wf cfg db) (ho : cfg.orderBy ≠ []) {x t : Row} (hx : x ∈ db.rows) (ht : t ∈ db.rows) (child : Bool) :
    ∃ p, t.pk ∈ forest cfg db p ∧
      ((forest cfg db).MoveRefused x.pk t.pk (adminPos child true) → adminMove (manager cfg) db x t child = .error .invalidMoveToDescendant) ∧
      (¬ (forest cfg db).MoveRefused x.pk t.pk (adminPos child true) →
        ∃ db' obj, adminMove (manager cfg) db x t child = .ok (db', obj) ∧
          FormSorted cfg (forest cfg db) db' obj x.pk (if child then some t.pk else p) (data db.rows) ∧
          (NoTies cfg db → DistinctAt cfg db x.pk (if child then some t.pk else p) x.vals →
            NoTies cfg db' ∧ ∃ s, forest cfg db' = (forest cfg db).move x.pk (if child then some t.pk else p) s)) := by
  have hord : (manager cfg).ordered = true := ordered_true ho
  have hprep : preparePosForMove true (some (adminPos child true)) = .ok (adminPos child true) := by cases child <;> decide
  refine ⟨t.parent, (mem_forest h.ai ht).2 rfl, ?_, ?_⟩
  · intro hr
    refine adminMove_error ?_
    rw [hord]
    exact C08_al h hx (by rw [show cfg.ordered = true from hord]; exact hprep) hr
  · intro hr
    obtain ⟨p, hp, db', obj, e, hm⟩ := C16_al_move_partial hord h hx ht (cached := none) hprep hr
    obtain rfl := parent_unique h.ai hp ((mem_forest h.ai ht).2 rfl)
    have hd : (adminPos child true).dest t.parent t.pk = if child then some t.pk else t.parent := by cases child <;> rfl
    rw [hd] at hm
    have hs : FormSorted cfg (forest cfg db) db' obj x.pk (if child then some t.pk else t.parent) (data db.rows) := by
      refine formSorted_of hord hm.wf.ai ?_ hm.data ⟨hm.obj.2, by rw [hm.obj.1]⟩
      intro q j
      rw [mem_PF, hm.rows, forest_eq h.ai, mem_PF]
      constructor
      · rintro ⟨r', hr', e1, e2⟩
        obtain ⟨r, hr, rfl⟩ := List.mem_map.1 hr'
        by_cases e : r.pk = x.pk
        · simp only [e, if_true] at e1 e2
          rw [if_pos e2.symm]; exact e1.symm
        · simp only [e, if_false] at e1 e2
          rw [if_neg (by rw [← e2]; exact e)]
          exact ⟨r, hr, e1, e2⟩
      · intro hj
        by_cases e : j = x.pk
        · rw [if_pos e] at hj
          exact ⟨_, List.mem_map_of_mem hx, by simp [hj], by simp [e]⟩
        · rw [if_neg e] at hj
          obtain ⟨r, hr, e1, e2⟩ := hj
          refine ⟨_, List.mem_map_of_mem hr, ?_, ?_⟩ <;> simp [e2, e, e1]
    refine ⟨db', obj, adminMove_ok (obj := obj) ?_ (settled hm.wf.ai hs.obj.1 rfl), hs, ?_⟩
    · rw [hord]; exact e
    · intro hn hdis
      obtain ⟨h1, h2, _⟩ := hm.place hn (fun r hr hne e => hdis r hr (fun e' => hne (h.ai.pk_inj hr hx e')) e)
      exact ⟨h1, h2⟩

/-! ### Examples -/

/-- The hypotheses of the theorems above are met.  `exDB`: 1 has the children 2, 3, and 3 has the child 4; 5 is a root. -/
example : Consistent exPlain exDB ∧ (forest exPlain exDB).Offered 4 2 ∧ (forest exPlain exDB).Desc 1 4 ∧
    (∃ db' obj, formSave (manager exPlain) exDB ⟨4, some 3, 1, [some 7]⟩ false ⟨true, true, []⟩ (some ⟨2, some 1, 1, []⟩) .right = .ok (db', obj) ∧
      forest exPlain db' (some 1) = [2, 4, 3] ∧ obj = ⟨4, some 1, 2, [some 7]⟩) ∧
    (∃ db' obj, formSave (manager exPlain) exDB ⟨4, some 3, 1, []⟩ false ⟨true, true, []⟩ none .right = .ok (db', obj) ∧
      forest exPlain db' none = [4, 1, 5]) ∧
    (∃ db' obj, formSave (manager exPlain) exDB ⟨9, none, 0, []⟩ true ⟨true, true, []⟩ (some ⟨3, some 1, 4, []⟩) .left = .ok (db', obj) ∧
      forest exPlain db' (some 1) = [2, 9, 3]) ∧
    (∃ db' obj, adminMove (manager exPlain) exDB ⟨4, some 3, 1, []⟩ ⟨1, none, 2, []⟩ true = .ok (db', obj) ∧
      forest exPlain db' (some 1) = [2, 3, 4]) ∧
    formInitial false (alNav exPlain exDB ⟨3, some 1, 4, []⟩) = .ok (some 2, .right) := by
  refine ⟨consistent_of_inv rfl exDB_inv, ⟨by decide, ?_⟩, .step (.child (d := 3) (by decide)) (by decide), ⟨_, _, rfl, by decide, by decide⟩,
    ⟨_, _, rfl, by decide⟩, ⟨_, _, rfl, by decide⟩, ⟨_, _, rfl, by decide⟩, by decide⟩
  intro hd
  rw [forest_eq exDB_inv.toAI] at hd
  obtain ⟨c, hc, _⟩ := hd.cases_head
  obtain ⟨r, hr, e, _⟩ := mem_PF.1 hc
  exact absurd e ((by decide : ∀ r ∈ exDB.rows, r.parent ≠ some 4) r hr)

/-- with `node_order_by`: the children of 1 have the values 1, 4, 7.  Node 5 gets the value 6 and goes between 4 and 7. -/
example : Wf exSorted exSDB ∧ NoTies exSorted exSDB ∧ DistinctAt exSorted exSDB 5 (some 1) [some 6] ∧
    ∃ db' obj, formSave (manager exSorted) exSDB ⟨5, none, 0, [some 6]⟩ false ⟨true, true, [0]⟩ (some ⟨2, some 1, 0, [some 1]⟩) .sortedSibling = .ok (db', obj) ∧
      forest exSorted db' (some 1) = [2, 3, 5, 4] ∧ forest exSorted db' none = [1] := by
  refine ⟨wf_of_ai exSDB_inv.toAI, noTies_of_inv rfl exSDB_inv, ?_, _, _, rfl, by decide, by decide⟩
  intro r hr _ hp
  rw [← keyLtB_iff, ← keyLtB_iff]
  revert hp
  revert r
  decide

end Verif.AL
