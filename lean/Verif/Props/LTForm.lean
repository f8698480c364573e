/-
C44 and C52 for LT: the move form and the drag and drop of the admin.
-/
import Verif.FormLemmas
import Verif.NearForest
import Verif.LT.Dump
import Verif.LT.History

namespace Verif.LT

variable {cfg : Cfg} {db : DB}

/-- the form's view of an LT manager; `add_child` and `move` do not touch their target -/
def manager (cfg : Cfg) : Manager DB Row where
  orderBy := cfg.orderBy
  addRoot := addRoot cfg
  addChild := fun db t new => (addChild cfg db t new).map (fun res => (res.1, res.2, t))
  move := fun db x t pos => move cfg db x t (some pos)
  save := fun db x => .ok (save db x)
  refresh := fun db x => match db.get? x.pk with
    | none => .error .doesNotExist
    | some r => .ok r
  firstRoot := firstRootNode

/-! ### Vocabulary -/

/-- After saving the form: the table is consistent, its forest is `F`, its data are `D` and the form's instance is the
stored row of the node `k`. -/
structure FormDone (db' : DB) (obj : Row) (k : Nat) (F : Forest) (D : List (Nat × Vals)) : Prop where
  consistent : Consistent db'
  forest : forest db' = F
  data : data db'.rows = D
  obj : obj ∈ db'.rows ∧ obj.pk = k

/-- The same, except that the siblings to the right of the node `k` below `p` may have changed places. -/
structure FormNear (db' : DB) (obj : Row) (k : Nat) (F : Forest) (p : Option Nat) (D : List (Nat × Vals)) : Prop where
  consistent : Consistent db'
  near : F.UpToRight (LT.forest db') p k
  data : data db'.rows = D
  obj : obj ∈ db'.rows ∧ obj.pk = k

/-- The same, except that siblings may have changed places: every node has the parent it has in `F`. -/
structure FormBelow (db' : DB) (obj : Row) (k : Nat) (F : Forest) (D : List (Nat × Vals)) : Prop where
  consistent : Consistent db'
  near : F.Near (LT.forest db')
  data : data db'.rows = D
  obj : obj ∈ db'.rows ∧ obj.pk = k

/-- With `node_order_by`: the whole tree is sorted and the node stands at its sorted place below `p`. -/
structure FormSorted (cfg : Cfg) (db' : DB) (k : Nat) (p : Option Nat) : Prop where
  tree : SortedTree cfg db'
  place : (forest db').SortedAt cfg.orderBy (valsIn (data db'.rows)) p k

/-! ### Storing the new values -/

/-- the new row, where a row with the same key is -/
def edit (x : Row) (v : Vals) (r : Row) : Row := if r.pk = x.pk then { x with vals := v } else r

/-- the table after `instance.save()` -/
def edited (db : DB) (x : Row) (v : Vals) : DB := { db with rows := db.rows.map (edit x v) }

theorem edit_same (h : PI db.rows) {x : Row} (hx : x ∈ db.rows) (v : Vals) {r : Row} (hr : r ∈ db.rows) :
    edit x v r = { r with vals := (edit x v r).vals } := by
  unfold edit
  by_cases e : r.pk = x.pk
  · rw [h.pk_inj hr hx e]; simp
  · simp [e]

theorem edit_save {x : Row} (hx : x ∈ db.rows) (v : Vals) : save db { x with vals := v } = edited db x v := by
  unfold save edited
  have hany : db.rows.any (·.pk == ({ x with vals := v } : Row).pk) = true := List.any_eq_true.2 ⟨x, hx, by simp⟩
  simp only [hany, if_true, beq_iff_eq]
  rfl

theorem edit_inv (h : Inv db.rows) {x : Row} (hx : x ∈ db.rows) (v : Vals) : Inv (edited db x v).rows := by
  have hs := fun r hr => edit_same h.inv hx v (r := r) hr
  have hpk : ∀ r ∈ db.rows, (edit x v r).pk = r.pk := fun r hr => by rw [hs r hr]
  have hpa : ∀ r ∈ db.rows, (edit x v r).path = r.path := fun r hr => by rw [hs r hr]
  have hc := consistent_iff.2 h
  refine (consistent_iff (db := edited db x v)).1 ⟨?_, ?_, ?_, ?_⟩
  · show ((db.rows.map (edit x v)).map Row.pk).Nodup
    rw [List.map_map, show db.rows.map (Row.pk ∘ edit x v) = db.rows.map Row.pk from List.map_congr_left hpk]
    exact hc.pks
  · show ((db.rows.map (edit x v)).map Row.path).Nodup
    rw [List.map_map, show db.rows.map (Row.path ∘ edit x v) = db.rows.map Row.path from List.map_congr_left hpa]
    exact hc.paths
  · intro r' hr'
    obtain ⟨r, hr, rfl⟩ := List.mem_map.1 hr'
    rw [hpa r hr]; exact hc.labels r hr
  · intro r' hr' hl
    obtain ⟨r, hr, rfl⟩ := List.mem_map.1 hr'
    rw [hpa r hr] at hl
    obtain ⟨q, hq, l, e⟩ := hc.parents r hr hl
    exact ⟨edit x v q, List.mem_map_of_mem hq, l, by rw [hpa r hr, hpa q hq]; exact e⟩

theorem edit_par (h : Inv db.rows) {x : Row} (hx : x ∈ db.rows) (v : Vals) {r : Row} (hr : r ∈ db.rows) :
    par (edited db x v).rows (edit x v r) = par db.rows r := by
  have hs := fun r hr => edit_same h.inv hx v (r := r) hr
  have hpa : ∀ r ∈ db.rows, (edit x v r).path = r.path := fun r hr => by rw [hs r hr]
  have hi := edit_inv h hx v
  have hr' : edit x v r ∈ (edited db x v).rows := List.mem_map_of_mem hr
  rcases IsPar.drop h.inv hr with e | ⟨q, hq, e⟩
  · rw [(par_eq_none h.inv hr).2 e, (par_eq_none hi.inv hr').2 (by rw [hpa r hr]; exact e)]
  · rw [(par_eq_some h.inv hq).2 e.symm,
      (par_eq_some hi.inv (List.mem_map_of_mem hq)).2 (by rw [hpa r hr, hpa q hq]; exact e.symm), hs q hq]

theorem edit_forest (h : Inv db.rows) {x : Row} (hx : x ∈ db.rows) (v : Vals) : forest (edited db x v) = forest db := by
  have hs := fun r hr => edit_same h.inv hx v (r := r) hr
  have hi := edit_inv h hx v
  have h1 := shows_forest h.inv
  have h2 := shows_forest hi.inv
  funext p
  obtain ⟨l, e, hl, hm⟩ := h1.lists p
  obtain ⟨l', e', hl', hm'⟩ := h2.lists p
  have : l' = l.map (edit x v) := by
    refine sorted_unique (T := fun _ => True) (lt := fun a b : Row => a.path < b.path) (fun _ _ _ _ hab => plt_asymm hab)
      (fun _ _ => trivial) hl' ?_ ?_
    · rw [List.pairwise_map]
      refine hl.imp_of_mem ?_
      intro a b ha hb hab
      rw [hs a ((hm a).1 ha).1, hs b ((hm b).1 hb).1]; exact hab
    · intro r'
      rw [hm', List.mem_map]
      constructor
      · rintro ⟨hr', ep⟩
        obtain ⟨r, hr, rfl⟩ := List.mem_map.1 hr'
        rw [edit_par h hx v hr] at ep
        exact ⟨r, (hm r).2 ⟨hr, ep⟩, rfl⟩
      · rintro ⟨r, hr, rfl⟩
        obtain ⟨hr, ep⟩ := (hm r).1 hr
        exact ⟨List.mem_map_of_mem hr, by rw [edit_par h hx v hr]; exact ep⟩
  rw [e, e', this, List.map_map]
  exact List.map_congr_left (fun r hr => by show (edit x v r).pk = r.pk; rw [hs r ((hm r).1 hr).1])

theorem edit_data (x : Row) (v : Vals) : data (edited db x v).rows = editData (data db.rows) x.pk v := by
  unfold data editData edited
  rw [List.map_map, List.map_map]
  refine List.map_congr_left (fun r hr => ?_)
  unfold edit
  by_cases e : r.pk = x.pk <;> simp [e]

theorem edit_mem {x : Row} (hx : x ∈ db.rows) (v : Vals) : { x with vals := v } ∈ (edited db x v).rows :=
  List.mem_map.2 ⟨x, hx, by simp [edit]⟩

theorem edit_other {x t : Row} (ht : t ∈ db.rows) (hne : t.pk ≠ x.pk) (v : Vals) : t ∈ (edited db x v).rows :=
  List.mem_map.2 ⟨t, ht, by simp [edit, hne]⟩

/-- the rows of the edited table are the old ones, but for the values -/
theorem edit_old (h : Inv db.rows) {x : Row} (hx : x ∈ db.rows) {v : Vals} {r : Row} (hr : r ∈ (edited db x v).rows) :
    ∃ r₀ ∈ db.rows, r₀.pk = r.pk ∧ r₀.path = r.path := by
  obtain ⟨r₀, hr₀, rfl⟩ := List.mem_map.1 hr
  exact ⟨r₀, hr₀, by rw [edit_same h.inv hx v hr₀], by rw [edit_same h.inv hx v hr₀]⟩

theorem edit_tidy (h : Inv db.rows) {x : Row} (hx : x ∈ db.rows) (v : Vals) {p : Option Nat} (ht : TidyLabels db p) :
    TidyLabels (edited db x v) p := by
  intro r hr q hq hrp hqp c t e
  rw [edit_forest h hx] at hrp hqp
  obtain ⟨r₀, hr₀, e1, e2⟩ := edit_old h hx hr
  obtain ⟨q₀, hq₀, e3, e4⟩ := edit_old h hx hq
  exact ht r₀ hr₀ q₀ hq₀ (by rw [e1]; exact hrp) (by rw [e3]; exact hqp) c t (by rw [e2, e4]; exact e)

theorem edit_full (h : Inv db.rows) {x : Row} (hx : x ∈ db.rows) {v : Vals} {p : Option Nat} (hf : Full (edited db x v) p) : Full db p := by
  have key : ∀ l, (∃ r ∈ (edited db x v).rows, r.pk ∈ forest (edited db x v) p ∧ lastLabel r.path = l) →
      ∃ r ∈ db.rows, r.pk ∈ forest db p ∧ lastLabel r.path = l := by
    rintro l ⟨r, hr, hm, e⟩
    rw [edit_forest h hx] at hm
    obtain ⟨r₀, hr₀, e1, e2⟩ := edit_old h hx hr
    exact ⟨r₀, hr₀, by rw [e1]; exact hm, by rw [e2]; exact e⟩
  intro c h1 h2
  exact ⟨key _ (hf c h1 h2).1, fun d h3 h4 => key _ ((hf c h1 h2).2 d h3 h4)⟩

/-! ### Lemmas -/

theorem settled (h : PI db.rows) {x r : Row} (hr : r ∈ db.rows) (hk : r.pk = x.pk) : Settled (manager cfg) db x r := by
  constructor
  · show (match db.get? x.pk with | none => _ | some r => _) = _
    rw [(get?_eq_some h).2 ⟨hr, hk⟩]
  · show Except.ok (save db r) = .ok db
    congr 1
    have := edit_save hr r.vals
    rw [show save db r = edited db r r.vals from this]
    unfold edited
    have hmap : db.rows.map (edit r r.vals) = db.rows := by
      conv_rhs => rw [← List.map_id db.rows]
      refine List.map_congr_left (fun q hq => ?_)
      unfold edit
      by_cases e : q.pk = r.pk
      · simp [h.pk_inj hq hr e]
      · simp [e]
    rw [hmap]

theorem formPlace_edit_ref {x t : Row} (hx : x ∈ db.rows) (v : Vals) (pos : Pos) :
    formPlace (manager cfg) db { x with vals := v } false (some t) pos = move cfg (edited db x v) { x with vals := v } t (some pos) := by
  unfold formPlace
  simp only [Bool.false_eq_true, if_false]
  rw [show (manager cfg).save db { x with vals := v } = .ok (edited db x v) from congrArg _ (edit_save hx v)]
  rfl

theorem formPlace_edit_root {x r : Row} (hx : x ∈ db.rows) (v : Vals) (hr : firstRootNode (edited db x v) = some r) (pos : Pos) :
    formPlace (manager cfg) db { x with vals := v } false none pos =
      move cfg (edited db x v) { x with vals := v } r (some (if (manager cfg).ordered then .sortedSibling else .firstSibling)) := by
  unfold formPlace
  simp only [Bool.false_eq_true, if_false]
  rw [show (manager cfg).save db { x with vals := v } = .ok (edited db x v) from congrArg _ (edit_save hx v)]
  simp only
  rw [show (manager cfg).firstRoot (edited db x v) = some r from hr]
  rfl

theorem formPos_prep {pos : Pos} (hpos : pos ∈ formPositions false) : preparePosForMove false (some pos) = .ok pos := by
  simp only [formPositions, Bool.false_eq_true, if_false, List.mem_cons, List.not_mem_nil, or_false] at hpos
  rcases hpos with rfl | rfl | rfl <;> decide

/-- the first root is a root, and nothing is above it -/
theorem firstRoot_spec (h : Consistent db) (hne : db.rows ≠ []) :
    ∃ r ∈ db.rows, firstRootNode db = some r ∧ r.pk ∈ forest db none ∧ ∀ x, ¬ (forest db).Desc x r.pk := by
  unfold firstRootNode
  cases e : rootNodes db with
  | nil =>
    exfalso
    obtain ⟨r, hr⟩ := List.exists_mem_of_ne_nil _ hne
    obtain ⟨l, hd, _, hp⟩ := (isForestOn h).listing
    have : forest db none = [] := by show (rootNodes db).map Row.pk = []; rw [e]; rfl
    have hm : r.pk ∈ l := hp.mem_iff.2 (by rw [keys_eq]; exact List.mem_map_of_mem hr)
    rw [Forest.DFS.mem hd, this] at hm
    obtain ⟨c, hc, _⟩ := hm
    simp at hc
  | cons r l =>
    have hr : r ∈ rootNodes db := by rw [e]; simp
    have hm : r.pk ∈ forest db none := List.mem_map_of_mem hr
    refine ⟨r, ((mem_rootNodes h.inv.inv).1 hr).1, rfl, hm, ?_⟩
    intro x hd
    cases hd with
    | child hd => cases parent_unique h hm hd
    | step _ hd => cases parent_unique h hm hd

theorem formNear_of {db₁ db' : DB} {obj x : Row} {F : Forest} {p : Option Nat} (hm : MovedNear db₁ db' obj x F p) :
    Settled (manager cfg) db' obj obj ∧ FormNear db' obj x.pk F p (data db₁.rows) :=
  ⟨settled hm.consistent.inv.inv hm.obj.1 rfl, hm.consistent, hm.near, hm.data, hm.obj⟩

theorem formDone_of {db₁ db' : DB} {obj x : Row} {F : Forest} (hm : MovedTo db₁ db' obj x F) : FormDone db' obj x.pk F (data db₁.rows) :=
  ⟨hm.consistent, hm.forest, hm.data, hm.obj⟩

/-! ### Editing a node -/

/-- **C44 for LT, an existing node and a reference** (partial: the siblings to the right of the node may change places if
the labels are not tidy, `C36_move_fails`).  On every consistent tree without `node_order_by`, for every node, all new
values, every offered reference and position: the node stands at this position relative to the reference, every other
node keeps its parent, the new values are stored, and the form's instance is the stored row. -/
theorem C44_lt_edit_partial (h : Consistent db) (ho : cfg.orderBy = []) {x t : Row} (hx : x ∈ db.rows) (v : Vals) (ht : t ∈ db.rows)
    (hoff : (forest db).Offered x.pk t.pk) {pos : Pos} (hpos : pos ∈ formPositions false) {ch : Changed} (hc : ch.Touches cfg.orderBy) :
    ∃ p, t.pk ∈ forest db p ∧ ∃ db' obj, formSave (manager cfg) db { x with vals := v } false ch (some t) pos = .ok (db', obj) ∧
      FormNear db' obj x.pk ((forest db).move x.pk (pos.dest p t.pk) (formSlot t.pk pos)) (pos.dest p t.pk) (editData (data db.rows) x.pk v) ∧
      (TidyLabels db (pos.dest p t.pk) →
        FormDone db' obj x.pk ((forest db).move x.pk (pos.dest p t.pk) (formSlot t.pk pos)) (editData (data db.rows) x.pk v)) := by
  have hord : cfg.ordered = false := ordered_false (m := manager cfg) ho
  have hF := edit_forest h.inv hx v
  obtain ⟨p, hp, db', obj, e, hm, hm'⟩ := C36_move_partial hord (consistent_iff.2 (edit_inv h.inv hx v)) (edit_mem hx v)
    (edit_other ht hoff.1 v) (formPos_prep hpos) (by rw [hF]; exact hoff.not_refused pos)
  rw [hF] at hp
  rw [hF, moveAsked_form hoff.1 hpos] at hm hm'
  obtain ⟨h1, h2⟩ := formNear_of (cfg := cfg) hm
  rw [edit_data] at h2
  refine ⟨p, hp, db', obj, formSave_ok hc ?_ h1, h2, ?_⟩
  · rw [formPlace_edit_ref hx, e]
  · intro htd
    have := formDone_of (hm' (Or.inr (Or.inr (edit_tidy h.inv hx v htd))))
    rwa [edit_data] at this

/-- **C44 for LT, an existing node and no reference** (partial in the same way): the node becomes the first root, whatever
the position field says. -/
theorem C44_lt_edit_root_partial (h : Consistent db) (ho : cfg.orderBy = []) {x : Row} (hx : x ∈ db.rows) (v : Vals) (pos : Pos) {ch : Changed}
    (hc : ch.Touches cfg.orderBy) :
    ∃ db' obj, formSave (manager cfg) db { x with vals := v } false ch none pos = .ok (db', obj) ∧
      FormNear db' obj x.pk ((forest db).move x.pk none .first) none (editData (data db.rows) x.pk v) ∧
      (TidyLabels db none → FormDone db' obj x.pk ((forest db).move x.pk none .first) (editData (data db.rows) x.pk v)) := by
  have hord : cfg.ordered = false := ordered_false (m := manager cfg) ho
  have hF := edit_forest h.inv hx v
  have hce := consistent_iff.2 (edit_inv h.inv hx v)
  obtain ⟨r, hr, er, hrr, hrd⟩ := firstRoot_spec hce (List.ne_nil_of_mem (edit_mem hx v))
  obtain ⟨p, hp, db', obj, e, hm, hm'⟩ := C36_move_partial hord hce (edit_mem hx v) hr (posArg := some .firstSibling) (pos := .firstSibling)
    (by decide) (by rintro (hd | ⟨hd, _⟩); exacts [hrd _ hd, by cases hd])
  obtain rfl := parent_unique hce hrr hp
  rw [hF] at hm hm'
  have hplace := formPlace_edit_root (cfg := cfg) hx v er pos
  rw [show (manager cfg).ordered = false from hord] at hplace
  simp only [Bool.false_eq_true, if_false] at hplace
  obtain ⟨h1, h2⟩ := formNear_of (cfg := cfg) hm
  rw [edit_data] at h2
  refine ⟨db', obj, formSave_ok hc (hplace.trans e) h1, h2, ?_⟩
  intro htd
  have := formDone_of (hm' (Or.inr (Or.inr (edit_tidy h.inv hx v htd))))
  rwa [edit_data] at this

/-- **C44 for LT, no tree field changed**: only the values are stored. -/
theorem C44_lt_unchanged (h : Consistent db) {x : Row} (hx : x ∈ db.rows) (v : Vals) (ref : Option Row) (pos : Pos)
    {ch : Changed} (hc : ¬ ch.Touches cfg.orderBy) :
    ∃ db' obj, formSave (manager cfg) db { x with vals := v } false ch ref pos = .ok (db', obj) ∧
      FormDone db' obj x.pk (forest db) (editData (data db.rows) x.pk v) := by
  refine ⟨edited db x v, { x with vals := v }, ?_, consistent_iff.2 (edit_inv h.inv hx v), edit_forest h.inv hx v, edit_data x v, edit_mem hx v, rfl⟩
  exact formSave_untouched hc (show (manager cfg).save db { x with vals := v } = .ok (edited db x v) from congrArg _ (edit_save hx v))

/-! ### The same with `node_order_by` -/

/-- What the form gives with `node_order_by` when `move` is called on the table `db₁` with the node `x`: the node is below
`p`, the others keep their places but for siblings to the right of the node.  If the labels are lucky, the node stands at
its sorted place and nothing else changed.  ValueError only if all short labels are in use. -/
def FormSortedOutcome (cfg : Cfg) (db₁ : DB) (x : Row) (p : Option Nat) (out : Except Err (DB × Row)) : Prop :=
  (∃ db' obj s, out = .ok (db', obj) ∧ FormNear db' obj x.pk ((forest db₁).move x.pk p s) p (data db₁.rows) ∧
    (Lucky cfg db₁ p x obj → FormDone db' obj x.pk ((forest db₁).move x.pk p s) (data db₁.rows) ∧ FormSorted cfg db' x.pk p)) ∨
  (out = .error .valueError ∧ Full db₁ p)

theorem formSortedOutcome_of {db db₁ : DB} {inst x : Row} {adding : Bool} {ch : Changed} {ref : Option Row} {pos : Pos} {p : Option Nat}
    (hc : ch.Touches cfg.orderBy) {out : Except Err (DB × Row)} (hm : SortedMoveOutcome cfg db₁ x p out)
    (hp : formPlace (manager cfg) db inst adding ref pos = out) :
    FormSortedOutcome cfg db₁ x p (formSave (manager cfg) db inst adding ch ref pos) := by
  rcases hm with ⟨db', obj, s, e, hm, hl⟩ | ⟨e, _, hf⟩
  · obtain ⟨h1, h2⟩ := formNear_of (cfg := cfg) hm
    refine Or.inl ⟨db', obj, s, formSave_ok hc (hp.trans e) h1, h2, ?_⟩
    intro hlk
    obtain ⟨h3, h4, h5⟩ := hl hlk
    exact ⟨formDone_of h3, h4, h5⟩
  · exact Or.inr ⟨formSave_error hc (hp.trans e), hf⟩

/-- **C44 for LT with `node_order_by`, an existing node and a reference** (partial, see `FormSortedOutcome`).  "Child of" and
"sibling of" put the node below the reference or its parent.  `edited db x v` is the table with the new values. -/
theorem C44_lt_edit_sorted_partial (h : Consistent db) (ho : cfg.orderBy ≠ []) (hs : SortedTree cfg db) {x t : Row} (hx : x ∈ db.rows) {v : Vals}
    (hv : NonNull cfg.orderBy v) (ht : t ∈ db.rows) (hoff : (forest db).Offered x.pk t.pk) {pos : Pos} (hpos : pos ∈ formPositions true)
    {ch : Changed} (hc : ch.Touches cfg.orderBy) :
    forest (edited db x v) = forest db ∧ data (edited db x v).rows = editData (data db.rows) x.pk v ∧
    ∃ p, t.pk ∈ forest db p ∧
      FormSortedOutcome cfg (edited db x v) { x with vals := v } (pos.dest p t.pk)
        (formSave (manager cfg) db { x with vals := v } false ch (some t) pos) := by
  have hord : cfg.ordered = true := ordered_true (m := manager cfg) ho
  have hF := edit_forest h.inv hx v
  refine ⟨hF, edit_data x v, ?_⟩
  obtain ⟨p, hp, hm⟩ := C16_lt_move_partial hord (consistent_iff.2 (edit_inv h.inv hx v)) (edit_mem hx v) (edit_other ht hoff.1 v)
    (by rw [edit_data]; exact editData_nonNull hs.nonNull hv) (by rw [hF, edit_data]; exact sortedBy_edit hs.sorted x.pk v)
    (formPos_sorted hpos) (by rw [hF]; exact hoff.not_refused pos)
  rw [hF] at hp
  exact ⟨p, hp, formSortedOutcome_of hc hm (formPlace_edit_ref hx v pos)⟩

/-- **C44 for LT with `node_order_by`, an existing node and no reference** (partial in the same way): it becomes a root. -/
theorem C44_lt_edit_root_sorted_partial (h : Consistent db) (ho : cfg.orderBy ≠ []) (hs : SortedTree cfg db) {x : Row} (hx : x ∈ db.rows) {v : Vals}
    (hv : NonNull cfg.orderBy v) (pos : Pos) {ch : Changed} (hc : ch.Touches cfg.orderBy) :
    forest (edited db x v) = forest db ∧ data (edited db x v).rows = editData (data db.rows) x.pk v ∧
    FormSortedOutcome cfg (edited db x v) { x with vals := v } none (formSave (manager cfg) db { x with vals := v } false ch none pos) := by
  have hord : cfg.ordered = true := ordered_true (m := manager cfg) ho
  have hF := edit_forest h.inv hx v
  refine ⟨hF, edit_data x v, ?_⟩
  have hce := consistent_iff.2 (edit_inv h.inv hx v)
  obtain ⟨r, hr, er, hrr, hrd⟩ := firstRoot_spec hce (List.ne_nil_of_mem (edit_mem hx v))
  obtain ⟨p, hp, hm⟩ := C16_lt_move_partial hord hce (edit_mem hx v) hr
    (by rw [edit_data]; exact editData_nonNull hs.nonNull hv) (by rw [hF, edit_data]; exact sortedBy_edit hs.sorted x.pk v)
    (posArg := some .sortedSibling) (pos := .sortedSibling) (by decide) (by rintro (hd | ⟨hd, _⟩); exacts [hrd _ hd, by cases hd])
  obtain rfl := parent_unique hce hrr hp
  have hplace := formPlace_edit_root (cfg := cfg) hx v er pos
  rw [show (manager cfg).ordered = true from hord] at hplace
  simp only [if_true] at hplace
  exact formSortedOutcome_of hc hm hplace

/-! ### Adding a node -/

theorem commit_of_ok {α : Type} {r : Except Err (DB × α)} {y : DB × α} (e : commit r = .ok y) : r = .ok y := by
  unfold commit at e
  split at e
  · cases e
  · split at e
    · exact e
    · cases e

theorem addChild_rows (ho : cfg.ordered = false) {t new : Row} (hf : Fresh db new) {db₁ : DB} {obj : Row}
    (e : addChild cfg db t new = .ok (db₁, obj)) : db₁.rows = db.rows ++ [obj] := by
  unfold addChild at e
  replace e := commit_of_ok e
  split at e
  · cases e
  · rw [if_neg (by simp [ho])] at e
    split at e
    · cases e
    · injection e with e; injection e with e1 e2
      rw [← e1, ← e2]
      rename_i pth _
      exact congrArg DB.rows (save_new (x := { new with path := pth }) (fun r hr => hf r hr))

/-- `add_child` leaves the row of its target as it is -/
theorem addChild_keeps (h : Inv db.rows) {t new : Row} (hf : Fresh db new) (ht : t ∈ db.rows) {db₁ : DB} {obj : Row}
    (e : addChild cfg db t new = .ok (db₁, obj)) : t ∈ db₁.rows := by
  have hsave : ∀ {d : DB} {y : Row}, (∀ r ∈ d.rows, r.pk ≠ y.pk) → t ∈ d.rows → t ∈ (save d y).rows := by
    intro d y hy htd
    rw [save_new hy]
    exact List.mem_append_left _ htd
  unfold addChild at e
  replace e := commit_of_ok e
  split at e
  · cases e
  split at e
  · rename_i hc
    split at e
    · cases e
    rename_i last hlast
    obtain ⟨hl1, hl2⟩ := ((lists_children h.inv t).mem last).1 (List.mem_of_getLast? hlast)
    unfold addSiblingIn at e
    split at e
    · cases e
    rename_i pos hpos
    have hpos' : pos = .sortedSibling := by
      rw [hc.1] at hpos
      injection hpos with hpos
      exact hpos.symm
    subst hpos'
    have hS := lists_siblings h.inv hl1
    split at e
    · cases e
    rename_i db₂ pth m hg
    injection e with e; injection e with e1 e2
    rw [← e1]
    have hkeep : ∃ (b : Option Row) (m : Bool), db₂.rows = db.rows.map (gRow m t.path b) ∧ gRow m t.path b t = t := by
      cases hb : firstGreater cfg (siblings db last) new with
      | none =>
        have hnb : sibNeighbours cfg db last .sortedSibling new = (none, none) := by
          unfold sibNeighbours
          simp only
          rw [show (sortedPosQueryset cfg.orderBy Row.vals (siblings db last) new.vals).head? = none from hb]
        rw [hnb] at hg
        unfold getNewPath at hg
        split at hg
        · cases hg
        · split at hg
          · injection hg with hg; injection hg with hg _
            exact ⟨none, false, by rw [← hg]; exact (List.map_id' db.rows).symm, rfl⟩
          · cases hg
          · cases hg
      | some b =>
        have hbS := firstGreater_mem hb
        have hn := nbrs_left hS hbS
        rw [← prevSibling_eq h.inv hl1 hbS, hl2] at hn
        have hnb : sibNeighbours cfg db last .sortedSibling new = (some b, prevSibling db b) := by
          unfold sibNeighbours
          simp only
          rw [show (sortedPosQueryset cfg.orderBy Row.vals (siblings db last) new.vals).head? = some b from hb]
        rw [hnb, hl2] at hg
        obtain ⟨db3, l, moved, hg', hp, _⟩ := getNewPath_spec h hn
        rw [hg'] at hg
        injection hg with hg; injection hg with hg _
        subst hg
        refine ⟨some b, moved, hp.rows, ?_⟩
        cases moved with
        | false => rfl
        | true =>
          rw [gRow_true]
          show ({ t with path := sh t.path (lastLabel b.path) t.path } : Row) = t
          rw [sh_kept]
          intro l u eq
          have := congrArg List.length eq
          simp at this
    obtain ⟨b, m, hrows, ht'⟩ := hkeep
    refine hsave ?_ ?_
    · intro r hr
      rw [hrows] at hr
      obtain ⟨q, hq, rfl⟩ := List.mem_map.1 hr
      rw [gRow_pk]; exact hf q hq
    · rw [hrows]; exact List.mem_map.2 ⟨t, ht, ht'⟩
  · split at e
    · cases e
    · injection e with e; injection e with e1 e2
      rw [← e1]
      exact hsave (fun r hr => hf r hr) ht

theorem formPlace_add_ref {db₁ : DB} {t new obj : Row} (e : addChild cfg db t new = .ok (db₁, obj)) (pos : Pos) :
    formPlace (manager cfg) db new true (some t) pos = move cfg db₁ obj t (some pos) := by
  unfold formPlace
  simp only [if_true]
  rw [show (manager cfg).addChild db t new = .ok (db₁, obj, t) by show (addChild cfg db t new).map _ = _; rw [e]; rfl]
  rfl

theorem formPlace_add_ref_error {t new : Row} {err : Err} (e : addChild cfg db t new = .error err) (pos : Pos) :
    formPlace (manager cfg) db new true (some t) pos = .error err := by
  unfold formPlace
  simp only [if_true]
  rw [show (manager cfg).addChild db t new = .error err by show (addChild cfg db t new).map _ = _; rw [e]; rfl]

theorem formPlace_add_root (db : DB) (new : Row) (pos : Pos) : formPlace (manager cfg) db new true none pos = addRoot cfg db new := rfl

theorem fresh_forest (h : PI db.rows) {new : Row} (hf : Fresh db new) (q : Option Nat) : new.pk ∉ forest db q :=
  fun hm => fresh_keys hf (forest_keys h hm)

theorem not_own_parent (h : PI db.rows) {t : Row} (ht : t ∈ db.rows) : t.pk ∉ forest db (some t.pk) := by
  intro hm
  have := congrArg List.length ((par_eq_some h ht).1 ((mem_forest h ht).1 hm))
  rw [List.length_dropLast] at this
  have := len_pos h ht
  omega

/-- When the labels let the form put a new node exactly at its place: for "before" and "after" those of the siblings of the
reference are tidy, for "first child of" those below the reference once the new node is there as its last child. -/
def AddTidy (cfg : Cfg) (db : DB) (t new : Row) (p : Option Nat) (pos : Pos) : Prop :=
  if pos = .firstChild then ∀ db₁ obj, addChild cfg db t new = .ok (db₁, obj) → TidyLabels db₁ (some t.pk) else TidyLabels db p

/-- **C44 for LT, a new node and a reference** (partial: siblings to the right may change places unless the labels are tidy).
For every consistent tree without `node_order_by`: the new node stands at this position relative to the reference. -/
theorem C44_lt_add_partial (h : Consistent db) (ho : cfg.orderBy = []) {t new : Row} (ht : t ∈ db.rows) (hf : Fresh db new)
    {pos : Pos} (hpos : pos ∈ formPositions false) {ch : Changed} (hc : ch.Touches cfg.orderBy) :
    ∃ p, t.pk ∈ forest db p ∧ ∃ db' obj, formSave (manager cfg) db new true ch (some t) pos = .ok (db', obj) ∧
      FormNear db' obj new.pk ((forest db).put (pos.dest p t.pk) (formSlot t.pk pos) new.pk) (pos.dest p t.pk) (data db.rows ++ [(new.pk, new.vals)]) ∧
      (AddTidy cfg db t new p pos →
        FormDone db' obj new.pk ((forest db).put (pos.dest p t.pk) (formSlot t.pk pos) new.pk) (data db.rows ++ [(new.pk, new.vals)])) := by
  have hord : cfg.ordered = false := ordered_false (m := manager cfg) ho
  obtain ⟨db₁, obj, e, ha⟩ := C36_add_child hord h ht hf
  have hrows := addChild_rows hord hf e
  have ht1 := addChild_keeps h.inv hf ht e
  have hno := fresh_forest h.inv.inv hf
  have hoff : (forest db₁).Offered obj.pk t.pk := by
    rw [ha.forest, ha.obj.2]
    exact offered_new ((isForestOn h).outside _ (fresh_keys hf)) (hf t ht) _ _ (by intro e; exact hf t ht (Option.some.inj e))
  obtain ⟨p, hp, db', obj', e', hm, hm'⟩ := C36_move_partial hord ha.consistent ha.obj.1 ht1 (formPos_prep hpos) (hoff.not_refused pos)
  have hpt : p ≠ some t.pk := by
    rintro rfl
    exact not_own_parent ha.consistent.inv.inv ht1 hp
  have hp0 : t.pk ∈ forest db p := by
    rw [ha.forest] at hp
    unfold Forest.put at hp
    rwa [if_neg hpt] at hp
  rw [moveAsked_form hoff.1 hpos, ha.forest, ha.obj.2, put_move hno] at hm hm'
  obtain ⟨h1, h2⟩ := formNear_of (cfg := cfg) hm
  rw [ha.data, ha.obj.2] at h2
  refine ⟨p, hp0, db', obj', formSave_ok hc ?_ h1, h2, ?_⟩
  · rw [formPlace_add_ref e, e']
  intro htd
  have htd1 : TidyLabels db₁ (pos.dest p t.pk) := by
    unfold AddTidy at htd
    split at htd
    · rename_i ep
      subst ep
      exact htd db₁ obj e
    · rename_i ep
      have hd : pos.dest p t.pk = p := by
        simp only [formPositions, Bool.false_eq_true, if_false, List.mem_cons, List.not_mem_nil, or_false] at hpos
        rcases hpos with rfl | rfl | rfl
        · exact absurd rfl ep
        · rfl
        · rfl
      rw [hd]
      have key : ∀ r ∈ db₁.rows, r.pk ∈ forest db₁ p → r ∈ db.rows ∧ r.pk ∈ forest db p := by
        intro r hr hrp
        rw [ha.forest] at hrp
        unfold Forest.put at hrp
        rw [if_neg hpt] at hrp
        refine ⟨?_, hrp⟩
        rw [hrows, List.mem_append, List.mem_singleton] at hr
        rcases hr with hr | rfl
        · exact hr
        · rw [ha.obj.2] at hrp
          exact absurd hrp (hno p)
      intro r hr q hq h1 h2
      exact htd r (key r hr h1).1 q (key q hq h2).1 (key r hr h1).2 (key q hq h2).2
  have := formDone_of (hm' (Or.inr (Or.inr htd1)))
  rwa [ha.data, ha.obj.2] at this

/-- **C44 for LT, a new node and no reference** (partial: it may not be the last root, `C36_add_root_fails`): it becomes a root
and nothing else changes; ValueError only if all short labels are in use. -/
theorem C44_lt_add_root_partial (h : Consistent db) (ho : cfg.orderBy = []) {new : Row} (hf : Fresh db new) (pos : Pos)
    {ch : Changed} (hc : ch.Touches cfg.orderBy) :
    (∃ db' obj s, formSave (manager cfg) db new true ch none pos = .ok (db', obj) ∧
      FormDone db' obj new.pk ((forest db).put none s new.pk) (data db.rows ++ [(new.pk, new.vals)]) ∧
      ((∀ r ∈ db.rows, r.pk ∈ forest db none → r.path < obj.path) → s = .last)) ∨
    (formSave (manager cfg) db new true ch none pos = .error .valueError ∧ Full db none) := by
  have hord : cfg.ordered = false := ordered_false (m := manager cfg) ho
  rcases C36_add_root_partial hord h hf with ⟨db₁, obj, s, e, ha, hl⟩ | ⟨e, hfull⟩
  · exact Or.inl ⟨db₁, obj, s, formSave_ok hc ((formPlace_add_root db new pos).trans e) (settled ha.consistent.inv.inv ha.obj.1 rfl),
      ⟨ha.consistent, ha.forest, ha.data, ha.obj⟩, hl⟩
  · exact Or.inr ⟨formSave_error hc ((formPlace_add_root db new pos).trans e), hfull⟩

/-- **C44 for LT with `node_order_by`, a new node and no reference** (partial: exact only if the labels are lucky). -/
theorem C44_lt_add_root_sorted_partial (h : Consistent db) (ho : cfg.orderBy ≠ []) (hs : SortedTree cfg db) {new : Row} (hf : Fresh db new)
    (hn : NonNull cfg.orderBy new.vals) (pos : Pos) {ch : Changed} (hc : ch.Touches cfg.orderBy) :
    (∃ db' obj s, formSave (manager cfg) db new true ch none pos = .ok (db', obj) ∧
      FormNear db' obj new.pk ((forest db).put none s new.pk) none (data db.rows ++ [(new.pk, new.vals)]) ∧
      (Lucky cfg db none new obj → (∃ s, FormDone db' obj new.pk ((forest db).put none s new.pk) (data db.rows ++ [(new.pk, new.vals)])) ∧
        FormSorted cfg db' new.pk none)) ∨
    (formSave (manager cfg) db new true ch none pos = .error .valueError ∧ Full db none) := by
  have hord : cfg.ordered = true := ordered_true (m := manager cfg) ho
  rcases C16_lt_add_root_partial hord h hs hf hn with ⟨db₁, obj, s, e, ha, hl⟩ | ⟨e, _, hfull⟩
  · refine Or.inl ⟨db₁, obj, s, formSave_ok hc ((formPlace_add_root db new pos).trans e) (settled ha.consistent.inv.inv ha.obj.1 rfl),
      ⟨ha.consistent, ha.near, ha.data, ha.obj⟩, ?_⟩
    intro hlk
    obtain ⟨⟨s', h1⟩, h2, h3⟩ := hl hlk
    exact ⟨⟨s', h1.consistent, h1.forest, h1.data, h1.obj⟩, h2, h3⟩
  · exact Or.inr ⟨formSave_error hc ((formPlace_add_root db new pos).trans e), hfull⟩

/-- a sorted move without the assumption that the tree is sorted -/
theorem sortedMove_near (ho : cfg.ordered = true) (h : Consistent db) {x t : Row} (hx : x ∈ db.rows) (ht : t ∈ db.rows) {pos : Pos}
    (hpos : preparePosForMove true (some pos) = .ok pos) (hr : ¬ (forest db).MoveRefused x.pk t.pk pos) {p : Option Nat} (hp : t.pk ∈ forest db p) :
    (∃ db' obj s, move cfg db x t (some pos) = .ok (db', obj) ∧
      MovedNear db db' obj x ((forest db).move x.pk (pos.dest p t.pk) s) (pos.dest p t.pk)) ∨
    (move cfg db x t (some pos) = .error .valueError ∧ Full db (pos.dest p t.pk)) := by
  have hi := h.inv
  obtain rfl := (mem_forest hi.inv ht).1 hp
  rw [forest_eq hi.inv] at hr ⊢
  rcases move_sorted ho hi hx ht hpos hr with ⟨b, _, s, db', obj, e, hm, _⟩ | ⟨_, ⟨db', l, s, e, hm, _⟩ | ⟨e, hu⟩⟩
  · exact Or.inl ⟨db', obj, s, e, .of hm⟩
  · exact Or.inl ⟨db', _, s, e, .of hm⟩
  · refine Or.inr ⟨e, ?_⟩
    rw [← dest_eq hi.inv ht pos]
    refine full_of hi.inv ?_ hu
    split
    · exact Or.inr ⟨t, ht, rfl⟩
    · exact IsPar.drop hi.inv ht

/-- **C44 for LT with `node_order_by`, a new node and a reference** (partial: exact only if the labels are lucky in both
steps).  The new node is below the reference or its parent, and no other node gets another parent.  ValueError is raised
only if all short labels are in use below the reference, or at the new place once the node is below the reference. -/
theorem C44_lt_add_sorted_partial (h : Consistent db) (ho : cfg.orderBy ≠ []) (hs : SortedTree cfg db) {t new : Row} (ht : t ∈ db.rows)
    (hf : Fresh db new) (hn : NonNull cfg.orderBy new.vals) {pos : Pos} (hpos : pos ∈ formPositions true) {ch : Changed}
    (hc : ch.Touches cfg.orderBy) :
    ∃ p, t.pk ∈ forest db p ∧
      ((∃ db₁ obj₁ db' obj, addChild cfg db t new = .ok (db₁, obj₁) ∧
          formSave (manager cfg) db new true ch (some t) pos = .ok (db', obj) ∧
          FormBelow db' obj new.pk ((forest db).put (pos.dest p t.pk) .last new.pk) (data db.rows ++ [(new.pk, new.vals)]) ∧
          (Lucky cfg db (some t.pk) new obj₁ → Lucky cfg db₁ (pos.dest p t.pk) obj₁ obj →
            (∃ s, FormDone db' obj new.pk ((forest db).put (pos.dest p t.pk) s new.pk) (data db.rows ++ [(new.pk, new.vals)])) ∧
            FormSorted cfg db' new.pk (pos.dest p t.pk))) ∨
       (formSave (manager cfg) db new true ch (some t) pos = .error .valueError ∧
          (Full db (some t.pk) ∨ ∃ db₁ obj₁, addChild cfg db t new = .ok (db₁, obj₁) ∧ Full db₁ (pos.dest p t.pk)))) := by
  have hord : cfg.ordered = true := ordered_true (m := manager cfg) ho
  have hi := h.inv
  have hno := fresh_forest hi.inv hf
  refine ⟨_, (mem_forest hi.inv ht).2 rfl, ?_⟩
  generalize hpe : par db.rows t = p
  have hp0 : t.pk ∈ forest db p := (mem_forest hi.inv ht).2 hpe
  have hpt : p ≠ some t.pk := by
    rintro rfl
    exact not_own_parent hi.inv ht hp0
  rcases C16_lt_add_child_partial hord h hs ht hf hn with ⟨db₁, obj₁, s, e, ha, hl⟩ | ⟨e, _, hfull⟩
  swap
  · exact Or.inr ⟨formSave_error hc (formPlace_add_ref_error e pos), Or.inl hfull⟩
  have ht1 := addChild_keeps hi hf ht e
  have hoff : (forest db₁).Offered obj₁.pk t.pk := by
    rw [ha.obj.2]
    refine ⟨hf t ht, fun hd => ?_⟩
    exact (offered_new ((isForestOn h).outside _ (fresh_keys hf)) (hf t ht) _ s (by intro e; exact hf t ht (Option.some.inj e))).2
      ((ha.near.near.desc).1 hd)
  have hp1 : t.pk ∈ forest db₁ p := by
    rw [ha.near.near.mem]
    unfold Forest.put
    rwa [if_neg hpt]
  rcases sortedMove_near hord ha.consistent ha.obj.1 ht1 (formPos_sorted hpos) (hoff.not_refused pos) hp1 with ⟨db', obj, s', e', hm⟩ | ⟨e', hfull⟩
  swap
  · exact Or.inr ⟨formSave_error hc (by rw [formPlace_add_ref e, e']), Or.inr ⟨db₁, obj₁, e, hfull⟩⟩
  have hdata : data db'.rows = data db.rows ++ [(new.pk, new.vals)] := by rw [hm.data, ha.data]
  have hobj : obj ∈ db'.rows ∧ obj.pk = new.pk := ⟨hm.obj.1, by rw [hm.obj.2, ha.obj.2]⟩
  refine Or.inl ⟨db₁, obj₁, db', obj, e, formSave_ok hc (by rw [formPlace_add_ref e, e']) (settled hm.consistent.inv.inv hm.obj.1 rfl),
    ⟨hm.consistent, ?_, hdata, hobj⟩, ?_⟩
  · have h1 : ((forest db).put (some t.pk) .last new.pk).Near (forest db₁) :=
      (Forest.Near.refl (forest db)).added (hno _) ha.near trivial
    have h2 := hm.near
    rw [ha.obj.2] at h2
    have h3 := h1.moved h2 (s' := .last) trivial
    rwa [put_move hno] at h3
  · intro hl1 hl2
    obtain ⟨⟨s1, h1⟩, h2, h3⟩ := hl hl1
    obtain ⟨q, hq, hout⟩ := C16_lt_move_partial hord ha.consistent ha.obj.1 ht1 h2.nonNull (SortedBy.remove h2.sorted obj₁.pk)
      (formPos_sorted hpos) (hoff.not_refused pos)
    obtain rfl := parent_unique ha.consistent hp1 hq
    rcases hout with ⟨db2, obj2, s2, e2, hm2, hl3⟩ | ⟨e2, _⟩
    · rw [e'] at e2
      injection e2 with e2; injection e2 with e3 e4
      subst e3; subst e4
      obtain ⟨h4, h5, h6⟩ := hl3 hl2
      refine ⟨⟨s2, hm.consistent, ?_, hdata, hobj⟩, h5, ?_⟩
      · rw [h4.forest, h1.forest, ha.obj.2, put_move hno]
      · rw [ha.obj.2] at h6; exact h6
    · rw [e'] at e2; cases e2

/-! ### What the form shows and offers -/

/-- **C44 for LT, the initial values**, with or without `node_order_by`: the form can always be built, and it shows where the
node is. -/
theorem C44_lt_initial (h : Consistent db) {x : Row} (hx : x ∈ db.rows) (ordered : Bool) :
    ∃ ref pos, formInitial ordered (ltNav db x) = .ok (ref, pos) ∧ pos ∈ formPositions ordered ∧ (forest db).ShowsPlace x.pk ref pos :=
  formInitial_shows (C37_nav h hx) (fun _ _ h1 h2 => parent_unique h h1 h2) ordered

/-- **C44 for LT, the offered references**: exactly the nodes outside the branch of the instance, and every node for a new
instance. -/
theorem C44_lt_offered (h : Consistent db) :
    (∀ x ∈ db.rows, ∀ k, k ∈ formRefs ((getTree db none none).map Row.pk) ((descendants db x true none).map Row.pk) ↔
      k ∈ db.rows.map Row.pk ∧ (forest db).Offered x.pk k) ∧
    ∀ k, k ∈ formRefs ((getTree db none none).map Row.pk) [] ↔ k ∈ db.rows.map Row.pk := by
  have hF := isForestOn h
  rw [keys_eq] at hF
  have hall : TreeListing (forest db) none none ((getTree db none none).map Row.pk) := C11_lt h (p := none) (by simp) none (by simp)
  refine ⟨fun x hx k => ?_, fun k => formRefs_add hF hall k⟩
  have hb : TreeListing (forest db) (some x.pk) none ((getTree db (some x) none).map Row.pk) :=
    C11_lt h (p := some x) (by rintro q e; cases e; exact hx) none (by simp)
  exact formRefs_edit hF hall hb k

/-! ### The admin's drag and drop -/

/-- **C52 for LT** (partial: dropping a node beside another may change the places of the siblings to its right unless the
labels are tidy).  Dragging a node onto another makes it the last child of the other, or puts it immediately to its
left; below itself it is refused. -/
theorem C52_lt_partial (h : Consistent db) (ho : cfg.orderBy = []) {x t : Row} (hx : x ∈ db.rows) (ht : t ∈ db.rows) (child : Bool) :
    ∃ p, t.pk ∈ forest db p ∧
      ((forest db).MoveRefused x.pk t.pk (adminPos child false) →
        adminMove (manager cfg) db x t child = .error .invalidMoveToDescendant) ∧
      (¬ (forest db).MoveRefused x.pk t.pk (adminPos child false) →
        ∃ db' obj, adminMove (manager cfg) db x t child = .ok (db', obj) ∧
          (child = true ∨ TidyLabels db p → FormDone db' obj x.pk (if child then (forest db).move x.pk (some t.pk) .last
            else if t.pk = x.pk then forest db else (forest db).move x.pk p (.before t.pk)) (data db.rows)) ∧
          (child = false → FormNear db' obj x.pk (if t.pk = x.pk then forest db else (forest db).move x.pk p (.before t.pk)) p (data db.rows))) := by
  have hord : (manager cfg).ordered = false := ordered_false ho
  have hord' : cfg.ordered = false := hord
  have hprep : preparePosForMove false (some (adminPos child false)) = .ok (adminPos child false) := by cases child <;> decide
  refine ⟨_, (mem_forest h.inv.inv ht).2 rfl, ?_, ?_⟩
  · intro hr
    refine adminMove_error ?_
    rw [hord]
    exact C08_lt h hx ht (by rw [hord']; exact hprep) hr
  · intro hr
    obtain ⟨p, hp, db', obj, e, hm, hm'⟩ := C36_move_partial hord' h hx ht hprep hr
    obtain rfl := parent_unique h hp ((mem_forest h.inv.inv ht).2 rfl)
    obtain ⟨h1, h2⟩ := formNear_of (cfg := cfg) hm
    refine ⟨db', obj, adminMove_ok (obj := obj) (by rw [hord]; exact e) h1, ?_, ?_⟩
    · intro hc
      have hF : (forest db).moveAsked x.pk (par db.rows t) t.pk (adminPos child false) =
        if child then (forest db).move x.pk (some t.pk) .last
          else if t.pk = x.pk then forest db else (forest db).move x.pk (par db.rows t) (.before t.pk) := by cases child <;> rfl
      rw [← hF]
      refine formDone_of (hm' ?_)
      cases child with
      | true => exact Or.inr (Or.inl rfl)
      | false =>
        rcases hc with hc | hc
        · cases hc
        · exact Or.inr (Or.inr hc)
    · rintro rfl
      exact h2

/-- **C52 for LT with `node_order_by`** (partial: the sorted place only if the labels are lucky): the node goes below the
other or its parent. -/
theorem C52_lt_sorted_partial (h : Consistent db) (ho : cfg.orderBy ≠ []) (hs : SortedTree cfg db) {x t : Row} (hx : x ∈ db.rows) (ht : t ∈ db.rows)
    (child : Bool) :
    ∃ p, t.pk ∈ forest db p ∧
      ((forest db).MoveRefused x.pk t.pk (adminPos child true) → adminMove (manager cfg) db x t child = .error .invalidMoveToDescendant) ∧
      (¬ (forest db).MoveRefused x.pk t.pk (adminPos child true) →
        FormSortedOutcome cfg db x (if child then some t.pk else p) (adminMove (manager cfg) db x t child)) := by
  have hord : (manager cfg).ordered = true := ordered_true ho
  have hprep : preparePosForMove true (some (adminPos child true)) = .ok (adminPos child true) := by cases child <;> decide
  refine ⟨_, (mem_forest h.inv.inv ht).2 rfl, ?_, ?_⟩
  · intro hr
    refine adminMove_error ?_
    rw [hord]
    exact C08_lt h hx ht (by rw [show cfg.ordered = true from hord]; exact hprep) hr
  · intro hr
    obtain ⟨p, hp, hm⟩ := C16_lt_move_partial hord h hx ht hs.nonNull (SortedBy.remove hs.sorted x.pk) hprep hr
    obtain rfl := parent_unique h hp ((mem_forest h.inv.inv ht).2 rfl)
    have hd : (adminPos child true).dest (par db.rows t) t.pk = if child then some t.pk else par db.rows t := by cases child <;> rfl
    rw [hd] at hm
    rcases hm with ⟨db', obj, s, e, hm, hl⟩ | ⟨e, _, hf⟩
    · obtain ⟨h1, h2⟩ := formNear_of (cfg := cfg) hm
      refine Or.inl ⟨db', obj, s, adminMove_ok (obj := obj) (by rw [hord]; exact e) h1, h2, ?_⟩
      intro hlk
      obtain ⟨h3, h4, h5⟩ := hl hlk
      exact ⟨formDone_of h3, h4, h5⟩
    · exact Or.inr ⟨adminMove_error (by rw [hord]; exact e), hf⟩

/-! ### Examples -/

/-- The hypotheses of the theorems above are met.  `exDB`: 1 has the children 2, 3, and 3 has the child 4; 5 is a root. -/
example : Consistent exDB ∧ (forest exDB).Offered 4 2 ∧
    (∃ db' obj, formSave (manager ⟨[]⟩) exDB ⟨4, [[65], [66], [65]], [some 7]⟩ false ⟨true, true, []⟩ (some ⟨2, [[65], [65]], []⟩) .right = .ok (db', obj) ∧
      forest db' (some 1) = [2, 4, 3] ∧ obj.vals = [some 7]) ∧
    (∃ db' obj, formSave (manager ⟨[]⟩) exDB ⟨4, [[65], [66], [65]], []⟩ false ⟨true, true, []⟩ none .right = .ok (db', obj) ∧
      forest db' none = [4, 1, 5]) ∧
    (∃ db' obj, formSave (manager ⟨[]⟩) exDB ⟨9, [], []⟩ true ⟨true, true, []⟩ (some ⟨3, [[65], [66]], []⟩) .left = .ok (db', obj) ∧
      forest db' (some 1) = [2, 9, 3]) ∧
    (∃ db' obj, adminMove (manager ⟨[]⟩) exDB ⟨4, [[65], [66], [65]], []⟩ ⟨1, [[65]], []⟩ true = .ok (db', obj) ∧
      forest db' (some 1) = [2, 3, 4]) ∧
    formInitial false (ltNav exDB ⟨3, [[65], [66]], []⟩) = .ok (some 2, .right) := by
  refine ⟨consistent_iff.2 exDB_inv, ⟨by decide, ?_⟩, ⟨_, _, rfl, by decide, by decide⟩, ⟨_, _, rfl, by decide⟩, ⟨_, _, rfl, by decide⟩,
    ⟨_, _, rfl, by decide⟩, by decide⟩
  intro hd
  rw [forest_eq exDB_inv.inv, desc_PF exDB_inv.inv (a := ⟨4, [[65], [66], [65]], []⟩) (d := ⟨2, [[65], [65]], []⟩) (by decide) (by decide)] at hd
  exact absurd hd.1 (by decide)

/-- with `node_order_by`: the children of 1 have the values 1, 3, 3.  Node 4 gets the value 2 and goes between 1 and 3. -/
example : Consistent exSDB ∧ SortedTree exSorted exSDB ∧
    ∃ db' obj, formSave (manager exSorted) exSDB ⟨4, [[65], [67]], [some 2]⟩ false ⟨false, false, [0]⟩ (some ⟨1, [[65]], [some 5]⟩) .sortedChild = .ok (db', obj) ∧
      forest db' (some 1) = [2, 4, 3] ∧ forest db' none = [1] :=
  ⟨consistent_iff.2 exSDB_inv, exSDB_sorted, _, _, rfl, by decide, by decide⟩

end Verif.LT
