/-
C44 and C52 for MP: the move form and the drag and drop of the admin.
-/
import Verif.FormLemmas
import Verif.Props.MPMove
import Verif.Props.MPQuery

namespace Verif.MP

variable {cfg : Cfg} {db : DB}

/-- the form's view of an MP manager -/
def manager (cfg : Cfg) : Manager DB Row where
  orderBy := cfg.orderBy
  addRoot := addRoot cfg
  addChild := addChild cfg
  move := fun db x t pos => (move cfg db x t (some pos)).map (fun res => (res.db, res.node))
  save := save
  refresh := fun db x => match db.get? x.pk with
    | none => .error .doesNotExist
    | some r => .ok r
  firstRoot := firstRootNode

/-! ### Vocabulary -/

/-- After saving the form: the table is consistent, its forest is `F`, its data are `D` and the form's instance is
the stored row of the node `k`. -/
structure FormDone (cfg : Cfg) (db' : DB) (obj : Row) (k : Nat) (F : Forest) (D : List (Nat × Vals)) : Prop where
  consistent : Consistent cfg db'
  forest : forest cfg db' = F
  data : data db'.rows = D
  obj : obj ∈ db'.rows ∧ obj.pk = k

/-! ### Lemmas -/

theorem settled (h : Inv cfg db.rows) {x r : Row} (hr : r ∈ db.rows) (hk : r.pk = x.pk) : Settled (manager cfg) db x r := by
  constructor
  · show (match db.get? x.pk with | none => _ | some r => _) = _
    rw [(get?_eq_some h.inv).2 ⟨hr, hk⟩]
  · show save db r = .ok db
    unfold save
    have hany : db.rows.any (·.pk == r.pk) = true := List.any_eq_true.2 ⟨r, hr, by simp⟩
    have hmap : db.rows.map (fun q => if q.pk == r.pk then r else q) = db.rows := by
      conv_rhs => rw [← List.map_id db.rows]
      refine List.map_congr_left (fun q hq => ?_)
      by_cases e : q.pk = r.pk
      · simp [h.inv.pk_inj hq hr e]
      · simp [e]
    simp only [hany, if_true, hmap]
    rw [if_pos]
    unfold uniquePaths
    exact decide_eq_true h.inv.pathNodup

/-- the new row, where a row with the same key is -/
def edit (x : Row) (v : Vals) (r : Row) : Row := if r.pk == x.pk then { x with vals := v } else r

/-- `save` of a stored node with other values -/
structure Edited (cfg : Cfg) (db db₁ : DB) (x : Row) (v : Vals) : Prop where
  save : save db { x with vals := v } = .ok db₁
  rows : db₁.rows = db.rows.map (edit x v)
  inv : Inv cfg db₁.rows
  forest : PF cfg db₁.rows = PF cfg db.rows
  data : data db₁.rows = editData (data db.rows) x.pk v

theorem edit_same (h : Inv cfg db.rows) {x : Row} (hx : x ∈ db.rows) (v : Vals) {r : Row} (hr : r ∈ db.rows) :
    edit x v r = { r with vals := (edit x v r).vals } := by
  unfold edit
  by_cases e : r.pk = x.pk
  · rw [h.inv.pk_inj hr hx e]; simp
  · simp [e]

theorem edited (h : Inv cfg db.rows) {x : Row} (hx : x ∈ db.rows) (v : Vals) : ∃ db₁, Edited cfg db db₁ x v := by
  have hs := fun r hr => edit_same h hx v (r := r) hr
  have hpk : ∀ r ∈ db.rows, (edit x v r).pk = r.pk := fun r hr => by rw [hs r hr]
  have hpa : ∀ r ∈ db.rows, (edit x v r).path = r.path := fun r hr => by rw [hs r hr]
  have hde : ∀ r ∈ db.rows, (edit x v r).depth = r.depth := fun r hr => by rw [hs r hr]
  have hnu : ∀ r ∈ db.rows, (edit x v r).numchild = r.numchild := fun r hr => by rw [hs r hr]
  have hp := h.toPInv.map_same hpk hpa hde
  have hF := PF_map_path h.toPInv hpk hpa hde
  refine ⟨{ db with rows := db.rows.map (edit x v) }, ?_, rfl, ⟨hp, ?_⟩, hF, ?_⟩
  · unfold save
    have hany : db.rows.any (·.pk == ({ x with vals := v } : Row).pk) = true := List.any_eq_true.2 ⟨x, hx, by simp⟩
    simp only [hany, if_true]
    rw [if_pos]
    · rfl
    · exact decide_eq_true hp.inv.pathNodup
  · intro r' hr'
    obtain ⟨r, hr, rfl⟩ := List.mem_map.1 hr'
    show (edit x v r).numchild = ((PF cfg (db.rows.map (edit x v)) (some (edit x v r).pk)).length : Int)
    rw [hnu r hr, hpk r hr, hF]
    exact h.num r hr
  · show data (db.rows.map (edit x v)) = _
    unfold data editData
    rw [List.map_map, List.map_map]
    refine List.map_congr_left (fun r hr => ?_)
    unfold edit
    by_cases e : r.pk = x.pk <;> simp [e]

theorem Edited.mem {db₁ : DB} {x : Row} {v : Vals} (h : Edited cfg db db₁ x v) (hx : x ∈ db.rows) :
    { x with vals := v } ∈ db₁.rows := by
  rw [h.rows]
  exact List.mem_map.2 ⟨x, hx, by simp [edit]⟩

theorem Edited.other {db₁ : DB} {x t : Row} {v : Vals} (h : Edited cfg db db₁ x v) (ht : t ∈ db.rows) (hne : t.pk ≠ x.pk) :
    t ∈ db₁.rows := by
  rw [h.rows]
  exact List.mem_map.2 ⟨t, ht, by simp [edit, hne]⟩

theorem Edited.old {db₁ : DB} {x : Row} {v : Vals} (h : Edited cfg db db₁ x v) (hi : Inv cfg db.rows) (hx : x ∈ db.rows) :
    ∀ r ∈ db₁.rows, ∃ r₀ ∈ db.rows, r₀.pk = r.pk ∧ r₀.path = r.path := by
  intro r hr
  rw [h.rows] at hr
  obtain ⟨r₀, hr₀, rfl⟩ := List.mem_map.1 hr
  exact ⟨r₀, hr₀, by rw [edit_same hi hx v hr₀], by rw [edit_same hi hx v hr₀]⟩

theorem Edited.tempFits (hok : cfg.Ok) {db₁ : DB} {x : Row} {v : Vals} (h : Edited cfg db db₁ x v) (hi : Inv cfg db.rows)
    (hx : x ∈ db.rows) {k : Nat} {p : Option Nat} (hf : TempFits cfg db k p) : TempFits cfg db₁ k p := by
  intro hk r hr hrp n hn
  rw [forest_eq h.inv hok, h.forest, ← forest_eq hi hok] at hk hrp
  obtain ⟨r₀, hr₀, e1, e2⟩ := h.old hi hx r hr
  exact hf hk r₀ hr₀ (by rw [e1]; exact hrp) n (by rw [e2]; exact hn)

theorem Edited.moveFits (hok : cfg.Ok) {db₁ : DB} {x : Row} {v : Vals} (h : Edited cfg db db₁ x v) (hi : Inv cfg db.rows)
    (hx : x ∈ db.rows) {k : Nat} {p : Option Nat} {t : Nat} {pos : Pos} (hpos : IsPlainPos pos) (hf : MoveFits cfg db k p t pos) :
    MoveFits cfg db₁ k p t pos := by
  intro hg
  refine h.tempFits hok hi hx (hf ?_)
  have hfe : MP.forest cfg db₁ = MP.forest cfg db := by rw [forest_eq h.inv hok, h.forest, forest_eq hi hok]
  rw [hfe] at hg
  rcases hpos with (rfl | rfl | rfl | rfl) | rfl | rfl <;> exact hg

theorem Edited.lastTaken (hok : cfg.Ok) {db₁ : DB} {x : Row} {v : Vals} (h : Edited cfg db db₁ x v) (hi : Inv cfg db.rows)
    (hx : x ∈ db.rows) {p : Option Nat} (hl : LastTaken cfg db₁ p) : LastTaken cfg db p := by
  obtain ⟨r, hr, hm, hs⟩ := hl
  rw [forest_eq h.inv hok, h.forest, ← forest_eq hi hok] at hm
  obtain ⟨r₀, hr₀, e1, e2⟩ := h.old hi hx r hr
  exact ⟨r₀, hr₀, by rw [e1]; exact hm, by rw [e2]; exact hs⟩

theorem manager_move (db : DB) (x t : Row) (pos : Pos) :
    (manager cfg).move db x t pos = (move cfg db x t (some pos)).map (fun res => (res.db, res.node)) := rfl

theorem formPlace_edit_ref {db₁ : DB} {x t : Row} {v : Vals} (h : Edited cfg db db₁ x v) (pos : Pos) :
    formPlace (manager cfg) db { x with vals := v } false (some t) pos =
      (move cfg db₁ { x with vals := v } t (some pos)).map (fun res => (res.db, res.node)) := by
  unfold formPlace
  simp only [Bool.false_eq_true, if_false]
  rw [show (manager cfg).save db { x with vals := v } = .ok db₁ from h.save]
  rfl

/-- the outcome of the move, turned into the outcome of the form -/
theorem formDone_of (hok : cfg.Ok) {db₁ : DB} {res : MoveResult} {x : Row} {F : Forest} (hm : MovedTo cfg db₁ res x F) :
    Settled (manager cfg) res.db res.node res.node ∧ FormDone cfg res.db res.node x.pk F (data db₁.rows) :=
  ⟨settled ((consistent_iff hok).1 hm.consistent) hm.node.1 rfl, hm.consistent, hm.forest, hm.data, hm.node⟩

/-! ### Editing a node -/

/-- **C44 for MP, an existing node and a reference** (partial: `MoveFits`, as for `move`).  On every consistent tree
without `node_order_by`, for every node, all new values, every offered reference and position: the node stands at this
position relative to the reference, every other node keeps its place, the new values are stored, and the form's
instance is the stored row; or PathOverflow is raised and the last position below the new parent is taken. -/
theorem C44_mp_edit_partial (hok : cfg.Ok) (h : Consistent cfg db) (ho : cfg.orderBy = []) {x t : Row} (hx : x ∈ db.rows)
    (v : Vals) (ht : t ∈ db.rows) (hoff : (forest cfg db).Offered x.pk t.pk) {pos : Pos} (hpos : pos ∈ formPositions false)
    {ch : Changed} (hc : ch.Touches cfg.orderBy) :
    ∃ p, t.pk ∈ forest cfg db p ∧ (MoveFits cfg db x.pk p t.pk pos →
      (∃ db' obj, formSave (manager cfg) db { x with vals := v } false ch (some t) pos = .ok (db', obj) ∧
        FormDone cfg db' obj x.pk ((forest cfg db).move x.pk (pos.dest p t.pk) (formSlot t.pk pos)) (editData (data db.rows) x.pk v)) ∨
      (formSave (manager cfg) db { x with vals := v } false ch (some t) pos = .error .pathOverflow ∧
        LastTaken cfg db (pos.dest p t.pk))) := by
  have hi := (consistent_iff hok).1 h
  obtain ⟨db₁, he⟩ := edited hi hx v
  have hfe : forest cfg db₁ = forest cfg db := by rw [forest_eq he.inv hok, he.forest, forest_eq hi hok]
  obtain ⟨p, hp, hmv⟩ := C07_move_partial hok ((consistent_iff hok).2 he.inv) (by unfold Cfg.ordered; rw [ho]; rfl) (he.mem hx)
    (he.other ht hoff.1) (formPos_plain hpos) (posArg := some pos) (Or.inl rfl) (by rw [hfe]; exact hoff.not_refused pos)
  rw [hfe] at hp
  refine ⟨p, hp, ?_⟩
  intro hfit
  rcases hmv (he.moveFits hok hi hx (formPos_plain hpos) hfit) with ⟨res, e, hm⟩ | ⟨e, hl⟩
  · left
    rw [hfe, moveAsked_form hoff.1 hpos] at hm
    obtain ⟨h1, h2⟩ := formDone_of hok hm
    rw [he.data] at h2
    refine ⟨res.db, res.node, formSave_ok hc ?_ h1, h2⟩
    rw [formPlace_edit_ref he, e]; rfl
  · right
    refine ⟨formSave_error hc ?_, he.lastTaken hok hi hx hl⟩
    rw [formPlace_edit_ref he, e]; rfl

/-- the first root is a root, and nothing is above it -/
theorem firstRoot_spec (hok : cfg.Ok) (h : Consistent cfg db) (hne : db.rows ≠ []) :
    ∃ r ∈ db.rows, firstRootNode db = some r ∧ r.pk ∈ forest cfg db none ∧ ∀ x, ¬ (forest cfg db).Desc x r.pk := by
  have hi := (consistent_iff hok).1 h
  cases e : rootNodes db with
  | nil =>
    exfalso
    obtain ⟨r, hr⟩ := List.exists_mem_of_ne_nil _ hne
    have hF : (forest cfg db).IsForestOn (db.rows.map Row.pk) := by rw [forest_eq hi hok]; exact isForestOn hi.inv hok.step
    obtain ⟨l, hd, _, hp⟩ := hF.listing
    have : forest cfg db none = [] := by show (rootNodes db).map Row.pk = []; rw [e]; rfl
    have hm : r.pk ∈ l := hp.mem_iff.2 (List.mem_map_of_mem hr)
    rw [Forest.DFS.mem hd, this] at hm
    obtain ⟨c, hc, _⟩ := hm
    simp at hc
  | cons r l =>
    have hr : r ∈ rootNodes db := by rw [e]; simp
    have hm : r.pk ∈ forest cfg db none := List.mem_map_of_mem hr
    refine ⟨r, (List.mem_filter.1 (mem_sortBy.1 hr)).1, by unfold firstRootNode; rw [e]; rfl, hm, ?_⟩
    intro x hd
    cases hd with
    | child hd => cases parent_unique hok h hm hd
    | step _ hd => cases parent_unique hok h hm hd

theorem formPlace_edit_root {db₁ : DB} {x r : Row} {v : Vals} (h : Edited cfg db db₁ x v) (hr : firstRootNode db₁ = some r) (pos : Pos) :
    formPlace (manager cfg) db { x with vals := v } false none pos =
      (move cfg db₁ { x with vals := v } r (some (if (manager cfg).ordered then .sortedSibling else .firstSibling))).map
        (fun res => (res.db, res.node)) := by
  unfold formPlace
  simp only [Bool.false_eq_true, if_false]
  rw [show (manager cfg).save db { x with vals := v } = .ok db₁ from h.save]
  simp only
  rw [show (manager cfg).firstRoot db₁ = some r from hr]
  rfl

/-- **C44 for MP, an existing node and no reference** (partial: `TempFits`): the node becomes the first root, whatever the
position field says. -/
theorem C44_mp_edit_root_partial (hok : cfg.Ok) (h : Consistent cfg db) (ho : cfg.orderBy = []) {x : Row} (hx : x ∈ db.rows)
    (v : Vals) (pos : Pos) {ch : Changed} (hc : ch.Touches cfg.orderBy) (hfit : TempFits cfg db x.pk none) :
    (∃ db' obj, formSave (manager cfg) db { x with vals := v } false ch none pos = .ok (db', obj) ∧
      FormDone cfg db' obj x.pk ((forest cfg db).move x.pk none .first) (editData (data db.rows) x.pk v)) ∨
    (formSave (manager cfg) db { x with vals := v } false ch none pos = .error .pathOverflow ∧ LastTaken cfg db none) := by
  have hi := (consistent_iff hok).1 h
  obtain ⟨db₁, he⟩ := edited hi hx v
  have hfe : forest cfg db₁ = forest cfg db := by rw [forest_eq he.inv hok, he.forest, forest_eq hi hok]
  have h1 := (consistent_iff hok).2 he.inv
  obtain ⟨r, hr, er, hrr, hrd⟩ := firstRoot_spec hok h1 (List.ne_nil_of_mem (he.mem hx))
  have hord : cfg.ordered = false := by unfold Cfg.ordered; rw [ho]; rfl
  obtain ⟨p, hp, hmv⟩ := C07_move_partial hok h1 hord (he.mem hx) hr (pos := .firstSibling) (Or.inl (Or.inl rfl))
    (posArg := some .firstSibling) (Or.inl rfl) (by rintro (hd | ⟨hd, _⟩); exacts [hrd _ hd, by cases hd])
  obtain rfl := parent_unique hok h1 hrr hp
  have hplace := formPlace_edit_root he er pos
  rw [show (manager cfg).ordered = false from ordered_false ho] at hplace
  simp only [Bool.false_eq_true, if_false] at hplace
  rcases hmv (fun _ => he.tempFits hok hi hx hfit) with ⟨res, e, hm⟩ | ⟨e, hl⟩
  · left
    rw [hfe] at hm
    obtain ⟨h1, h2⟩ := formDone_of hok hm
    rw [he.data] at h2
    refine ⟨res.db, res.node, formSave_ok hc ?_ h1, h2⟩
    rw [hplace, e]; rfl
  · right
    refine ⟨formSave_error hc ?_, he.lastTaken hok hi hx hl⟩
    rw [hplace, e]; rfl

/-- **C44 for MP, no tree field changed**: only the values are stored, with or without `node_order_by`. -/
theorem C44_mp_unchanged (hok : cfg.Ok) (h : Consistent cfg db) {x : Row} (hx : x ∈ db.rows) (v : Vals) (ref : Option Row) (pos : Pos)
    {ch : Changed} (hc : ¬ ch.Touches cfg.orderBy) :
    ∃ db' obj, formSave (manager cfg) db { x with vals := v } false ch ref pos = .ok (db', obj) ∧
      FormDone cfg db' obj x.pk (forest cfg db) (editData (data db.rows) x.pk v) := by
  have hi := (consistent_iff hok).1 h
  obtain ⟨db₁, he⟩ := edited hi hx v
  refine ⟨db₁, { x with vals := v }, ?_, (consistent_iff hok).2 he.inv, ?_, he.data, he.mem hx, rfl⟩
  · exact formSave_untouched hc (show (manager cfg).save db { x with vals := v } = .ok db₁ from he.save)
  · rw [forest_eq he.inv hok, he.forest, forest_eq hi hok]

/-! ### The same with `node_order_by` -/

theorem edited_sorted {db₁ : DB} {x : Row} {v : Vals} (h : Edited cfg db db₁ x v) (hok : cfg.Ok) (hi : Inv cfg db.rows)
    (hs : SortedTree cfg db) (hv : NonNull cfg.orderBy v) :
    AllNonNull cfg db₁ ∧ ((forest cfg db₁).remove x.pk).SortedBy cfg.orderBy (valsOf db₁) := by
  constructor
  · rw [allNonNull_data, h.data]
    intro e he
    obtain ⟨e', he', rfl⟩ := List.mem_map.1 he
    split
    · exact hv
    · exact (allNonNull_data db).1 hs.nonNull e' he'
  · rw [show forest cfg db₁ = forest cfg db by rw [forest_eq h.inv hok, h.forest, forest_eq hi hok]]
    intro p
    refine ((SortedBy.remove hs.sorted x.pk) p).imp_of_mem ?_
    intro a b ha hb hab
    have e : ∀ c ∈ (forest cfg db).remove x.pk p, valsOf db₁ c = valsOf db c := by
      intro c hc
      have hne : c ≠ x.pk := by simpa using (List.mem_filter.1 hc).2
      rw [valsOf_eq_lookup, valsOf_eq_lookup, h.data, lookup_edit hne]
    rw [e a ha, e b hb]
    exact hab

/-- The outcome with `node_order_by`: the node is below `p`, at its sorted place, and the whole tree is sorted. -/
structure FormSorted (cfg : Cfg) (db' : DB) (k : Nat) (p : Option Nat) : Prop where
  tree : SortedTree cfg db'
  place : (forest cfg db').SortedAt cfg.orderBy (valsOf db') p k

/-- **C44 for MP with `node_order_by`, an existing node and a reference** (partial: `TempFits`).  "Child of" and
"sibling of" put the node below the reference or its parent, at the place of its new values; all other nodes keep
their places. -/
theorem C44_mp_edit_sorted_partial (hok : cfg.Ok) (h : Consistent cfg db) (ho : cfg.orderBy ≠ []) (hs : SortedTree cfg db)
    {x t : Row} (hx : x ∈ db.rows) {v : Vals} (hv : NonNull cfg.orderBy v) (ht : t ∈ db.rows)
    (hoff : (forest cfg db).Offered x.pk t.pk) {pos : Pos} (hpos : pos ∈ formPositions true)
    {ch : Changed} (hc : ch.Touches cfg.orderBy) :
    ∃ p, t.pk ∈ forest cfg db p ∧ (TempFits cfg db x.pk (pos.dest p t.pk) →
      (∃ db' obj s, formSave (manager cfg) db { x with vals := v } false ch (some t) pos = .ok (db', obj) ∧
        FormDone cfg db' obj x.pk ((forest cfg db).move x.pk (pos.dest p t.pk) s) (editData (data db.rows) x.pk v) ∧
        FormSorted cfg db' x.pk (pos.dest p t.pk)) ∨
      (formSave (manager cfg) db { x with vals := v } false ch (some t) pos = .error .pathOverflow ∧
        LastTaken cfg db (pos.dest p t.pk))) := by
  have hi := (consistent_iff hok).1 h
  obtain ⟨db₁, he⟩ := edited hi hx v
  have hfe : forest cfg db₁ = forest cfg db := by rw [forest_eq he.inv hok, he.forest, forest_eq hi hok]
  obtain ⟨hn, hs1⟩ := edited_sorted he hok hi hs hv
  obtain ⟨p, hp, hmv⟩ := C16_move_partial hok ((consistent_iff hok).2 he.inv) (ordered_true (m := manager cfg) ho) (he.mem hx)
    (he.other ht hoff.1) hn hs1 (formPos_sorted hpos) (by rw [hfe]; exact hoff.not_refused pos)
  rw [hfe] at hp
  refine ⟨p, hp, ?_⟩
  intro hfit
  rcases hmv (fun _ => he.tempFits hok hi hx hfit) with ⟨res, s, e, hm, k1, k2⟩ | ⟨e, hl⟩
  · left
    rw [hfe] at hm
    obtain ⟨h1, h2⟩ := formDone_of hok hm
    rw [he.data] at h2
    refine ⟨res.db, res.node, s, formSave_ok hc ?_ h1, h2, k1, k2⟩
    rw [formPlace_edit_ref he, e]; rfl
  · right
    refine ⟨formSave_error hc ?_, he.lastTaken hok hi hx hl⟩
    rw [formPlace_edit_ref he, e]; rfl

/-- **C44 for MP with `node_order_by`, an existing node and no reference** (partial: `TempFits`): it becomes a root, at
the place of its new values. -/
theorem C44_mp_edit_root_sorted_partial (hok : cfg.Ok) (h : Consistent cfg db) (ho : cfg.orderBy ≠ []) (hs : SortedTree cfg db)
    {x : Row} (hx : x ∈ db.rows) {v : Vals} (hv : NonNull cfg.orderBy v) (pos : Pos) {ch : Changed}
    (hc : ch.Touches cfg.orderBy) (hfit : TempFits cfg db x.pk none) :
    (∃ db' obj s, formSave (manager cfg) db { x with vals := v } false ch none pos = .ok (db', obj) ∧
      FormDone cfg db' obj x.pk ((forest cfg db).move x.pk none s) (editData (data db.rows) x.pk v) ∧
      FormSorted cfg db' x.pk none) ∨
    (formSave (manager cfg) db { x with vals := v } false ch none pos = .error .pathOverflow ∧ LastTaken cfg db none) := by
  have hi := (consistent_iff hok).1 h
  obtain ⟨db₁, he⟩ := edited hi hx v
  have hfe : forest cfg db₁ = forest cfg db := by rw [forest_eq he.inv hok, he.forest, forest_eq hi hok]
  have h1 := (consistent_iff hok).2 he.inv
  obtain ⟨hn, hs1⟩ := edited_sorted he hok hi hs hv
  obtain ⟨r, hr, er, hrr, hrd⟩ := firstRoot_spec hok h1 (List.ne_nil_of_mem (he.mem hx))
  obtain ⟨p, hp, hmv⟩ := C16_move_partial hok h1 (ordered_true (m := manager cfg) ho) (he.mem hx) hr hn hs1 (pos := .sortedSibling)
    (posArg := some .sortedSibling) rfl (by rintro (hd | ⟨hd, _⟩); exacts [hrd _ hd, by cases hd])
  obtain rfl := parent_unique hok h1 hrr hp
  have hplace := formPlace_edit_root he er pos
  rw [show (manager cfg).ordered = true from ordered_true ho] at hplace
  simp only [if_true] at hplace
  rcases hmv (fun _ => he.tempFits hok hi hx hfit) with ⟨res, s, e, hm, k1, k2⟩ | ⟨e, hl⟩
  · left
    rw [hfe] at hm
    obtain ⟨h1, h2⟩ := formDone_of hok hm
    rw [he.data] at h2
    refine ⟨res.db, res.node, s, formSave_ok hc ?_ h1, h2, k1, k2⟩
    rw [hplace, e]; rfl
  · right
    refine ⟨formSave_error hc ?_, he.lastTaken hok hi hx hl⟩
    rw [hplace, e]; rfl

/-! ### Adding a node -/

theorem mem_save {db₁ : DB} {row r : Row} (h : save db row = .ok db₁) (hr : r ∈ db₁.rows) : r = row ∨ r ∈ db.rows := by
  unfold save at h
  simp only at h
  generalize hrows : (if db.rows.any (·.pk == row.pk) then db.rows.map (fun r => if r.pk == row.pk then row else r)
    else db.rows ++ [row]) = rows at h
  split at h
  · injection h with h
    subst h
    simp only at hr
    rw [← hrows] at hr
    split at hr
    · obtain ⟨q, hq, rfl⟩ := List.mem_map.1 hr
      split
      · exact Or.inl rfl
      · exact Or.inr hq
    · rcases List.mem_append.1 hr with hr | hr
      · exact Or.inr hr
      · exact Or.inl (by simpa using hr)
  · cases h

/-- the rows after `add_child`: the old ones, with their paths, and the new one after the last child -/
theorem addChild_rows (hok : cfg.Ok) (h : Inv cfg db.rows) (ho : cfg.ordered = false) {t new : Row} (ht : t ∈ db.rows)
    {db₁ : DB} {obj t' : Row} (e : addChild cfg db t new = .ok (db₁, obj, t')) {r : Row} (hr : r ∈ db₁.rows) :
    (∃ r₀ ∈ db.rows, r₀.pk = r.pk ∧ r₀.path = r.path) ∨
    ∃ n < cfg.cap, r.path = t.path ++ stp cfg n ∧
      (n = 1 ∨ ∃ q ∈ db.rows, ∃ k, 1 ≤ k ∧ n = k + 1 ∧ q.path = t.path ++ stp cfg k) := by
  have hcap := cap_gt_one hok
  unfold addChild at e
  rw [(get?_eq_some h.inv).2 ⟨ht, rfl⟩] at e
  simp only at e
  rw [if_neg (by rw [ho]; simp)] at e
  split at e
  · cases e
  · rename_i P eP
    split at e
    · cases e
    · rename_i db₂ es
      injection e with e; injection e with e1 e; injection e with e2 e3
      subst e1
      rcases mem_save es hr with rfl | hr
      · right
        unfold newChildPath at eP
        split at eP
        · have hgp : getPath cfg t.path ((t.depth : Int) + 1) 1 = .ok (t.path ++ stp cfg 1) := by
            have := getPath_eq hok t.path ((t.depth : Int) + 1) hcap
            rw [show ((t.depth : Int) + 1 - 1) = (t.depth : Int) by omega, basepath_nat, ← h.depth t ht, List.take_length] at this
            simpa using this
          rw [hgp] at eP
          simp only at eP
          split at eP
          · cases eP
          · injection eP with eP
            exact ⟨1, hcap, eP.symm, Or.inl rfl⟩
        · rename_i hleaf
          obtain ⟨last, el, hlm, hlp, hmax⟩ := lastChild_none hok h ht (by simpa using hleaf)
          obtain ⟨n, hn1, hn, hle⟩ := h.sib_pos hlm hlp
          rw [el] at eP
          simp only [hle] at eP
          by_cases hc : n + 1 < cfg.cap
          · rw [incPath_eq hok _ hc] at eP
            injection eP with eP
            exact ⟨n + 1, hc, eP.symm, Or.inr ⟨last, hlm, n, hn1, rfl, hle⟩⟩
          · rw [incPath_overflow hok _ hn (by omega)] at eP
            cases eP
      · left
        obtain ⟨r₀, hr₀, rfl⟩ := List.mem_map.1 hr
        refine ⟨r₀, hr₀, ?_, ?_⟩ <;> split <;> rfl

theorem addChild_target_path {t new : Row} {db₁ : DB} {obj t' : Row} (e : addChild cfg db t new = .ok (db₁, obj, t')) : t'.path = t.path := by
  unfold addChild at e
  split at e
  · cases e
  · split at e
    · split at e
      · cases e
      · split at e
        · cases e
        · injection e with e; injection e with e1 e; injection e with e2 e3; rw [← e3]
    · split at e
      · cases e
      · simp only at e
        split at e
        · cases e
        · injection e with e; injection e with e1 e; injection e with e2 e3; rw [← e3]

/-- The room for a new first child of `t`: `add_child` puts the node last and `move` uses two more positions for a
moment (mp_tree.py:790-798), and does not check that they fit. -/
def NewFits (cfg : Cfg) (db : DB) (t : Nat) : Prop :=
  3 < cfg.alphabet.length ^ cfg.steplen ∧ ∀ r ∈ db.rows, r.pk ∈ forest cfg db (some t) → ∀ n, lastpos cfg r.path = .ok n →
    n + 3 < cfg.alphabet.length ^ cfg.steplen

theorem formPlace_add_ref {db₁ : DB} {t t' new obj : Row} (e : addChild cfg db t new = .ok (db₁, obj, t')) (pos : Pos) :
    formPlace (manager cfg) db new true (some t) pos = (move cfg db₁ obj t' (some pos)).map (fun res => (res.db, res.node)) := by
  unfold formPlace
  simp only [if_true]
  rw [show (manager cfg).addChild db t new = .ok (db₁, obj, t') from e]
  rfl

theorem formPlace_add_ref_error {t new : Row} {er : Err} (e : addChild cfg db t new = .error er) (pos : Pos) :
    formPlace (manager cfg) db new true (some t) pos = .error er := by
  unfold formPlace
  simp only [if_true]
  rw [show (manager cfg).addChild db t new = .error er from e]

/-- PathOverflow when a node is added with a reference: `add_child` raised it, although the node may not be meant to
become a child of the reference, or `move` raised it. -/
def AddOverflow (cfg : Cfg) (db : DB) (t : Row) (p : Option Nat) : Prop :=
  LastTaken cfg db (some t.pk) ∨ (forest cfg db (some t.pk) = [] ∧ cfg.maxLen < t.path.length + cfg.steplen) ∨ LastTaken cfg db p

/-- **C44 for MP, a new node and a reference** (partial: the room for "first child of").  For every consistent tree
without `node_order_by`, every reference and position: the new node stands at this position relative to the
reference, all others keep their places; or PathOverflow is raised. -/
theorem C44_mp_add_partial (hok : cfg.Ok) (h : Consistent cfg db) (ho : cfg.orderBy = []) {t new : Row} (ht : t ∈ db.rows)
    (hf : Fresh db new) {pos : Pos} (hpos : pos ∈ formPositions false) (hfit : pos = .firstChild → NewFits cfg db t.pk)
    {ch : Changed} (hc : ch.Touches cfg.orderBy) :
    ∃ p, t.pk ∈ forest cfg db p ∧
      ((∃ db' obj, formSave (manager cfg) db new true ch (some t) pos = .ok (db', obj) ∧
        FormDone cfg db' obj new.pk ((forest cfg db).put (pos.dest p t.pk) (formSlot t.pk pos) new.pk)
          (data db.rows ++ [(new.pk, new.vals)])) ∨
      (formSave (manager cfg) db new true ch (some t) pos = .error .pathOverflow ∧ AddOverflow cfg db t (pos.dest p t.pk))) := by
  have hi := (consistent_iff hok).1 h
  have hord : cfg.ordered = false := ordered_false (m := manager cfg) ho
  have hF : (forest cfg db).IsForestOn (db.rows.map Row.pk) := by rw [forest_eq hi hok]; exact isForestOn hi.inv hok.step
  have hnew : new.pk ∉ db.rows.map Row.pk := by
    intro hm
    obtain ⟨r, hr, e⟩ := List.mem_map.1 hm
    exact hf.1 r hr e
  have hnoF : ∀ q, new.pk ∉ forest cfg db q := by
    intro q hm
    rw [forest_eq hi hok] at hm
    obtain ⟨r, hr, _, e⟩ := (mem_PF hi.toPInv).1 hm
    exact hf.1 r hr e
  have hmem := mem_forest_par hok hi ht
  have htne : par cfg db.rows t ≠ some t.pk := by
    intro e
    have e := (par_eq_some_iff hi.inv ht).1 e
    obtain ⟨n, _, hn, e2⟩ := hi.pos t ht
    have := congrArg List.length e2
    rw [e, List.length_append, stp_length hok hn] at this
    have := hok.step
    omega
  refine ⟨par cfg db.rows t, hmem, ?_⟩
  rcases C05_add_child hok h hord ht rfl hf with ⟨db₁, obj, t', e, ha⟩ | ⟨e, hl⟩
  · have ht' := C27_mp_target hok h (by rw [hord]; simp) ht hf (by rw [hord]; simp) e
    have hi1 := (consistent_iff hok).1 ha.consistent
    have hoff : (forest cfg db₁).Offered obj.pk t'.pk := by
      rw [ha.forest, ha.obj.2, ht'.2]
      exact offered_new (hF.outside _ hnew) (hf.1 t ht) _ _ (by intro e; exact hf.1 t ht (Option.some.inj e))
    obtain ⟨p, hp, hmv⟩ := C07_move_partial hok ha.consistent hord ha.obj.1 ht'.1 (formPos_plain hpos) (posArg := some pos)
      (Or.inl rfl) (hoff.not_refused pos)
    have hpp : p = par cfg db.rows t := by
      refine parent_unique hok ha.consistent hp ?_
      rw [ha.forest, ht'.2]
      unfold Forest.put
      rw [if_neg htne]
      exact hmem
    subst hpp
    have hdest : pos ≠ .firstChild → pos.dest (par cfg db.rows t) t'.pk = par cfg db.rows t := by
      intro hne
      simp only [formPositions, Bool.false_eq_true, if_false, List.mem_cons, List.not_mem_nil, or_false] at hpos
      rcases hpos with rfl | rfl | rfl
      · exact absurd rfl hne
      · rfl
      · rfl
    have hkids : ∀ q ∈ db.rows, ∀ k, q.path = t.path ++ stp cfg k → k < cfg.cap → q.pk ∈ forest cfg db (some t.pk) ∧ lastpos cfg q.path = .ok k := by
      intro q hq k ek hk
      refine ⟨?_, by rw [ek]; exact lastpos_eq hok _ hk⟩
      rw [forest_eq hi hok, mem_PF hi.toPInv]
      exact ⟨q, hq, (par_eq_some_iff hi.inv ht).2 (by rw [ek, pp_step hok _ hk]), rfl⟩
    have hfit1 : TempFits cfg db₁ obj.pk (pos.dest (par cfg db.rows t) t'.pk) := by
      by_cases hfc : pos = .firstChild
      · subst hfc
        obtain ⟨hf1, hf2⟩ := hfit rfl
        intro _ r hr hrm n hn
        rw [ha.forest, ht'.2] at hrm
        rcases addChild_rows hok hi hord ht e hr with ⟨r₀, hr₀, e1, e2⟩ | ⟨m, hm, e1, e2⟩
        · have : r₀.pk ∈ forest cfg db (some t.pk) := by
            have hne : r.pk ≠ new.pk := by rw [← e1]; exact hf.1 r₀ hr₀
            rw [e1]
            have hrm' : r.pk ∈ forest cfg db (some t.pk) ++ [new.pk] := by
              simpa [Pos.dest, Pos.isChild, Forest.put, Slot.ins] using hrm
            rcases List.mem_append.1 hrm' with h | h
            · exact h
            · exact absurd (by simpa using h) hne
          have := hf2 r₀ hr₀ this n (by rw [e2]; exact hn)
          omega
        · rw [e1, lastpos_eq hok _ hm] at hn
          have hn : m = n := by injection hn
          subst hn
          rcases e2 with rfl | ⟨q, hq, k, hk1, rfl, eq⟩
          · omega
          · obtain ⟨k1, k2⟩ := hkids q hq k eq (by omega)
            have := hf2 q hq k1 k k2
            omega
      · rw [hdest hfc]
        intro hm
        rw [ha.forest, ha.obj.2] at hm
        unfold Forest.put at hm
        rw [if_neg htne] at hm
        exact absurd hm (hnoF _)
    rcases hmv (fun _ => hfit1) with ⟨res, e', hm⟩ | ⟨e', hl⟩
    · left
      rw [moveAsked_form hoff.1 hpos, ha.forest, ha.obj.2, put_move hnoF, ht'.2] at hm
      obtain ⟨h1, h2⟩ := formDone_of hok hm
      rw [ha.data, ha.obj.2] at h2
      refine ⟨res.db, res.node, formSave_ok hc ?_ h1, h2⟩
      rw [formPlace_add_ref e, e']; rfl
    · right
      refine ⟨formSave_error hc (by rw [formPlace_add_ref e, e']; rfl), ?_⟩
      obtain ⟨r, hr, hrm, hsuf⟩ := hl
      rw [ha.forest, ht'.2] at hrm
      rcases addChild_rows hok hi hord ht e hr with ⟨r₀, hr₀, e1, e2⟩ | ⟨m, hm, e1, e2⟩
      · refine Or.inr (Or.inr ⟨r₀, hr₀, ?_, by rw [e2]; exact hsuf⟩)
        rw [e1]
        unfold Forest.put at hrm
        have hne : r.pk ≠ new.pk := by rw [← e1]; exact hf.1 r₀ hr₀
        split at hrm
        · rename_i heq
          rw [heq] at hrm ⊢
          rcases List.mem_append.1 hrm with h | h
          · exact h
          · exact absurd (by simpa using h) hne
        · exact hrm
      · -- the new child has the very last position: then there was no room left
        exfalso
        have hsm : stp cfg (cfg.cap - 1) = stp cfg m := by
          rw [max_eq_stp hok, e1] at hsuf
          have hcap := cap_gt_one hok
          exact (List.suffix_of_suffix_length_le hsuf (List.suffix_append _ _)
            (by rw [stp_length hok (by omega), stp_length hok hm])).eq_of_length (by rw [stp_length hok (by omega), stp_length hok hm])
        have hm1 : cfg.cap - 1 = m := stp_inj hok (by have := cap_gt_one hok; omega) hm hsm
        by_cases hfc : pos = .firstChild
        · obtain ⟨hf1, hf2⟩ := hfit hfc
          change 3 < cfg.cap at hf1
          rcases e2 with rfl | ⟨q, hq, k, hk1, rfl, eq⟩
          · omega
          · obtain ⟨k1, k2⟩ := hkids q hq k eq (by omega)
            have := hf2 q hq k1 k k2
            change k + 3 < cfg.cap at this
            omega
        · have hd := hdest hfc
          rw [ht'.2] at hd
          rw [hd] at hrm
          have h1 : r.pk ∈ forest cfg db₁ (par cfg db.rows t) := by rw [ha.forest]; exact hrm
          have h2 : r.pk ∈ forest cfg db₁ (some t'.pk) := by
            rw [forest_eq hi1 hok, mem_PF hi1.toPInv]
            refine ⟨r, hr, (par_eq_some_iff hi1.inv ht'.1).2 ?_, rfl⟩
            rw [e1, pp_step hok _ hm, addChild_target_path e]
          have := parent_unique hok ha.consistent h1 h2
          rw [ht'.2] at this
          exact htne this
  · right
    refine ⟨formSave_error hc (formPlace_add_ref_error e pos), ?_⟩
    rcases hl with hl | hl
    · exact Or.inl hl
    · exact Or.inr (Or.inl hl)

theorem formPlace_add_root (db : DB) (new : Row) (pos : Pos) : formPlace (manager cfg) db new true none pos = addRoot cfg db new := rfl

/-- **C44 for MP, a new node and no reference**: it becomes the last root. -/
theorem C44_mp_add_root (hok : cfg.Ok) (h : Consistent cfg db) (ho : cfg.orderBy = []) {new : Row} (hf : Fresh db new) (pos : Pos)
    {ch : Changed} (hc : ch.Touches cfg.orderBy) :
    (∃ db' obj, formSave (manager cfg) db new true ch none pos = .ok (db', obj) ∧
      FormDone cfg db' obj new.pk ((forest cfg db).put none .last new.pk) (data db.rows ++ [(new.pk, new.vals)])) ∨
    (formSave (manager cfg) db new true ch none pos = .error .pathOverflow ∧ LastTaken cfg db none) := by
  rcases C05_add_root hok h (ordered_false (m := manager cfg) ho) hf with ⟨db₁, obj, e, ha⟩ | ⟨e, hl⟩
  · exact Or.inl ⟨db₁, obj, formSave_ok hc ((formPlace_add_root db new pos).trans e)
      (settled ((consistent_iff hok).1 ha.consistent) ha.obj.1 rfl), ha.consistent, ha.forest, ha.data, ha.obj⟩
  · exact Or.inr ⟨formSave_error hc ((formPlace_add_root db new pos).trans e), hl⟩

/-- **C44 for MP with `node_order_by`, a new node and no reference**: it becomes a root, at its sorted place. -/
theorem C44_mp_add_root_sorted (hok : cfg.Ok) (h : Consistent cfg db) (ho : cfg.orderBy ≠ []) (hs : SortedTree cfg db) {new : Row}
    (hf : Fresh db new) (hv : NonNull cfg.orderBy new.vals) (pos : Pos) {ch : Changed} (hc : ch.Touches cfg.orderBy) :
    (∃ db' obj s, formSave (manager cfg) db new true ch none pos = .ok (db', obj) ∧
      FormDone cfg db' obj new.pk ((forest cfg db).put none s new.pk) (data db.rows ++ [(new.pk, new.vals)]) ∧
      FormSorted cfg db' new.pk none) ∨
    (formSave (manager cfg) db new true ch none pos = .error .pathOverflow ∧ LastTaken cfg db none) := by
  rcases C16_add_root hok h (ordered_true (m := manager cfg) ho) hs hf hv with ⟨db₁, obj, e, ⟨s, ha⟩, k1, k2⟩ | ⟨e, hl⟩
  · exact Or.inl ⟨db₁, obj, s, formSave_ok hc ((formPlace_add_root db new pos).trans e)
      (settled ((consistent_iff hok).1 ha.consistent) ha.obj.1 rfl), ⟨ha.consistent, ha.forest, ha.data, ha.obj⟩, k1, k2⟩
  · exact Or.inr ⟨formSave_error hc ((formPlace_add_root db new pos).trans e), hl⟩

/-- **C44 for MP with `node_order_by`, a new node and a reference.**  The new node is below the reference or its parent, at its sorted place. -/
theorem C44_mp_add_sorted (hok : cfg.Ok) (h : Consistent cfg db) (ho : cfg.orderBy ≠ []) (hs : SortedTree cfg db) {t new : Row}
    (ht : t ∈ db.rows) (hf : Fresh db new) (hv : NonNull cfg.orderBy new.vals) {pos : Pos} (hpos : pos ∈ formPositions true)
    {ch : Changed} (hc : ch.Touches cfg.orderBy) :
    ∃ p, t.pk ∈ forest cfg db p ∧
      ((∃ db' obj s, formSave (manager cfg) db new true ch (some t) pos = .ok (db', obj) ∧
        FormDone cfg db' obj new.pk ((forest cfg db).put (pos.dest p t.pk) s new.pk) (data db.rows ++ [(new.pk, new.vals)]) ∧
        FormSorted cfg db' new.pk (pos.dest p t.pk)) ∨
      (formSave (manager cfg) db new true ch (some t) pos = .error .pathOverflow ∧
        (LastTaken cfg db (some t.pk) ∨ (forest cfg db (some t.pk) = [] ∧ cfg.maxLen < t.path.length + cfg.steplen) ∨
          ∃ db₁ obj t', addChild cfg db t new = .ok (db₁, obj, t') ∧ LastTaken cfg db₁ (pos.dest p t.pk)))) := by
  have hi := (consistent_iff hok).1 h
  have hord : cfg.ordered = true := ordered_true (m := manager cfg) ho
  have hF : (forest cfg db).IsForestOn (db.rows.map Row.pk) := by rw [forest_eq hi hok]; exact isForestOn hi.inv hok.step
  have hnew : new.pk ∉ db.rows.map Row.pk := by
    intro hm
    obtain ⟨r, hr, e⟩ := List.mem_map.1 hm
    exact hf.1 r hr e
  have hnoF : ∀ q, new.pk ∉ forest cfg db q := by
    intro q hm
    rw [forest_eq hi hok] at hm
    obtain ⟨r, hr, _, e⟩ := (mem_PF hi.toPInv).1 hm
    exact hf.1 r hr e
  have hmem := mem_forest_par hok hi ht
  have htne : par cfg db.rows t ≠ some t.pk := by
    intro e
    have e := (par_eq_some_iff hi.inv ht).1 e
    obtain ⟨n, _, hn, e2⟩ := hi.pos t ht
    have := congrArg List.length e2
    rw [e, List.length_append, stp_length hok hn] at this
    have := hok.step
    omega
  refine ⟨par cfg db.rows t, hmem, ?_⟩
  rcases C16_add_child hok h hord hs ht rfl hf hv with ⟨db₁, obj, t', e, ⟨s, ha⟩, hs1, _⟩ | ⟨e, hl⟩
  · have ht' := C27_mp_target hok h (fun _ => hs) ht hf (fun _ => hv) e
    have hoff : (forest cfg db₁).Offered obj.pk t'.pk := by
      rw [ha.forest, ha.obj.2, ht'.2]
      exact offered_new (hF.outside _ hnew) (hf.1 t ht) _ _ (by intro e; exact hf.1 t ht (Option.some.inj e))
    obtain ⟨p, hp, hmv⟩ := C16_move_partial hok ha.consistent hord ha.obj.1 ht'.1 hs1.nonNull (SortedBy.remove hs1.sorted obj.pk)
      (formPos_sorted hpos) (hoff.not_refused pos)
    have hpp : p = par cfg db.rows t := by
      refine parent_unique hok ha.consistent hp ?_
      rw [ha.forest, ht'.2]
      unfold Forest.put
      rw [if_neg htne]
      exact hmem
    subst hpp
    rcases hmv (moveFits_sorted hs1 _ _ _ (sorted_of_prep (formPos_sorted hpos))) with ⟨res, s', e', hm, k1, k2⟩ | ⟨e', hl⟩
    · left
      rw [ha.forest, ha.obj.2, put_move hnoF, ht'.2] at hm
      obtain ⟨h1, h2⟩ := formDone_of hok hm
      rw [ha.data, ha.obj.2] at h2
      rw [ha.obj.2, ht'.2] at k2
      refine ⟨res.db, res.node, s', formSave_ok hc ?_ h1, h2, k1, k2⟩
      rw [formPlace_add_ref e, e']; rfl
    · right
      rw [ht'.2] at hl
      exact ⟨formSave_error hc (by rw [formPlace_add_ref e, e']; rfl), Or.inr (Or.inr ⟨db₁, obj, t', e, hl⟩)⟩
  · right
    refine ⟨formSave_error hc (formPlace_add_ref_error e pos), ?_⟩
    rcases hl with hl | hl
    · exact Or.inl hl
    · exact Or.inr (Or.inl hl)

/-! ### What the form shows and offers -/

/-- **C44 for MP, the initial values**: the form can always be built, and it shows where the node is. -/
theorem C44_mp_initial (hok : cfg.Ok) (h : Consistent cfg db) {x : Row} (hx : x ∈ db.rows) (ordered : Bool) :
    ∃ ref pos, formInitial ordered (mpNav cfg db x) = .ok (ref, pos) ∧ pos ∈ formPositions ordered ∧
      (forest cfg db).ShowsPlace x.pk ref pos :=
  formInitial_shows (C10_nav hok h hx) (fun _ _ h1 h2 => parent_unique hok h h1 h2) ordered

/-- **C44 for MP, the offered references**: exactly the nodes outside the branch of the instance, and every node for a
new instance. -/
theorem C44_mp_offered (hok : cfg.Ok) (h : Consistent cfg db) :
    (∀ x ∈ db.rows, ∀ k, k ∈ formRefs ((getTree db none none).map Row.pk) ((descendants db x true none).map Row.pk) ↔
      k ∈ db.rows.map Row.pk ∧ (forest cfg db).Offered x.pk k) ∧
    ∀ k, k ∈ formRefs ((getTree db none none).map Row.pk) [] ↔ k ∈ db.rows.map Row.pk := by
  have hi := (consistent_iff hok).1 h
  have hF : (forest cfg db).IsForestOn (db.rows.map Row.pk) := by rw [forest_eq hi hok]; exact isForestOn hi.inv hok.step
  have hall := C11_mp hok h (p := none) (by simp) none
  refine ⟨fun x hx k => ?_, fun k => formRefs_add hF hall k⟩
  exact formRefs_edit hF hall (C11_mp hok h (p := some x) (by rintro q e; cases e; exact hx) none) k

/-! ### The admin's drag and drop -/

/-- **C52 for MP** (partial: `MoveFits`, which says nothing for the drop as a child).  Dragging a node onto another makes it the last child of the other, or puts
it immediately to its left; below itself it is refused. -/
theorem C52_mp_partial (hok : cfg.Ok) (h : Consistent cfg db) (ho : cfg.orderBy = []) {x t : Row} (hx : x ∈ db.rows) (ht : t ∈ db.rows)
    (child : Bool) :
    ∃ p, t.pk ∈ forest cfg db p ∧
      ((forest cfg db).MoveRefused x.pk t.pk (adminPos child false) →
        adminMove (manager cfg) db x t child = .error .invalidMoveToDescendant) ∧
      (¬ (forest cfg db).MoveRefused x.pk t.pk (adminPos child false) → MoveFits cfg db x.pk p t.pk (adminPos child false) →
        (∃ db' obj, adminMove (manager cfg) db x t child = .ok (db', obj) ∧
          FormDone cfg db' obj x.pk (if child then (forest cfg db).move x.pk (some t.pk) .last
            else if t.pk = x.pk then forest cfg db else (forest cfg db).move x.pk p (.before t.pk)) (data db.rows)) ∨
        (adminMove (manager cfg) db x t child = .error .pathOverflow ∧ LastTaken cfg db (if child then some t.pk else p))) := by
  have hi := (consistent_iff hok).1 h
  have hord : (manager cfg).ordered = false := ordered_false ho
  have hord' : cfg.ordered = false := hord
  have hplain : IsPlainPos (adminPos child false) := by
    cases child
    · exact Or.inl (Or.inr (Or.inl rfl))
    · exact Or.inr (Or.inr rfl)
  refine ⟨par cfg db.rows t, mem_forest_par hok hi ht, ?_, ?_⟩
  · intro hr
    refine adminMove_error ?_
    rw [hord, manager_move, C08_mp hok h hx ht (by rw [hord']; exact plainPos_prep hplain (Or.inl rfl)) hr]
    rfl
  · intro hr hfit
    obtain ⟨p, hp, hmv⟩ := C07_move_partial hok h hord' hx ht hplain (posArg := some _) (Or.inl rfl) hr
    obtain rfl := parent_unique hok h hp (mem_forest_par hok hi ht)
    have hd : (adminPos child false).dest (par cfg db.rows t) t.pk = if child then some t.pk else par cfg db.rows t := by cases child <;> rfl
    rw [hd] at hmv
    have hF : (forest cfg db).moveAsked x.pk (par cfg db.rows t) t.pk (adminPos child false) =
      if child then (forest cfg db).move x.pk (some t.pk) .last
        else if t.pk = x.pk then forest cfg db else (forest cfg db).move x.pk (par cfg db.rows t) (.before t.pk) := by cases child <;> rfl
    rw [hF] at hmv
    rcases hmv hfit with ⟨res, e, hm⟩ | ⟨e, hl⟩
    · obtain ⟨h1, h2⟩ := formDone_of hok hm
      refine Or.inl ⟨res.db, res.node, adminMove_ok (obj := res.node) ?_ h1, h2⟩
      rw [hord, manager_move, e]; rfl
    · refine Or.inr ⟨adminMove_error ?_, hl⟩
      rw [hord, manager_move, e]; rfl

/-- **C52 for MP with `node_order_by`**: the node goes below the other or its parent, at its sorted
place. -/
theorem C52_mp_sorted (hok : cfg.Ok) (h : Consistent cfg db) (ho : cfg.orderBy ≠ []) (hs : SortedTree cfg db) {x t : Row}
    (hx : x ∈ db.rows) (ht : t ∈ db.rows) (child : Bool) (hr : ¬ (forest cfg db).MoveRefused x.pk t.pk (adminPos child true)) :
    ∃ p, t.pk ∈ forest cfg db p ∧ (
        (∃ db' obj s, adminMove (manager cfg) db x t child = .ok (db', obj) ∧
          FormDone cfg db' obj x.pk ((forest cfg db).move x.pk (if child then some t.pk else p) s) (data db.rows) ∧
          FormSorted cfg db' x.pk (if child then some t.pk else p)) ∨
        (adminMove (manager cfg) db x t child = .error .pathOverflow ∧ LastTaken cfg db (if child then some t.pk else p))) := by
  have hord : (manager cfg).ordered = true := ordered_true ho
  obtain ⟨p, hp, hmv⟩ := C16_move hok h hord hs hx ht (pos := adminPos child true)
    (posArg := some (adminPos child true)) (by cases child <;> rfl) hr
  have hd : (adminPos child true).dest p t.pk = if child then some t.pk else p := by cases child <;> rfl
  rw [hd] at hmv
  refine ⟨p, hp, ?_⟩
  rcases hmv with ⟨res, s, e, hm, k1, k2⟩ | ⟨e, hl⟩
  · obtain ⟨h1, h2⟩ := formDone_of hok hm
    refine Or.inl ⟨res.db, res.node, s, adminMove_ok (obj := res.node) ?_ h1, h2, k1, k2⟩
    rw [hord, manager_move, e]; rfl
  · refine Or.inr ⟨adminMove_error ?_, hl⟩
    rw [hord, manager_move, e]; rfl

/-! ### Cases, and where the form does not do what it says -/

/-- node 4 is edited: before node 2, and to the front; a new node before node 3; no reference.  The form for node 3 shows
"after 2" and offers 1, 2 and 5. -/
example : Consistent exCfg exDB ∧ (forest exCfg exDB).Offered 4 2 ∧
    (∃ db' obj, formSave (manager exCfg) exDB ⟨4, [49, 51, 49], 3, 0, [some 7]⟩ false ⟨true, true, []⟩ (some ⟨2, [49, 49], 2, 0, []⟩) .left = .ok (db', obj) ∧
      forest exCfg db' (some 1) = [4, 2, 3] ∧ obj = ⟨4, [49, 49], 2, 0, [some 7]⟩) ∧
    (∃ db' obj, formSave (manager exCfg) exDB ⟨4, [49, 51, 49], 3, 0, []⟩ false ⟨true, false, []⟩ none .right = .ok (db', obj) ∧
      forest exCfg db' none = [4, 1, 5]) ∧
    (∃ db' obj, formSave (manager exCfg) exDB ⟨9, [], 0, 0, []⟩ true ⟨true, true, []⟩ (some ⟨3, [49, 51], 2, 1, []⟩) .left = .ok (db', obj) ∧
      forest exCfg db' (some 1) = [2, 9, 3] ∧ forest exCfg db' (some 3) = [4]) ∧
    formInitial false (mpNav exCfg exDB ⟨3, [49, 51], 2, 1, []⟩) = .ok (some 2, .right) ∧
    formRefs ((getTree exDB none none).map Row.pk) ((descendants exDB ⟨3, [49, 51], 2, 1, []⟩ true none).map Row.pk) = [1, 2, 5] := by
  refine ⟨exDB_consistent, ⟨by decide, ?_⟩, ⟨_, _, rfl, by decide, by decide⟩, ⟨_, _, rfl, by decide⟩, ⟨_, _, rfl, by decide, by decide⟩, by decide, by decide⟩
  have hl := (C11_mp exCfg_ok exDB_consistent (p := some ⟨4, [49, 51, 49], 3, 0, []⟩) (by rintro q e; cases e; decide) none).mem_branch 2
  intro hd
  have := hl.2 (Or.inr hd)
  revert this
  decide

/-- one descending order field -/
def descCfg : Cfg := ⟨List.range' 48 10, 1, [(0, true)], 10⟩
/-- two roots, with the values 3 and 1 -/
def descDB : DB := { rows := [⟨1, [49], 1, 0, [some 3]⟩, ⟨2, [50], 1, 0, [some 1]⟩] }

/-- **C44 fails for descending order fields**: `node_order_by = ["-num"]`, and the user edits only `num` in the form of
the first root, from 3 to 0.  `"-num"` is not the name of a form field, so the form believes that the tree is not
affected (forms.py:166-172) and leaves the node first: the tree is not sorted any more.  The same edit with
`node_order_by = ["num"]` moves the node. -/
theorem C44_descending_unsorted : Consistent descCfg descDB ∧ SortedTree descCfg descDB ∧
    ∃ db' obj, formSave (manager descCfg) descDB ⟨1, [49], 1, 0, [some 0]⟩ false ⟨false, false, [0]⟩ none .sortedChild = .ok (db', obj) ∧
      forest descCfg db' none = [1, 2] ∧ ¬ SortedTree descCfg db' := by
  have hcons : Consistent descCfg descDB := ⟨by decide, by decide, by intro p; cases p <;> decide, by decide, by decide⟩
  refine ⟨hcons, ⟨?_, ?_⟩, _, _, rfl, by decide, ?_⟩
  · intro r hr e he
    simp only [descDB, List.mem_cons, List.not_mem_nil, or_false] at hr
    simp only [descCfg, List.mem_cons, List.not_mem_nil, or_false] at he
    rcases hr with rfl | rfl <;> subst he <;> exact ⟨_, rfl⟩
  · intro p
    cases p with
    | none =>
      rw [show forest descCfg descDB none = [1, 2] by decide]
      simp only [List.pairwise_cons, List.mem_singleton, forall_eq, List.not_mem_nil, false_imp_iff, implies_true, List.Pairwise.nil, and_true]
      decide
    | some k =>
      have : forest descCfg descDB (some k) = [] := by
        have hi := (consistent_iff (cfg := descCfg) ⟨by decide, by decide, by decide⟩).1 hcons
        by_cases hk : k ∈ descDB.rows.map Row.pk
        · revert k; decide
        · rw [forest_eq hi ⟨by decide, by decide, by decide⟩]
          exact (isForestOn hi.inv (by decide)).outside k hk
      rw [this]
      exact List.Pairwise.nil
  · intro hs
    have := hs.sorted none
    rw [show forest descCfg _ none = [1, 2] by decide] at this
    simp only [List.pairwise_cons, List.mem_singleton, forall_eq] at this
    exact this.1 (by decide)

/-- paths of at most two characters -/
def flatCfg : Cfg := ⟨List.range' 48 10, 1, [], 2⟩
/-- a root and its child, whose path has the greatest length -/
def flatDB : DB := { rows := [⟨1, [49], 1, 1, []⟩, ⟨2, [49, 49], 2, 0, []⟩] }

/-- **C44 fails next to the deepest nodes**: the form for a new node with "before 2" raises PathOverflow, because it makes
the node a child of the reference first (forms.py:176), and children of node 2 do not fit.  `add_sibling` puts the
same node there without a problem. -/
theorem C44_mp_needless_overflow : Consistent flatCfg flatDB ∧ (⟨2, [49, 49], 2, 0, []⟩ : Row) ∈ flatDB.rows ∧
    formSave (manager flatCfg) flatDB ⟨9, [], 0, 0, []⟩ true ⟨true, true, []⟩ (some ⟨2, [49, 49], 2, 0, []⟩) .left = .error .pathOverflow ∧
    ∃ db' obj, addSibling flatCfg flatDB ⟨2, [49, 49], 2, 0, []⟩ (some .left) ⟨9, [], 0, 0, []⟩ = .ok (db', obj) ∧
      forest flatCfg db' (some 1) = [9, 2] :=
  ⟨⟨by decide, by decide, by intro p; cases p <;> decide, by decide, by decide⟩, by decide, rfl, _, _, rfl, by decide⟩

/-- dragging in the example -/
example : (∃ db' obj, adminMove (manager exCfg) exDB ⟨4, [49, 51, 49], 3, 0, []⟩ ⟨1, [49], 1, 2, []⟩ true = .ok (db', obj) ∧
      forest exCfg db' (some 1) = [2, 3, 4]) ∧
    (∃ db' obj, adminMove (manager exCfg) exDB ⟨4, [49, 51, 49], 3, 0, []⟩ ⟨2, [49, 49], 2, 0, []⟩ false = .ok (db', obj) ∧
      forest exCfg db' (some 1) = [4, 2, 3]) ∧
    adminMove (manager exCfg) exDB ⟨1, [49], 1, 2, []⟩ ⟨4, [49, 51, 49], 3, 0, []⟩ true = .error .invalidMoveToDescendant :=
  ⟨⟨_, _, rfl, by decide⟩, ⟨_, _, rfl, by decide⟩, rfl⟩

end Verif.MP
