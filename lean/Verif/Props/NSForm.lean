/-
C44 and C52 for NS: the move form and the drag and drop of the admin.
-/
import Verif.FormLemmas
import Verif.NS.Stale
import Verif.NS.Dump
import Verif.Props.NSQuery

namespace Verif.NS

variable {cfg : Cfg} {db : DB}

/-- the form's view of an NS manager.  The objects the form passes as target were just fetched, so they have no cached
parent. -/
def manager (cfg : Cfg) : Manager DB Row where
  orderBy := cfg.orderBy
  addRoot := addRoot cfg
  addChild := addChild cfg
  move := fun db x t pos => (move cfg db x t none (some pos)).map (fun res => (res.db, res.node))
  save := fun db x => .ok (save db x)
  refresh := fun db x => match db.get? x.pk with
    | none => .error .doesNotExist
    | some r => .ok r
  firstRoot := firstRootNode

/-! ### Vocabulary -/

/-- After saving the form: the table is consistent, its forest is `F`, its data are `D` and the form's instance is
the stored row of the node `k`. -/
structure FormDone (db' : DB) (obj : Row) (k : Nat) (F : Forest) (D : List (Nat × Vals)) : Prop where
  consistent : Consistent db'
  forest : forest db' = F
  data : data db'.rows = D
  obj : obj ∈ db'.rows ∧ obj.pk = k

/-- The outcome with `node_order_by`: the node is below `p`, at its sorted place, and the whole tree is sorted. -/
structure FormSorted (cfg : Cfg) (db' : DB) (k : Nat) (p : Option Nat) : Prop where
  tree : SortedTree cfg db'
  place : (forest db').SortedAt cfg.orderBy (valsIn (data db'.rows)) p k

/-- The references next to which a new node can be added: those without children, the roots, and those with a sibling after
them. -/
def SafeRef (F : Forest) (t : Nat) : Prop := F (some t) = [] ∨ t ∈ F none ∨ ∀ p, (F p).getLast? ≠ some t

/-! ### Lemmas -/

theorem settled (h : NInv db.rows) {x r : Row} (hr : r ∈ db.rows) (hk : r.pk = x.pk) : Settled (manager cfg) db x r := by
  constructor
  · show (match db.get? x.pk with | none => _ | some r => _) = _
    rw [(get?_eq_some h.toNI).2 ⟨hr, hk⟩]
  · show Except.ok (save db r) = .ok db
    unfold save
    have hany : db.rows.any (·.pk == r.pk) = true := List.any_eq_true.2 ⟨r, hr, by simp⟩
    have hmap : db.rows.map (fun q => if q.pk == r.pk then r else q) = db.rows := by
      conv_rhs => rw [← List.map_id db.rows]
      refine List.map_congr_left (fun q hq => ?_)
      by_cases e : q.pk = r.pk
      · simp [h.pk_inj hq hr e]
      · simp [e]
    rw [if_pos hany, hmap]

/-- the new row, where a row with the same key is -/
def edit (x : Row) (v : Vals) (r : Row) : Row := if r.pk == x.pk then { x with vals := v } else r

/-- the table after the instance was saved -/
structure Edited (db db₁ : DB) (x : Row) (v : Vals) : Prop where
  save : save db { x with vals := v } = db₁
  rows : db₁.rows = db.rows.map (edit x v)
  inv : NInv db₁.rows
  forest : forest db₁ = forest db
  data : data db₁.rows = editData (data db.rows) x.pk v

theorem edit_same (h : NInv db.rows) {x : Row} (hx : x ∈ db.rows) (v : Vals) {r : Row} (hr : r ∈ db.rows) :
    edit x v r = { r with vals := (edit x v r).vals } := by
  unfold edit
  by_cases e : r.pk = x.pk
  · rw [h.pk_inj hr hx e]; simp
  · simp [e]

theorem edited (h : NInv db.rows) {x : Row} (hx : x ∈ db.rows) (v : Vals) : ∃ db₁, Edited db db₁ x v := by
  have hs := fun r hr => edit_same h hx v (r := r) hr
  have hre : Relabel db.rows (edit x v) id (fun _ e => e) :=
    ⟨fun r hr => by rw [hs r hr], fun r hr => by rw [hs r hr], fun r hr => by rw [hs r hr]; rfl, fun r hr => by rw [hs r hr],
      fun r hr => by rw [hs r hr], fun _ _ _ _ h => h, fun _ _ _ _ _ h => h, fun r hr => h.tree r hr, fun _ _ => rfl, fun r hr => h.one r hr⟩
  have hi : NInv (db.rows.map (edit x v)) := by
    refine ⟨hre.ni h.toNI, ?_⟩
    intro r' hr' i h1 h2
    obtain ⟨r, hr, rfl⟩ := List.mem_map.1 hr'
    rw [hre.lft r hr] at h1
    rw [hre.rgt r hr] at h2
    obtain ⟨q, hq, h3, h4⟩ := h.full r hr i h1 h2
    refine ⟨edit x v q, List.mem_map_of_mem hq, ?_, ?_⟩
    · rw [hre.tree q hq, hre.tree r hr]; exact h3
    · rw [hre.lft q hq, hre.rgt q hq]; exact h4
  refine ⟨{ db with rows := db.rows.map (edit x v) }, ?_, rfl, hi, ?_, ?_⟩
  · unfold save
    have hany : db.rows.any (·.pk == ({ x with vals := v } : Row).pk) = true := List.any_eq_true.2 ⟨x, hx, by simp⟩
    rw [if_pos hany]
    rfl
  · rw [forest_eq hi.toNI, forest_eq h.toNI]
    exact hre.forest h.toNI
  · show data (db.rows.map (edit x v)) = _
    unfold data editData
    rw [List.map_map, List.map_map]
    refine List.map_congr_left (fun r hr => ?_)
    unfold edit
    by_cases e : r.pk = x.pk <;> simp [e]

theorem Edited.mem {db₁ : DB} {x : Row} {v : Vals} (h : Edited db db₁ x v) (hx : x ∈ db.rows) :
    { x with vals := v } ∈ db₁.rows := by
  rw [h.rows]
  exact List.mem_map.2 ⟨x, hx, by simp [edit]⟩

theorem Edited.other {db₁ : DB} {x t : Row} {v : Vals} (h : Edited db db₁ x v) (ht : t ∈ db.rows) (hne : t.pk ≠ x.pk) :
    t ∈ db₁.rows := by
  rw [h.rows]
  exact List.mem_map.2 ⟨t, ht, by simp [edit, hne]⟩

theorem formPlace_edit_ref {db₁ : DB} {x t : Row} {v : Vals} (h : Edited db db₁ x v) (pos : Pos) :
    formPlace (manager cfg) db { x with vals := v } false (some t) pos =
      (move cfg db₁ { x with vals := v } t none (some pos)).map (fun res => (res.db, res.node)) := by
  unfold formPlace
  simp only [Bool.false_eq_true, if_false]
  rw [show (manager cfg).save db { x with vals := v } = .ok db₁ from congrArg Except.ok h.save]
  rfl

theorem formPlace_edit_root {db₁ : DB} {x r : Row} {v : Vals} (h : Edited db db₁ x v) (hr : firstRootNode db₁ = some r) (pos : Pos) :
    formPlace (manager cfg) db { x with vals := v } false none pos =
      (move cfg db₁ { x with vals := v } r none (some (if (manager cfg).ordered then .sortedSibling else .firstSibling))).map
        (fun res => (res.db, res.node)) := by
  unfold formPlace
  simp only [Bool.false_eq_true, if_false]
  rw [show (manager cfg).save db { x with vals := v } = .ok db₁ from congrArg Except.ok h.save]
  simp only
  rw [show (manager cfg).firstRoot db₁ = some r from hr]
  rfl

/-- the outcome of the move, turned into the outcome of the form -/
theorem formDone_of {db₁ : DB} {res : MoveResult} {x t : Row} {F : Forest} (hm : MovedTo db₁ res x t F) :
    Settled (manager cfg) res.db res.node res.node ∧ FormDone res.db res.node x.pk F (data db₁.rows) :=
  ⟨settled hm.consistent hm.node.1 rfl, hm.consistent, hm.forest, hm.data, hm.node⟩

theorem cacheOk_none (db : DB) (t : Row) : CacheOk db t none := by rintro p ⟨⟩

theorem formPos_prep {pos : Pos} (hpos : pos ∈ formPositions false) : preparePosForMove false (some pos) = .ok pos := by
  simp only [formPositions, Bool.false_eq_true, if_false, List.mem_cons, List.not_mem_nil, or_false] at hpos
  rcases hpos with rfl | rfl | rfl <;> decide

/-- the first root is a root, and nothing is above it -/
theorem firstRoot_spec (h : Consistent db) (hne : db.rows ≠ []) :
    ∃ r ∈ db.rows, firstRootNode db = some r ∧ r.pk ∈ forest db none ∧ ∀ x, ¬ (forest db).Desc x r.pk := by
  cases e : rootNodes db with
  | nil =>
    exfalso
    obtain ⟨r, hr⟩ := List.exists_mem_of_ne_nil _ hne
    obtain ⟨l, hd, _, hp⟩ := (isForestOn h).listing
    have : forest db none = [] := by show (rootNodes db).map Row.pk = []; rw [e]; rfl
    have hm : r.pk ∈ l := hp.mem_iff.2 (by rw [keys_eq]; exact List.mem_map_of_mem hr)
    rw [Forest.DFS.mem hd, this] at hm
    obtain ⟨c, hc, _⟩ := hm
    simp at hc
  | cons r l =>
    have hr : r ∈ rootNodes db := by rw [e]; simp
    have hm : r.pk ∈ forest db none := List.mem_map_of_mem hr
    refine ⟨r, (mem_rootNodes.1 hr).1, by unfold firstRootNode; rw [e]; rfl, hm, ?_⟩
    intro x hd
    cases hd with
    | child hd => cases parent_unique h hm hd
    | step _ hd => cases parent_unique h hm hd

/-! ### Editing a node -/

/-- **C44 for NS, an existing node and a reference.**  On every consistent tree without `node_order_by`, for every node, all
new values, every offered reference and position: the node stands at this position relative to the reference, every
other node keeps its place, the new values are stored, and the form's instance is the stored row. -/
theorem C44_ns_edit (h : Consistent db) (ho : cfg.orderBy = []) {x t : Row} (hx : x ∈ db.rows) (v : Vals) (ht : t ∈ db.rows)
    (hoff : (forest db).Offered x.pk t.pk) {pos : Pos} (hpos : pos ∈ formPositions false) {ch : Changed} (hc : ch.Touches cfg.orderBy) :
    ∃ p, t.pk ∈ forest db p ∧ ∃ db' obj, formSave (manager cfg) db { x with vals := v } false ch (some t) pos = .ok (db', obj) ∧
      FormDone db' obj x.pk ((forest db).move x.pk (pos.dest p t.pk) (formSlot t.pk pos)) (editData (data db.rows) x.pk v) := by
  obtain ⟨db₁, he⟩ := edited h hx v
  obtain ⟨p, hp, res, e, hm⟩ := C23_move (db := db₁) he.inv (ordered_false (m := manager cfg) ho) (he.mem hx) (he.other ht hoff.1)
    (cacheOk_none _ _) (formPos_prep hpos) (by rw [he.forest]; exact hoff.not_refused pos)
  rw [he.forest] at hp hm
  rw [moveAsked_form hoff.1 hpos] at hm
  obtain ⟨h1, h2⟩ := formDone_of hm
  rw [he.data] at h2
  refine ⟨p, hp, res.db, res.node, formSave_ok hc ?_ h1, h2⟩
  rw [formPlace_edit_ref he, e]; rfl

/-- **C44 for NS, an existing node and no reference**: the node becomes the first root, whatever the position field says. -/
theorem C44_ns_edit_root (h : Consistent db) (ho : cfg.orderBy = []) {x : Row} (hx : x ∈ db.rows) (v : Vals) (pos : Pos) {ch : Changed}
    (hc : ch.Touches cfg.orderBy) :
    ∃ db' obj, formSave (manager cfg) db { x with vals := v } false ch none pos = .ok (db', obj) ∧
      FormDone db' obj x.pk ((forest db).move x.pk none .first) (editData (data db.rows) x.pk v) := by
  obtain ⟨db₁, he⟩ := edited h hx v
  obtain ⟨r, hr, er, hrr, hrd⟩ := firstRoot_spec (db := db₁) he.inv (List.ne_nil_of_mem (he.mem hx))
  obtain ⟨p, hp, res, e, hm⟩ := C23_move (db := db₁) he.inv (ordered_false (m := manager cfg) ho) (he.mem hx) hr (cacheOk_none _ _)
    (posArg := some .firstSibling) (pos := .firstSibling) (by decide) (by rintro (hd | ⟨hd, _⟩); exacts [hrd _ hd, by cases hd])
  obtain rfl := parent_unique (db := db₁) he.inv hrr hp
  rw [he.forest] at hm
  have hplace := formPlace_edit_root (cfg := cfg) he er pos
  rw [show (manager cfg).ordered = false from ordered_false ho] at hplace
  simp only [Bool.false_eq_true, if_false] at hplace
  obtain ⟨h1, h2⟩ := formDone_of hm
  rw [he.data] at h2
  refine ⟨res.db, res.node, formSave_ok hc ?_ h1, h2⟩
  rw [hplace, e]; rfl

/-- **C44 for NS, no tree field changed**: only the values are stored, with or without `node_order_by`. -/
theorem C44_ns_unchanged (h : Consistent db) {x : Row} (hx : x ∈ db.rows) (v : Vals) (ref : Option Row) (pos : Pos)
    {ch : Changed} (hc : ¬ ch.Touches cfg.orderBy) :
    ∃ db' obj, formSave (manager cfg) db { x with vals := v } false ch ref pos = .ok (db', obj) ∧
      FormDone db' obj x.pk (forest db) (editData (data db.rows) x.pk v) := by
  obtain ⟨db₁, he⟩ := edited h hx v
  refine ⟨db₁, { x with vals := v }, ?_, he.inv, he.forest, he.data, he.mem hx, rfl⟩
  exact formSave_untouched hc (show (manager cfg).save db { x with vals := v } = .ok db₁ from congrArg Except.ok he.save)

/-! ### The same with `node_order_by` -/

/-- **C44 for NS with `node_order_by`, an existing node and a reference.**  "Child of" and "sibling of" put the node below the
reference or its parent, at the place of its new values; all other nodes keep their places. -/
theorem C44_ns_edit_sorted (h : Consistent db) (ho : cfg.orderBy ≠ []) (hs : SortedTree cfg db) {x t : Row} (hx : x ∈ db.rows)
    {v : Vals} (hv : NonNull cfg.orderBy v) (ht : t ∈ db.rows) (hoff : (forest db).Offered x.pk t.pk) {pos : Pos}
    (hpos : pos ∈ formPositions true) {ch : Changed} (hc : ch.Touches cfg.orderBy) :
    ∃ p, t.pk ∈ forest db p ∧ ∃ db' obj s, formSave (manager cfg) db { x with vals := v } false ch (some t) pos = .ok (db', obj) ∧
      FormDone db' obj x.pk ((forest db).move x.pk (pos.dest p t.pk) s) (editData (data db.rows) x.pk v) ∧
      FormSorted cfg db' x.pk (pos.dest p t.pk) := by
  obtain ⟨db₁, he⟩ := edited h hx v
  obtain ⟨p, hp, res, s, e, hm, k1, k2⟩ := C16_ns_move (db := db₁) he.inv (ordered_true (m := manager cfg) ho) (he.mem hx) (he.other ht hoff.1)
    (by rw [he.data]; exact editData_nonNull hs.nonNull hv) (by rw [he.data, he.forest]; exact sortedBy_edit hs.sorted _ _) (cached := none)
    (formPos_sorted hpos) (by rw [he.forest]; exact hoff.not_refused pos)
  rw [he.forest] at hp hm
  obtain ⟨h1, h2⟩ := formDone_of hm
  rw [he.data] at h2
  refine ⟨p, hp, res.db, res.node, s, formSave_ok hc ?_ h1, h2, k1, k2⟩
  rw [formPlace_edit_ref he, e]; rfl

/-- **C44 for NS with `node_order_by`, an existing node and no reference**: it becomes a root, at the place of its new values. -/
theorem C44_ns_edit_root_sorted (h : Consistent db) (ho : cfg.orderBy ≠ []) (hs : SortedTree cfg db) {x : Row} (hx : x ∈ db.rows)
    {v : Vals} (hv : NonNull cfg.orderBy v) (pos : Pos) {ch : Changed} (hc : ch.Touches cfg.orderBy) :
    ∃ db' obj s, formSave (manager cfg) db { x with vals := v } false ch none pos = .ok (db', obj) ∧
      FormDone db' obj x.pk ((forest db).move x.pk none s) (editData (data db.rows) x.pk v) ∧ FormSorted cfg db' x.pk none := by
  obtain ⟨db₁, he⟩ := edited h hx v
  obtain ⟨r, hr, er, hrr, hrd⟩ := firstRoot_spec (db := db₁) he.inv (List.ne_nil_of_mem (he.mem hx))
  obtain ⟨p, hp, res, s, e, hm, k1, k2⟩ := C16_ns_move (db := db₁) he.inv (ordered_true (m := manager cfg) ho) (he.mem hx) hr
    (by rw [he.data]; exact editData_nonNull hs.nonNull hv) (by rw [he.data, he.forest]; exact sortedBy_edit hs.sorted _ _) (cached := none)
    (posArg := some .sortedSibling) (pos := .sortedSibling) (by decide) (by rintro (hd | ⟨hd, _⟩); exacts [hrd _ hd, by cases hd])
  obtain rfl := parent_unique (db := db₁) he.inv hrr hp
  rw [he.forest] at hm
  have hplace := formPlace_edit_root (cfg := cfg) he er pos
  rw [show (manager cfg).ordered = true from ordered_true ho] at hplace
  simp only [if_true] at hplace
  obtain ⟨h1, h2⟩ := formDone_of hm
  rw [he.data] at h2
  refine ⟨res.db, res.node, s, formSave_ok hc ?_ h1, h2, k1, k2⟩
  rw [hplace, e]; rfl

/-! ### Adding a node -/

theorem formPlace_add_ref {db₁ : DB} {t t' new obj : Row} (e : addChild cfg db t new = .ok (db₁, obj, t')) (pos : Pos) :
    formPlace (manager cfg) db new true (some t) pos = (move cfg db₁ obj t' none (some pos)).map (fun res => (res.db, res.node)) := by
  unfold formPlace
  simp only [if_true]
  rw [show (manager cfg).addChild db t new = .ok (db₁, obj, t') from e]
  rfl

theorem formPlace_add_root (db : DB) (new : Row) (pos : Pos) : formPlace (manager cfg) db new true none pos = addRoot cfg db new := rfl

theorem addedAt_inv (h : Consistent db) {db' : DB} {obj new : Row} {p : Option Nat} {s : Slot} (ha : AddedAt db db' obj new p s) : Added db db' obj new p s :=
  ⟨ha.consistent, by rw [← forest_eq ha.consistent.toNI, ← forest_eq h.toNI]; exact ha.forest, ha.data, ha.obj.1, ha.obj.2⟩

/-- what holds after `add_child`, whatever the order of the children -/
theorem after_addChild (h : Consistent db) {t new : Row} (ht : t ∈ db.rows) (hf : Fresh db new) {db₁ : DB} {obj t' : Row} {s : Slot}
    (e : addChild cfg db t new = .ok (db₁, obj, t')) (ha : AddedAt db db₁ obj new (some t.pk) s) :
    par db.rows t ≠ some t.pk ∧ (∀ q, new.pk ∉ forest db q) ∧ ∃ t₁ ∈ db₁.rows, t₁.pk = t.pk ∧ (forest db₁).Offered obj.pk t₁.pk ∧
      t₁.pk ∈ forest db₁ (par db.rows t) ∧
      ∀ pos pos', preparePosForMove cfg.ordered (some pos) = .ok pos' → (isChildPos pos' = true ∨ SafeRef (forest db) t.pk) →
        (move cfg db₁ obj t' none (some pos)).map (fun res => (res.db, res.node)) =
          (move cfg db₁ obj t₁ none (some pos)).map (fun res => (res.db, res.node)) := by
  have htne : par db.rows t ≠ some t.pk := fun e => encl_irrefl _ ((par_row h.toNI ht ht).1 e).2.1
  have hnoF : ∀ q, new.pk ∉ forest db q := fun q hm => fresh_keys hf (forest_keys h hm)
  refine ⟨htne, hnoF, ?_⟩
  have hoff : (forest db₁).Offered obj.pk t.pk := by
    rw [ha.forest, ha.obj.2]
    exact offered_new ((isForestOn h).outside _ (fresh_keys hf)) (hf t ht) _ _ (by intro e; exact hf t ht (Option.some.inj e))
  have hmem1 : t.pk ∈ forest db₁ (par db.rows t) := by
    rw [ha.forest]
    unfold Forest.put
    rw [if_neg htne]
    exact (mem_forest h ht).2 rfl
  cases hl : t.isLeaf with
  | true =>
    obtain ⟨db₂, obj₂, e2, _, hrows⟩ := addChild_leaf (cfg := cfg) h ht rfl hl hf .last (Or.inr rfl)
    rw [e] at e2
    injection e2 with e2; injection e2 with e3 e2; injection e2 with e4 e5
    subst e3 e4 e5
    refine ⟨{ t with rgt := t.rgt + 2 }, ?_, rfl, hoff, hmem1, fun _ _ _ _ => rfl⟩
    rw [hrows]
    refine List.mem_append.2 (Or.inl (List.mem_map.2 ⟨t, ht, ?_⟩))
    have := h.lr t ht
    unfold gapRow
    rw [if_pos ⟨by omega, rfl⟩, if_neg (by omega)]
  | false =>
    obtain ⟨t₁, ht1, hk, rfl, hl1⟩ := addChild_stale h ht hf hl e (addedAt_inv h ha)
    refine ⟨t₁, ht1, hk, by rw [hk]; exact hoff, by rw [hk]; exact hmem1, ?_⟩
    intro pos pos' hpos hor
    have hn1 := ha.consistent.toNI
    refine move_stale hn1 ht1 hl1 (by rw [hk, ha.obj.2]; exact fun e => hf t ht e.symm) ?_ ?_
    · intro hen
      refine hoff.2 ?_
      rw [forest_eq hn1, ← hk]
      exact (desc_PF hn1 ha.obj.1 ht1).2 hen
    · rcases hor with hor | hor
      · exact Or.inl ⟨pos', hpos, hor⟩
      · right
        have hpar : par db₁.rows t₁ = par db.rows t := (mem_forest ha.consistent ht1).1 (by rw [hk]; exact hmem1)
        rcases hor with hor | hor | hor
        · exfalso
          obtain ⟨c, hc, hp⟩ := exists_child h ht hl
          have := (mem_forest h hc).2 hp
          rw [hor] at this; cases this
        · left
          rw [← par_eq_none hn1 ht1, hpar]
          exact (mem_forest h ht).1 hor
        · right
          obtain ⟨l₁, s', l₂, el⟩ := exists_after ((mem_forest h ht).2 rfl) (hor _)
          have el1 : PF db₁.rows (par db.rows t) = l₁ ++ t.pk :: s' :: l₂ := by
            rw [← forest_eq hn1, ha.forest]
            unfold Forest.put
            rw [if_neg htne, el]
          obtain ⟨l, e1, e2, e3⟩ := (shows_PF hn1).lists (par db.rows t)
          rw [el1] at e1
          obtain ⟨m₁, m₂, rfl, _, e5⟩ := List.map_eq_append_iff.1 e1.symm
          obtain ⟨a, m₃, rfl, e6, e7⟩ := List.map_eq_cons_iff.1 e5
          obtain ⟨b, m₄, rfl, e8, _⟩ := List.map_eq_cons_iff.1 e7
          have ham := (e3 a).1 (by simp)
          have hbm := (e3 b).1 (by simp)
          have hat : a = t₁ := hn1.pk_inj ham.1 ht1 (by rw [e6, hk])
          refine ⟨b, hbm.1, by rw [hbm.2, hpar], ?_⟩
          rw [← hat]
          rw [List.pairwise_append, List.pairwise_cons] at e2
          exact e2.2.1.1 b (by simp)

/-- **C44 for NS, a new node and a reference** (partial: `SafeRef`, unless "first child of" is chosen).  For every consistent
tree without `node_order_by`: the new node stands at this position relative to the reference, all others keep their
places.  Missing: references with children that are the last child of their parent; there the claim is false
(`C44_ns_add_fails`). -/
theorem C44_ns_add_partial (h : Consistent db) (ho : cfg.orderBy = []) {t new : Row} (ht : t ∈ db.rows) (hf : Fresh db new)
    {pos : Pos} (hpos : pos ∈ formPositions false) (hsafe : pos = .firstChild ∨ SafeRef (forest db) t.pk) {ch : Changed}
    (hc : ch.Touches cfg.orderBy) :
    ∃ p, t.pk ∈ forest db p ∧ ∃ db' obj, formSave (manager cfg) db new true ch (some t) pos = .ok (db', obj) ∧
      FormDone db' obj new.pk ((forest db).put (pos.dest p t.pk) (formSlot t.pk pos) new.pk) (data db.rows ++ [(new.pk, new.vals)]) := by
  have hord : cfg.ordered = false := ordered_false (m := manager cfg) ho
  obtain ⟨db₁, obj, t', e, ha⟩ := C22_add_child h hord ht rfl hf
  obtain ⟨htne, hnoF, t₁, ht1, hk, hoff, hmem1, hmv⟩ := after_addChild h ht hf e ha
  have hprep : preparePosForMove cfg.ordered (some pos) = .ok pos := by rw [hord]; exact formPos_prep hpos
  obtain ⟨p, hp, res, e', hm⟩ := C23_move ha.consistent hord ha.obj.1 ht1 (cacheOk_none _ _) (formPos_prep hpos) (hoff.not_refused pos)
  obtain rfl := parent_unique ha.consistent hmem1 hp
  rw [moveAsked_form hoff.1 hpos, ha.forest, ha.obj.2, put_move hnoF, hk] at hm
  obtain ⟨h1, h2⟩ := formDone_of hm
  rw [ha.data, ha.obj.2] at h2
  refine ⟨_, (mem_forest h ht).2 rfl, res.db, res.node, formSave_ok hc ?_ h1, h2⟩
  rw [formPlace_add_ref e, hmv pos pos hprep (hsafe.imp (by rintro rfl; rfl) id), e']; rfl

/-- **C44 for NS, a new node and no reference**: it becomes the last root. -/
theorem C44_ns_add_root (h : Consistent db) (ho : cfg.orderBy = []) {new : Row} (hf : Fresh db new) (pos : Pos)
    {ch : Changed} (hc : ch.Touches cfg.orderBy) :
    ∃ db' obj, formSave (manager cfg) db new true ch none pos = .ok (db', obj) ∧
      FormDone db' obj new.pk ((forest db).put none .last new.pk) (data db.rows ++ [(new.pk, new.vals)]) := by
  obtain ⟨db₁, obj, e, ha⟩ := C22_add_root h (ordered_false (m := manager cfg) ho) hf
  exact ⟨db₁, obj, formSave_ok hc ((formPlace_add_root db new pos).trans e) (settled ha.consistent ha.obj.1 rfl),
    ha.consistent, ha.forest, ha.data, ha.obj⟩

/-- **C44 for NS with `node_order_by`, a new node and no reference**: it becomes a root, at its sorted place. -/
theorem C44_ns_add_root_sorted (h : Consistent db) (ho : cfg.orderBy ≠ []) (hs : SortedTree cfg db) {new : Row}
    (hf : Fresh db new) (hv : NonNull cfg.orderBy new.vals) (pos : Pos) {ch : Changed} (hc : ch.Touches cfg.orderBy) :
    ∃ db' obj s, formSave (manager cfg) db new true ch none pos = .ok (db', obj) ∧
      FormDone db' obj new.pk ((forest db).put none s new.pk) (data db.rows ++ [(new.pk, new.vals)]) ∧ FormSorted cfg db' new.pk none := by
  obtain ⟨db₁, obj, e, ⟨s, ha⟩, k1, k2⟩ := C16_ns_add_root h (ordered_true (m := manager cfg) ho) hs hf hv
  exact ⟨db₁, obj, s, formSave_ok hc ((formPlace_add_root db new pos).trans e) (settled ha.consistent ha.obj.1 rfl),
    ⟨ha.consistent, ha.forest, ha.data, ha.obj⟩, k1, k2⟩

/-- **C44 for NS with `node_order_by`, a new node and a reference** (partial: `SafeRef` for "sibling of").  The new node is
below the reference or its parent, at its sorted place. -/
theorem C44_ns_add_sorted_partial (h : Consistent db) (ho : cfg.orderBy ≠ []) (hs : SortedTree cfg db) {t new : Row} (ht : t ∈ db.rows)
    (hf : Fresh db new) (hv : NonNull cfg.orderBy new.vals) {pos : Pos} (hpos : pos ∈ formPositions true)
    (hsafe : pos = .sortedChild ∨ SafeRef (forest db) t.pk) {ch : Changed} (hc : ch.Touches cfg.orderBy) :
    ∃ p, t.pk ∈ forest db p ∧ ∃ db' obj s, formSave (manager cfg) db new true ch (some t) pos = .ok (db', obj) ∧
      FormDone db' obj new.pk ((forest db).put (pos.dest p t.pk) s new.pk) (data db.rows ++ [(new.pk, new.vals)]) ∧
      FormSorted cfg db' new.pk (pos.dest p t.pk) := by
  have hord : cfg.ordered = true := ordered_true (m := manager cfg) ho
  obtain ⟨db₁, obj, t', e, ⟨s, ha⟩, hs1, _⟩ := C16_ns_add_child h hord hs ht rfl hf hv
  obtain ⟨htne, hnoF, t₁, ht1, hk, hoff, hmem1, hmv⟩ := after_addChild h ht hf e ha
  have hprep : preparePosForMove cfg.ordered (some pos) = .ok pos := by rw [hord]; exact formPos_sorted hpos
  obtain ⟨p, hp, res, s', e', hm, k1, k2⟩ := C16_ns_move ha.consistent hord ha.obj.1 ht1 hs1.nonNull (SortedBy.remove hs1.sorted obj.pk)
    (cached := none) (formPos_sorted hpos) (hoff.not_refused pos)
  obtain rfl := parent_unique ha.consistent hmem1 hp
  rw [ha.forest, ha.obj.2, put_move hnoF, hk] at hm
  obtain ⟨h1, h2⟩ := formDone_of hm
  rw [ha.data, ha.obj.2] at h2
  rw [ha.obj.2, hk] at k2
  refine ⟨_, (mem_forest h ht).2 rfl, res.db, res.node, s', formSave_ok hc ?_ h1, h2, k1, k2⟩
  rw [formPlace_add_ref e, hmv pos pos hprep (hsafe.imp (by rintro rfl; rfl) id), e']; rfl

/-! ### What the form shows and offers -/

/-- **C44 for NS, the initial values**: the form can always be built, and it shows where the node is. -/
theorem C44_ns_initial (h : Consistent db) {x : Row} (hx : x ∈ db.rows) (ordered : Bool) :
    ∃ ref pos, formInitial ordered (nsNav db x) = .ok (ref, pos) ∧ pos ∈ formPositions ordered ∧ (forest db).ShowsPlace x.pk ref pos :=
  formInitial_shows (C25_nav h hx) (fun _ _ h1 h2 => parent_unique h h1 h2) ordered

/-- **C44 for NS, the offered references**: exactly the nodes outside the branch of the instance, and every node for a new
instance. -/
theorem C44_ns_offered (h : Consistent db) :
    (∀ x ∈ db.rows, ∀ k, k ∈ formRefs ((getTree db none none).map Row.pk) ((descendants db x true none).map Row.pk) ↔
      k ∈ db.rows.map Row.pk ∧ (forest db).Offered x.pk k) ∧
    ∀ k, k ∈ formRefs ((getTree db none none).map Row.pk) [] ↔ k ∈ db.rows.map Row.pk := by
  have hF := isForestOn h
  rw [keys_eq] at hF
  have hall := C11_ns h (p := none) (by simp) none (by simp)
  refine ⟨fun x hx k => ?_, fun k => formRefs_add hF hall k⟩
  exact formRefs_edit hF hall (C11_ns h (p := some x) (by rintro q e; cases e; exact hx) none (by simp)) k

/-! ### The admin's drag and drop -/

/-- **C52 for NS.**  Dragging a node onto another makes it the last child of the other, or puts it immediately to its left;
below itself it is refused. -/
theorem C52_ns (h : Consistent db) (ho : cfg.orderBy = []) {x t : Row} (hx : x ∈ db.rows) (ht : t ∈ db.rows) (child : Bool) :
    ∃ p, t.pk ∈ forest db p ∧
      ((forest db).MoveRefused x.pk t.pk (adminPos child false) →
        adminMove (manager cfg) db x t child = .error .invalidMoveToDescendant) ∧
      (¬ (forest db).MoveRefused x.pk t.pk (adminPos child false) →
        ∃ db' obj, adminMove (manager cfg) db x t child = .ok (db', obj) ∧
          FormDone db' obj x.pk (if child then (forest db).move x.pk (some t.pk) .last
            else if t.pk = x.pk then forest db else (forest db).move x.pk p (.before t.pk)) (data db.rows)) := by
  have hord : (manager cfg).ordered = false := ordered_false ho
  have hord' : cfg.ordered = false := hord
  have hprep : preparePosForMove false (some (adminPos child false)) = .ok (adminPos child false) := by cases child <;> decide
  refine ⟨par db.rows t, (mem_forest h ht).2 rfl, ?_, ?_⟩
  · intro hr
    refine adminMove_error ?_
    rw [hord]
    show (move cfg db x t none (some (adminPos child false))).map _ = _
    rw [C08_ns h hx ht (by rw [hord']; exact hprep) hr]
    rfl
  · intro hr
    obtain ⟨p, hp, res, e, hm⟩ := C23_move h hord' hx ht (cacheOk_none _ _) hprep hr
    obtain rfl := parent_unique h hp ((mem_forest h ht).2 rfl)
    have hF : (forest db).moveAsked x.pk (par db.rows t) t.pk (adminPos child false) =
      if child then (forest db).move x.pk (some t.pk) .last
        else if t.pk = x.pk then forest db else (forest db).move x.pk (par db.rows t) (.before t.pk) := by cases child <;> rfl
    rw [hF] at hm
    obtain ⟨h1, h2⟩ := formDone_of hm
    refine ⟨res.db, res.node, adminMove_ok (obj := res.node) ?_ h1, h2⟩
    rw [hord]
    show (move cfg db x t none (some (adminPos child false))).map _ = _
    rw [e]; rfl

/-- **C52 for NS with `node_order_by`**: the node goes below the other or its parent, at its sorted place. -/
theorem C52_ns_sorted (h : Consistent db) (ho : cfg.orderBy ≠ []) (hs : SortedTree cfg db) {x t : Row} (hx : x ∈ db.rows)
    (ht : t ∈ db.rows) (child : Bool) (hr : ¬ (forest db).MoveRefused x.pk t.pk (adminPos child true)) :
    ∃ p, t.pk ∈ forest db p ∧ ∃ db' obj s, adminMove (manager cfg) db x t child = .ok (db', obj) ∧
      FormDone db' obj x.pk ((forest db).move x.pk (if child then some t.pk else p) s) (data db.rows) ∧
      FormSorted cfg db' x.pk (if child then some t.pk else p) := by
  have hord : (manager cfg).ordered = true := ordered_true ho
  obtain ⟨p, hp, res, s, e, hm, k1, k2⟩ := C16_ns_move h hord hx ht hs.nonNull (SortedBy.remove hs.sorted x.pk) (cached := none)
    (pos := adminPos child true) (posArg := some (adminPos child true)) (by cases child <;> rfl) hr
  have hd : (adminPos child true).dest p t.pk = if child then some t.pk else p := by cases child <;> rfl
  rw [hd] at hm k2
  obtain ⟨h1, h2⟩ := formDone_of hm
  refine ⟨p, hp, res.db, res.node, s, adminMove_ok (obj := res.node) ?_ h1, h2, k1, k2⟩
  rw [hord]
  show (move cfg db x t none (some (adminPos child true))).map _ = _
  rw [e]; rfl

/-! ### Where the form fails -/

/-- node 3 has a child and is the last child of node 2; node 5 follows node 2.  The values are the keys. -/
def formDB : DB := { rows := [⟨1, 1, 1, 10, 1, [some 1]⟩, ⟨2, 1, 2, 7, 2, [some 2]⟩, ⟨3, 1, 3, 6, 3, [some 3]⟩, ⟨4, 1, 4, 5, 4, [some 4]⟩,
  ⟨5, 1, 8, 9, 2, [some 5]⟩] }

theorem formDB_inv : NInv formDB.rows := by
  refine ⟨by decide, ?_⟩
  intro r hr
  refine full_of_range 10 ?_ ?_
  · revert r; decide
  · revert r; decide

/-- a chain of three nodes -/
def formChain : DB := { rows := [⟨1, 1, 1, 6, 1, []⟩, ⟨2, 1, 2, 5, 2, []⟩, ⟨3, 1, 3, 4, 3, []⟩] }

theorem formChain_inv : NInv formChain.rows := by
  refine ⟨by decide, ?_⟩
  intro r hr
  refine full_of_range 6 ?_ ?_
  · revert r; decide
  · revert r; decide

/-- **C44 fails for NS, a new node next to a last child that has children.**  The form calls `add_child` on the reference,
which leaves it with a `rgt` that is 2 too large (`C27_ns_stale`), and then passes the same object to `move` as the target
(forms.py:176-177).  `get_parent` of this object finds a node above the real parent, or none.  In `formDB`, "after 3"
puts the node before 3; in the chain, "before 2" raises IndexError. -/
theorem C44_ns_add_fails : Consistent formDB ∧ (⟨3, 1, 3, 6, 3, [some 3]⟩ : Row) ∈ formDB.rows ∧ forest formDB (some 2) = [3] ∧
    (∃ db' obj, formSave (manager ⟨[]⟩) formDB ⟨9, 0, 0, 0, 0, []⟩ true ⟨true, true, []⟩ (some ⟨3, 1, 3, 6, 3, [some 3]⟩) .right = .ok (db', obj) ∧
      forest db' (some 2) = [9, 3]) ∧
    Consistent formChain ∧ (⟨2, 1, 2, 5, 2, []⟩ : Row) ∈ formChain.rows ∧
    formSave (manager ⟨[]⟩) formChain ⟨9, 0, 0, 0, 0, []⟩ true ⟨true, true, []⟩ (some ⟨2, 1, 2, 5, 2, []⟩) .left = .error .indexError :=
  ⟨formDB_inv, by decide, by decide, ⟨_, _, rfl, by decide⟩, formChain_inv, by decide, rfl⟩

/-- **With `node_order_by` the form breaks the tree.**  On the same tree, which is sorted, a new node with "sibling of 3"
is stored with depth 3 directly below the root: the table is not a nested set any more. -/
theorem C44_ns_add_corrupts : Consistent formDB ∧ SortedTree ⟨[(0, false)]⟩ formDB ∧
    ∃ db' obj, formSave (manager ⟨[(0, false)]⟩) formDB ⟨9, 0, 0, 0, 0, [some 9]⟩ true ⟨true, true, []⟩ (some ⟨3, 1, 3, 6, 3, [some 3]⟩) .sortedSibling
        = .ok (db', obj) ∧
      obj = ⟨9, 1, 10, 11, 3, [some 9]⟩ ∧ ¬ Consistent db' := by
  refine ⟨formDB_inv, ⟨?_, ?_⟩, _, _, rfl, by decide, ?_⟩
  · intro r hr e he
    simp only [data, formDB, List.map_cons, List.map_nil, List.mem_cons, List.not_mem_nil, or_false] at hr
    simp only [List.mem_cons, List.not_mem_nil, or_false] at he
    rcases hr with rfl | rfl | rfl | rfl | rfl <;> subst he <;> exact ⟨_, rfl⟩
  · intro p
    cases p with
    | none => rw [show forest formDB none = [1] by decide]; simp
    | some k =>
      by_cases hk : k ∈ formDB.rows.map Row.pk
      · simp only [formDB, List.map_cons, List.map_nil, List.mem_cons, List.not_mem_nil, or_false] at hk
        rcases hk with rfl | rfl | rfl | rfl | rfl
        · rw [show forest formDB (some 1) = [2, 5] by decide]
          simp only [List.pairwise_cons, List.mem_singleton, forall_eq, List.not_mem_nil, false_imp_iff, implies_true, List.Pairwise.nil, and_true]
          decide
        · rw [show forest formDB (some 2) = [3] by decide]; simp
        · rw [show forest formDB (some 3) = [4] by decide]; simp
        · rw [show forest formDB (some 4) = [] by decide]; simp
        · rw [show forest formDB (some 5) = [] by decide]; simp
      · rw [(isForestOn (db := formDB) formDB_inv).outside k (by rw [keys_eq]; exact hk)]
        exact List.Pairwise.nil
  · intro h
    exact absurd h.toNI (by decide)

/-! ### Examples -/

/-- The hypotheses of the theorems above are met: editing node 5 with "after 3" and with no reference, adding before node
2, which has a child and a sibling, dragging; what the form shows and offers for node 3. -/
example : Consistent formDB ∧ (forest formDB).Offered 5 3 ∧ SafeRef (forest formDB) 2 ∧
    (∃ db' obj, formSave (manager ⟨[]⟩) formDB ⟨5, 1, 8, 9, 2, [some 7]⟩ false ⟨true, true, []⟩ (some ⟨3, 1, 3, 6, 3, [some 3]⟩) .right = .ok (db', obj) ∧
      forest db' (some 2) = [3, 5] ∧ obj = ⟨5, 1, 7, 8, 3, [some 7]⟩) ∧
    (∃ db' obj, formSave (manager ⟨[]⟩) formDB ⟨5, 1, 8, 9, 2, []⟩ false ⟨true, true, []⟩ none .right = .ok (db', obj) ∧
      forest db' none = [5, 1]) ∧
    (∃ db' obj, formSave (manager ⟨[]⟩) formDB ⟨9, 0, 0, 0, 0, []⟩ true ⟨true, true, []⟩ (some ⟨2, 1, 2, 7, 2, [some 2]⟩) .right = .ok (db', obj) ∧
      forest db' (some 1) = [2, 9, 5]) ∧
    (∃ db' obj, adminMove (manager ⟨[]⟩) formDB ⟨5, 1, 8, 9, 2, []⟩ ⟨4, 1, 4, 5, 4, []⟩ true = .ok (db', obj) ∧ forest db' (some 4) = [5]) ∧
    formInitial false (nsNav formDB ⟨5, 1, 8, 9, 2, []⟩) = .ok (some 2, .right) ∧
    formRefs ((getTree formDB none none).map Row.pk) ((descendants formDB ⟨3, 1, 3, 6, 3, []⟩ true none).map Row.pk) = [1, 2, 5] := by
  refine ⟨formDB_inv, ⟨by decide, ?_⟩, ?_, ⟨_, _, rfl, by decide, by decide⟩, ⟨_, _, rfl, by decide⟩, ⟨_, _, rfl, by decide⟩, ⟨_, _, rfl, by decide⟩,
    by decide, by decide⟩
  · rw [forest_eq formDB_inv.toNI]
    intro hd
    exact absurd ((desc_PF formDB_inv.toNI (q := ⟨5, 1, 8, 9, 2, [some 5]⟩) (r := ⟨3, 1, 3, 6, 3, [some 3]⟩) (by decide) (by decide)).1 hd) (by decide)
  · right; right
    intro p e
    have hm := List.mem_of_getLast? e
    obtain rfl := parent_unique (db := formDB) formDB_inv hm (show 2 ∈ forest formDB (some 1) by decide)
    revert e
    decide

end Verif.NS
