/-
C44 for a submitted form, from the initial values to the stored tree: nothing is assumed about which fields Django
reports as changed.
-/
import Verif.Props.MPForm
import Verif.Props.MPHistorySorted
import Verif.Props.NSForm
import Verif.Props.ALForm
import Verif.Props.LTForm

namespace Verif

/-- **C44, a submitted form for a new node**, for every manager: whatever the user leaves as it was, the position counts as
changed, so the form saves the node as in the theorems `C44_mp_add_partial`, `C44_ns_add_partial`, `C44_al_add`, … -/
theorem C44_submit_new {σ ρ : Type} (m : Manager σ ρ) (nav : σ → ρ → NavAnswers) (key : ρ → Nat) (db : σ) (inst : ρ) (fields : List Nat)
    (ref : Option ρ) (pos : Pos) (o : List (Nat × Bool)) :
    ∃ ch : Changed, ch.Touches o ∧ formSubmit m nav key db none inst fields ref pos = formSave m db inst true ch ref pos :=
  formSubmit_new m nav key db inst fields ref pos o

namespace MP
variable {cfg : Cfg} {db : DB}

/-- **C44 for MP, a submitted form for an existing node** (partial: `TempFits`).  On every consistent tree without
`node_order_by`, for every node, all new values, every offered reference or none, and every position: the node stands
where the form asks, every other node keeps its place, the values are stored; or PathOverflow is raised and the last
position below the new parent is taken. -/
theorem C44_mp_submit_partial (hok : cfg.Ok) (h : Consistent cfg db) (ho : cfg.orderBy = []) {x : Row} (hx : x ∈ db.rows) (v : Vals)
    (fields : List Nat) {ref : Option Row} (hr : ∀ t, ref = some t → t ∈ db.rows ∧ (forest cfg db).Offered x.pk t.pk) {pos : Pos}
    (hpos : pos ∈ formPositions false) :
    ∃ p s, (forest cfg db).FormAsks (ref.map Row.pk) pos p s ∧ (TempFits cfg db x.pk p →
      (∃ db' obj, formSubmit (manager cfg) (mpNav cfg) Row.pk db (some x) { x with vals := v } fields ref pos = .ok (db', obj) ∧
        FormDone cfg db' obj x.pk ((forest cfg db).move x.pk p s) (editData (data db.rows) x.pk v)) ∨
      (formSubmit (manager cfg) (mpNav cfg) Row.pk db (some x) { x with vals := v } fields ref pos = .error .pathOverflow ∧
        LastTaken cfg db p)) := by
  obtain ⟨ch, e, hc⟩ := formSubmit_edit (m := manager cfg) ho (mpNav cfg) Row.pk (fun _ _ _ => parent_unique hok h) (forest_nodup hok h)
    (C10_nav hok h hx) { x with vals := v } fields ref pos
  rw [e]
  cases ref with
  | none =>
    refine ⟨none, .first, ⟨rfl, rfl⟩, fun hfit => ?_⟩
    rcases hc with hc | ⟨hc, hsame⟩
    · exact C44_mp_edit_root_partial hok h ho hx v pos hc hfit
    · obtain ⟨db', obj, e', hd⟩ := C44_mp_unchanged hok h hx v none pos hc
      exact Or.inl ⟨db', obj, e', by rw [(hsame _ _ ⟨rfl, rfl⟩).1]; exact hd⟩
  | some t =>
    obtain ⟨ht, hoff⟩ := hr t rfl
    rcases hc with hc | ⟨hc, hsame⟩
    · obtain ⟨q, hq, hd⟩ := C44_mp_edit_partial hok h ho hx v ht hoff hpos hc
      exact ⟨_, _, ⟨q, hq, rfl, rfl⟩, fun hfit => hd (fun _ => hfit)⟩
    · obtain ⟨q, _, hq, _⟩ := (C10_nav hok h ht).parent
      obtain ⟨db', obj, e', hd⟩ := C44_mp_unchanged hok h hx v (some t) pos hc
      refine ⟨_, _, ⟨q, hq, rfl, rfl⟩, fun _ => Or.inl ⟨db', obj, e', ?_⟩⟩
      rw [(hsame _ _ ⟨q, hq, rfl, rfl⟩).1]; exact hd

/-- **C44 for MP with `node_order_by`, a submitted form for an existing node** (partial: `TempFits`, and the order fields
are ascending, see `C44_descending_unsorted`).  If Django reports at least the fields whose values changed, the node is
below the node asked for, the whole tree is sorted, every other node keeps its place and the values are stored; or
PathOverflow is raised and the last position below the new parent is taken. -/
theorem C44_mp_submit_sorted_partial (hok : cfg.Ok) (h : Consistent cfg db) (ho : cfg.orderBy ≠ []) (hasc : ∀ e ∈ cfg.orderBy, e.2 = false)
    (hs : SortedTree cfg db) {x : Row} (hx : x ∈ db.rows) {v : Vals} (hv : NonNull cfg.orderBy v) {fields : List Nat}
    (hf : ∀ f, f ∉ fields → fieldOf v f = fieldOf x.vals f)
    {ref : Option Row} (hr : ∀ t, ref = some t → t ∈ db.rows ∧ (forest cfg db).Offered x.pk t.pk) {pos : Pos} (hpos : pos ∈ formPositions true) :
    ∃ p, (forest cfg db).FormAsksBelow (ref.map Row.pk) pos p ∧ (TempFits cfg db x.pk p →
      (∃ db' obj s, formSubmit (manager cfg) (mpNav cfg) Row.pk db (some x) { x with vals := v } fields ref pos = .ok (db', obj) ∧
        FormDone cfg db' obj x.pk ((forest cfg db).move x.pk p s) (editData (data db.rows) x.pk v) ∧ SortedTree cfg db' ∧
        x.pk ∈ forest cfg db' p) ∨
      (formSubmit (manager cfg) (mpNav cfg) Row.pk db (some x) { x with vals := v } fields ref pos = .error .pathOverflow ∧
        LastTaken cfg db p)) := by
  obtain ⟨ch, e, hc⟩ := formSubmit_edit_sorted (m := manager cfg) ho (mpNav cfg) Row.pk (C44_mp_initial hok h hx true) { x with vals := v } fields ref pos
  rw [e]
  have hst : ¬ ch.Touches cfg.orderBy → (∀ f ∈ fields, (f, false) ∉ cfg.orderBy) → ∀ p, x.pk ∈ forest cfg db p →
      ∃ db' obj s, formSave (manager cfg) db { x with vals := v } false ch ref pos = .ok (db', obj) ∧
        FormDone cfg db' obj x.pk ((forest cfg db).move x.pk p s) (editData (data db.rows) x.pk v) ∧ SortedTree cfg db' ∧
        x.pk ∈ forest cfg db' p := by
    intro hc hfo p hp
    obtain ⟨db', obj, e', hd⟩ := C44_mp_unchanged hok h hx v ref pos hc
    obtain ⟨s, hs'⟩ := shown_slot (fun _ _ _ => parent_unique hok h) (forest_nodup hok h) hp
    have hsd := sortedData_untouched (D := data db.rows) ⟨(allNonNull_data db).1 hs.nonNull, by rw [← valsOf_eq]; exact hs.sorted⟩
      (by unfold data; rw [List.map_map]; exact ((consistent_iff hok).1 h).inv.pkNodup) (List.mem_map.2 ⟨x, hx, rfl⟩) hv (order_same hasc hf hfo)
    refine ⟨db', obj, s, e', by rw [hs']; exact hd, ⟨?_, ?_⟩, by rw [hd.forest]; exact hp⟩
    · rw [allNonNull_data, hd.data]; exact hsd.nonNull
    · rw [hd.forest, valsOf_eq, hd.data]; exact hsd.sorted
  cases ref with
  | none =>
    refine ⟨none, rfl, fun hfit => ?_⟩
    rcases hc with hc | ⟨hc, hsame, hfo⟩
    · rcases C44_mp_edit_root_sorted_partial hok h ho hs hx hv pos hc hfit with ⟨db', obj, s, e', hd, hsd⟩ | h'
      · exact Or.inl ⟨db', obj, s, e', hd, hsd.tree, by obtain ⟨l₁, l₂, e, _⟩ := hsd.place; rw [e]; simp⟩
      · exact Or.inr h'
    · exact Or.inl (hst hc hfo _ (hsame _ rfl))
  | some t =>
    obtain ⟨ht, hoff⟩ := hr t rfl
    rcases hc with hc | ⟨hc, hsame, hfo⟩
    · obtain ⟨q, hq, hd⟩ := C44_mp_edit_sorted_partial hok h ho hs hx hv ht hoff hpos hc
      refine ⟨_, ⟨q, hq, rfl⟩, fun hfit => ?_⟩
      rcases hd hfit with ⟨db', obj, s, e', hd, hsd⟩ | h'
      · exact Or.inl ⟨db', obj, s, e', hd, hsd.tree, by obtain ⟨l₁, l₂, e, _⟩ := hsd.place; rw [e]; simp⟩
      · exact Or.inr h'
    · obtain ⟨q, _, hq, _⟩ := (C10_nav hok h ht).parent
      exact ⟨_, ⟨q, hq, rfl⟩, fun _ => Or.inl (hst hc hfo _ (hsame _ ⟨q, hq, rfl⟩))⟩

end MP

namespace NS
variable {cfg : Cfg} {db : DB}

/-- **C44 for NS, a submitted form for an existing node.**  On every consistent tree without `node_order_by`, for every
node, all new values, every offered reference or none, and every position: the node stands where the form asks, every
other node keeps its place, and the values are stored. -/
theorem C44_ns_submit (h : Consistent db) (ho : cfg.orderBy = []) {x : Row} (hx : x ∈ db.rows) (v : Vals)
    (fields : List Nat) {ref : Option Row} (hr : ∀ t, ref = some t → t ∈ db.rows ∧ (forest db).Offered x.pk t.pk) {pos : Pos}
    (hpos : pos ∈ formPositions false) :
    ∃ p s, (forest db).FormAsks (ref.map Row.pk) pos p s ∧
      ∃ db' obj, formSubmit (manager cfg) nsNav Row.pk db (some x) { x with vals := v } fields ref pos = .ok (db', obj) ∧
        FormDone db' obj x.pk ((forest db).move x.pk p s) (editData (data db.rows) x.pk v) := by
  obtain ⟨ch, e, hc⟩ := formSubmit_edit (m := manager cfg) ho nsNav Row.pk (fun _ _ _ => parent_unique h) (forest_nodup h)
    (C25_nav h hx) { x with vals := v } fields ref pos
  rw [e]
  cases ref with
  | none =>
    refine ⟨none, .first, ⟨rfl, rfl⟩, ?_⟩
    rcases hc with hc | ⟨hc, hsame⟩
    · exact C44_ns_edit_root h ho hx v pos hc
    · obtain ⟨db', obj, e', hd⟩ := C44_ns_unchanged (cfg := cfg) h hx v none pos hc
      exact ⟨db', obj, e', by rw [(hsame _ _ ⟨rfl, rfl⟩).1]; exact hd⟩
  | some t =>
    obtain ⟨ht, hoff⟩ := hr t rfl
    rcases hc with hc | ⟨hc, hsame⟩
    · obtain ⟨q, hq, hd⟩ := C44_ns_edit h ho hx v ht hoff hpos hc
      exact ⟨_, _, ⟨q, hq, rfl, rfl⟩, hd⟩
    · obtain ⟨q, _, hq, _⟩ := (C25_nav h ht).parent
      obtain ⟨db', obj, e', hd⟩ := C44_ns_unchanged (cfg := cfg) h hx v (some t) pos hc
      refine ⟨_, _, ⟨q, hq, rfl, rfl⟩, db', obj, e', ?_⟩
      rw [(hsame _ _ ⟨q, hq, rfl, rfl⟩).1]; exact hd

/-- **C44 for NS with `node_order_by`, a submitted form for an existing node** (the order fields are ascending, see
`C44_descending_unsorted`).  If Django reports at least the fields whose values changed, the node is below the node asked
for, the whole tree is sorted, every other node keeps its place and the values are stored. -/
theorem C44_ns_submit_sorted (h : Consistent db) (ho : cfg.orderBy ≠ []) (hasc : ∀ e ∈ cfg.orderBy, e.2 = false) (hs : SortedTree cfg db)
    {x : Row} (hx : x ∈ db.rows) {v : Vals} (hv : NonNull cfg.orderBy v) {fields : List Nat}
    (hf : ∀ f, f ∉ fields → fieldOf v f = fieldOf x.vals f)
    {ref : Option Row} (hr : ∀ t, ref = some t → t ∈ db.rows ∧ (forest db).Offered x.pk t.pk) {pos : Pos} (hpos : pos ∈ formPositions true) :
    ∃ p, (forest db).FormAsksBelow (ref.map Row.pk) pos p ∧
      ∃ db' obj s, formSubmit (manager cfg) nsNav Row.pk db (some x) { x with vals := v } fields ref pos = .ok (db', obj) ∧
        FormDone db' obj x.pk ((forest db).move x.pk p s) (editData (data db.rows) x.pk v) ∧ SortedTree cfg db' ∧ x.pk ∈ forest db' p := by
  obtain ⟨ch, e, hc⟩ := formSubmit_edit_sorted (m := manager cfg) ho nsNav Row.pk (C44_ns_initial h hx true) { x with vals := v } fields ref pos
  rw [e]
  have hst : ¬ ch.Touches cfg.orderBy → (∀ f ∈ fields, (f, false) ∉ cfg.orderBy) → ∀ p, x.pk ∈ forest db p →
      ∃ db' obj s, formSave (manager cfg) db { x with vals := v } false ch ref pos = .ok (db', obj) ∧
        FormDone db' obj x.pk ((forest db).move x.pk p s) (editData (data db.rows) x.pk v) ∧ SortedTree cfg db' ∧ x.pk ∈ forest db' p := by
    intro hc hfo p hp
    obtain ⟨db', obj, e', hd⟩ := C44_ns_unchanged (cfg := cfg) h hx v ref pos hc
    obtain ⟨s, hs'⟩ := shown_slot (fun _ _ _ => parent_unique h) (forest_nodup h) hp
    refine ⟨db', obj, s, e', by rw [hs']; exact hd, ?_, by rw [hd.forest]; exact hp⟩
    unfold SortedTree
    rw [hd.forest, hd.data]
    exact sortedData_untouched hs (keys_nodup h) (List.mem_map.2 ⟨x, hx, rfl⟩) hv (order_same hasc hf hfo)
  cases ref with
  | none =>
    refine ⟨none, rfl, ?_⟩
    rcases hc with hc | ⟨hc, hsame, hfo⟩
    · obtain ⟨db', obj, s, e', hd, hsd⟩ := C44_ns_edit_root_sorted h ho hs hx hv pos hc
      exact ⟨db', obj, s, e', hd, hsd.tree, by obtain ⟨l₁, l₂, e, _⟩ := hsd.place; rw [e]; simp⟩
    · exact hst hc hfo _ (hsame _ rfl)
  | some t =>
    obtain ⟨ht, hoff⟩ := hr t rfl
    rcases hc with hc | ⟨hc, hsame, hfo⟩
    · obtain ⟨q, hq, db', obj, s, e', hd, hsd⟩ := C44_ns_edit_sorted h ho hs hx hv ht hoff hpos hc
      exact ⟨_, ⟨q, hq, rfl⟩, db', obj, s, e', hd, hsd.tree, by obtain ⟨l₁, l₂, e, _⟩ := hsd.place; rw [e]; simp⟩
    · obtain ⟨q, _, hq, _⟩ := (C25_nav h ht).parent
      exact ⟨_, ⟨q, hq, rfl⟩, hst hc hfo _ (hsame _ ⟨q, hq, rfl⟩)⟩

end NS

namespace AL
variable {cfg : Cfg} {db : DB}

/-- **C44 for AL, a submitted form for an existing node**: as for NS. -/
theorem C44_al_submit (h : Consistent cfg db) (ho : cfg.orderBy = []) {x : Row} (hx : x ∈ db.rows) (v : Vals)
    (fields : List Nat) {ref : Option Row} (hr : ∀ t, ref = some t → t ∈ db.rows ∧ (forest cfg db).Offered x.pk t.pk) {pos : Pos}
    (hpos : pos ∈ formPositions false) :
    ∃ p s, (forest cfg db).FormAsks (ref.map Row.pk) pos p s ∧
      ∃ db' obj, formSubmit (manager cfg) (alNav cfg) Row.pk db (some x) { x with vals := v } fields ref pos = .ok (db', obj) ∧
        FormDone cfg db' obj x.pk ((forest cfg db).move x.pk p s) (editData (data db.rows) x.pk v) := by
  have hord : cfg.ordered = false := ordered_false (m := manager cfg) ho
  have hai := (h.inv hord).toAI
  obtain ⟨ch, e, hc⟩ := formSubmit_edit (m := manager cfg) ho (alNav cfg) Row.pk (F := forest cfg db) (fun _ _ _ => parent_unique hai)
    (by rw [forest_eq hai]; exact PF_nodup hai) (C32_nav hord h hx) { x with vals := v } fields ref pos
  rw [e]
  cases ref with
  | none =>
    refine ⟨none, .first, ⟨rfl, rfl⟩, ?_⟩
    rcases hc with hc | ⟨hc, hsame⟩
    · exact C44_al_edit_root h ho hx v pos hc
    · obtain ⟨db', obj, e', hd⟩ := C44_al_unchanged h ho hx v none pos hc
      exact ⟨db', obj, e', by rw [(hsame _ _ ⟨rfl, rfl⟩).1]; exact hd⟩
  | some t =>
    obtain ⟨ht, hoff⟩ := hr t rfl
    rcases hc with hc | ⟨hc, hsame⟩
    · obtain ⟨q, hq, hd⟩ := C44_al_edit h ho hx v ht hoff hpos hc
      exact ⟨_, _, ⟨q, hq, rfl, rfl⟩, hd⟩
    · obtain ⟨q, _, hq, _⟩ := (C32_nav hord h ht).parent
      obtain ⟨db', obj, e', hd⟩ := C44_al_unchanged h ho hx v (some t) pos hc
      refine ⟨_, _, ⟨q, hq, rfl, rfl⟩, db', obj, e', ?_⟩
      rw [(hsame _ _ ⟨q, hq, rfl, rfl⟩).1]; exact hd

/-- **C44 for AL with `node_order_by`, a submitted form for an existing node** (partial: the order of equal siblings is up to
the database).  The node is below the node asked for, the tree is sorted by the new values, every other node keeps its
parent, and the values are stored.  Descending order fields are fine: nothing is stored about the order. -/
theorem C44_al_submit_sorted_partial (h : Wf cfg db) (ho : cfg.orderBy ≠ []) {x : Row} (hx : x ∈ db.rows) (v : Vals) (fields : List Nat)
    {ref : Option Row} (hr : ∀ t, ref = some t → t ∈ db.rows ∧ (forest cfg db).Offered x.pk t.pk) {pos : Pos} (hpos : pos ∈ formPositions true) :
    ∃ p, (forest cfg db).FormAsksBelow (ref.map Row.pk) pos p ∧
      ∃ db' obj, formSubmit (manager cfg) (alNav cfg) Row.pk db (some x) { x with vals := v } fields ref pos = .ok (db', obj) ∧
        FormSorted cfg (forest cfg db) db' obj x.pk p (editData (data db.rows) x.pk v) := by
  obtain ⟨ch, e, hc⟩ := formSubmit_edit_sorted (m := manager cfg) ho (alNav cfg) Row.pk (C44_al_initial_sorted h hx) { x with vals := v } fields ref pos
  rw [e]
  have hst : ¬ ch.Touches cfg.orderBy → ∀ p, x.pk ∈ forest cfg db p →
      ∃ db' obj, formSave (manager cfg) db { x with vals := v } false ch ref pos = .ok (db', obj) ∧
        FormSorted cfg (forest cfg db) db' obj x.pk p (editData (data db.rows) x.pk v) := by
    intro hc p hp
    obtain ⟨p', hp', hd⟩ := C44_al_unchanged_sorted h ho hx v ref pos hc
    obtain rfl := parent_unique h.ai hp hp'
    exact hd
  cases ref with
  | none =>
    refine ⟨none, rfl, ?_⟩
    rcases hc with hc | ⟨hc, hsame, _⟩
    · obtain ⟨db', obj, e', hd, _⟩ := C44_al_edit_root_sorted_partial h ho hx v pos hc
      exact ⟨db', obj, e', hd⟩
    · exact hst hc _ (hsame _ rfl)
  | some t =>
    obtain ⟨ht, hoff⟩ := hr t rfl
    rcases hc with hc | ⟨hc, hsame, _⟩
    · obtain ⟨q, hq, db', obj, e', hd, _⟩ := C44_al_edit_sorted_partial h ho hx v ht hoff hpos hc
      exact ⟨_, ⟨q, hq, rfl⟩, db', obj, e', hd⟩
    · have hq := (mem_forest (cfg := cfg) h.ai ht).2 rfl
      exact ⟨_, ⟨_, hq, rfl⟩, hst hc _ (hsame _ ⟨_, hq, rfl⟩)⟩

end AL

namespace LT
variable {cfg : Cfg} {db : DB}

theorem near_of {db' : DB} {obj : Row} {k : Nat} {F : Forest} {p : Option Nat} {D : List (Nat × Vals)} (hk : k ∈ F p)
    (h : FormDone db' obj k F D) : FormNear db' obj k F p D :=
  ⟨h.consistent, by rw [h.forest]; exact .refl hk, h.data, h.obj⟩

/-- **C44 for LT, a submitted form for an existing node** (partial: siblings to the right of the node may change places
unless the labels are tidy). -/
theorem C44_lt_submit_partial (h : Consistent db) (ho : cfg.orderBy = []) {x : Row} (hx : x ∈ db.rows) (v : Vals)
    (fields : List Nat) {ref : Option Row} (hr : ∀ t, ref = some t → t ∈ db.rows ∧ (forest db).Offered x.pk t.pk) {pos : Pos}
    (hpos : pos ∈ formPositions false) :
    ∃ p s, (forest db).FormAsks (ref.map Row.pk) pos p s ∧
      ∃ db' obj, formSubmit (manager cfg) ltNav Row.pk db (some x) { x with vals := v } fields ref pos = .ok (db', obj) ∧
        FormNear db' obj x.pk ((forest db).move x.pk p s) p (editData (data db.rows) x.pk v) ∧
        (TidyLabels db p → FormDone db' obj x.pk ((forest db).move x.pk p s) (editData (data db.rows) x.pk v)) := by
  obtain ⟨ch, e, hc⟩ := formSubmit_edit (m := manager cfg) ho ltNav Row.pk (fun _ _ _ => parent_unique h) (forest_nodup h.inv.inv)
    (C37_nav h hx) { x with vals := v } fields ref pos
  rw [e]
  cases ref with
  | none =>
    refine ⟨none, .first, ⟨rfl, rfl⟩, ?_⟩
    rcases hc with hc | ⟨hc, hsame⟩
    · exact C44_lt_edit_root_partial h ho hx v pos hc
    · obtain ⟨db', obj, e', hd⟩ := C44_lt_unchanged (cfg := cfg) h hx v none pos hc
      obtain ⟨hs, hm⟩ := hsame _ _ ⟨rfl, rfl⟩
      rw [hs]
      exact ⟨db', obj, e', near_of hm hd, fun _ => hd⟩
  | some t =>
    obtain ⟨ht, hoff⟩ := hr t rfl
    rcases hc with hc | ⟨hc, hsame⟩
    · obtain ⟨q, hq, hd⟩ := C44_lt_edit_partial h ho hx v ht hoff hpos hc
      exact ⟨_, _, ⟨q, hq, rfl, rfl⟩, hd⟩
    · obtain ⟨q, _, hq, _⟩ := (C37_nav h ht).parent
      obtain ⟨db', obj, e', hd⟩ := C44_lt_unchanged (cfg := cfg) h hx v (some t) pos hc
      refine ⟨_, _, ⟨q, hq, rfl, rfl⟩, db', obj, e', ?_⟩
      obtain ⟨hs, hm⟩ := hsame _ _ ⟨q, hq, rfl, rfl⟩
      rw [hs]
      exact ⟨near_of hm hd, fun _ => hd⟩

end LT

/-! ### Examples -/

/-- NS: node 5 is shown as "after 2".  Submitted as it is shown with other values, it stays; submitted with "after 3", or with
another position only, it moves.  Node 3 is the only child of 2, shown as "first child of 2". -/
example : NS.Consistent NS.formDB ∧
    (∃ db' obj, formSubmit (NS.manager ⟨[]⟩) NS.nsNav NS.Row.pk NS.formDB (some ⟨5, 1, 8, 9, 2, [some 5]⟩) ⟨5, 1, 8, 9, 2, [some 7]⟩ [0]
      (some ⟨2, 1, 2, 7, 2, [some 2]⟩) .right = .ok (db', obj) ∧ NS.forest db' (some 1) = [2, 5] ∧ obj.vals = [some 7]) ∧
    (∃ db' obj, formSubmit (NS.manager ⟨[]⟩) NS.nsNav NS.Row.pk NS.formDB (some ⟨5, 1, 8, 9, 2, [some 5]⟩) ⟨5, 1, 8, 9, 2, [some 5]⟩ []
      (some ⟨2, 1, 2, 7, 2, [some 2]⟩) .left = .ok (db', obj) ∧ NS.forest db' (some 1) = [5, 2]) ∧
    (∃ db' obj, formSubmit (NS.manager ⟨[]⟩) NS.nsNav NS.Row.pk NS.formDB (some ⟨5, 1, 8, 9, 2, [some 5]⟩) ⟨5, 1, 8, 9, 2, [some 5]⟩ []
      (some ⟨3, 1, 3, 6, 3, [some 3]⟩) .right = .ok (db', obj) ∧ NS.forest db' (some 2) = [3, 5]) ∧
    (∃ db' obj, formSubmit (NS.manager ⟨[]⟩) NS.nsNav NS.Row.pk NS.formDB none ⟨9, 0, 0, 0, 0, []⟩ []
      none .firstChild = .ok (db', obj) ∧ NS.forest db' none = [1, 9]) :=
  ⟨NS.formDB_inv, ⟨_, _, rfl, by decide, by decide⟩, ⟨_, _, rfl, by decide⟩, ⟨_, _, rfl, by decide⟩, ⟨_, _, rfl, by decide⟩⟩

/-- The same for the others: in `exDB` node 3 is shown as "after 2". -/
example : MP.Consistent MP.exCfg MP.exDB ∧
    (∃ db' obj, formSubmit (MP.manager MP.exCfg) (mpNav MP.exCfg) MP.Row.pk MP.exDB (some ⟨3, [49, 51], 2, 1, []⟩) ⟨3, [49, 51], 2, 1, [some 7]⟩ [0]
      (some ⟨2, [49, 49], 2, 0, []⟩) .right = .ok (db', obj) ∧ MP.forest MP.exCfg db' (some 1) = [2, 3] ∧ obj.vals = [some 7]) ∧
    (∃ db' obj, formSubmit (MP.manager MP.exCfg) (mpNav MP.exCfg) MP.Row.pk MP.exDB (some ⟨3, [49, 51], 2, 1, []⟩) ⟨3, [49, 51], 2, 1, []⟩ []
      (some ⟨2, [49, 49], 2, 0, []⟩) .left = .ok (db', obj) ∧ MP.forest MP.exCfg db' (some 1) = [3, 2]) ∧
    AL.Consistent AL.exPlain AL.exDB ∧
    (∃ db' obj, formSubmit (AL.manager AL.exPlain) (AL.alNav AL.exPlain) AL.Row.pk AL.exDB (some ⟨3, some 1, 4, []⟩) ⟨3, some 1, 4, []⟩ []
      (some ⟨2, some 1, 1, []⟩) .left = .ok (db', obj) ∧ AL.forest AL.exPlain db' (some 1) = [3, 2]) ∧
    LT.Consistent LT.exDB ∧
    (∃ db' obj, formSubmit (LT.manager ⟨[]⟩) LT.ltNav LT.Row.pk LT.exDB (some ⟨3, [[65], [66]], []⟩) ⟨3, [[65], [66]], []⟩ []
      (some ⟨2, [[65], [65]], []⟩) .left = .ok (db', obj) ∧ LT.forest db' (some 1) = [3, 2]) :=
  ⟨MP.exDB_consistent, ⟨_, _, rfl, by decide, by decide⟩, ⟨_, _, rfl, by decide⟩, AL.consistent_of_inv rfl AL.exDB_inv, ⟨_, _, rfl, by decide⟩,
    LT.consistent_iff.2 LT.exDB_inv, ⟨_, _, rfl, by decide⟩⟩

/-- With `node_order_by`: node 4, below 1, gets the value 2 and moves; the form is otherwise submitted as it was shown. -/
example : AL.Wf AL.exSorted AL.exSDB ∧
    ∃ db' obj, formSubmit (AL.manager AL.exSorted) (AL.alNav AL.exSorted) AL.Row.pk AL.exSDB (some ⟨4, some 1, 0, [some 7]⟩) ⟨4, some 1, 0, [some 2]⟩ [0]
      (some ⟨1, none, 0, [some 5]⟩) .sortedChild = .ok (db', obj) ∧ AL.forest AL.exSorted db' (some 1) = [2, 4, 3] :=
  ⟨AL.wf_of_ai AL.exSDB_inv.toAI, _, _, rfl, by decide⟩

end Verif
