/-
C75: the admin's add and change pages and its drag and drop are all or nothing.
-/
import Verif.AdminForm
import Verif.Props.MPForm
import Verif.Props.NSForm
import Verif.Props.ALForm
import Verif.Props.LTForm

namespace Verif

variable {σ ρ : Type} {m : Manager σ ρ} {db : σ}

/-! ### The add and change pages -/

/-- **C75, the pages** (partial: trees in a database other than the default one, see `C75_page_other`).  For any kind of tree, any instance, reference and position, whatever the
rest of the project does when the page is saved: the user is redirected only if the form and its inlines are valid, the form's `save` succeeded and so did the rest, and
then the table is what these made of it; otherwise the table is as it was, although the form has written to it before the inlines were looked at. -/
theorem C75_page_partial (related : σ → ρ → Except Err σ) (conn : Conn) (hconn : conn.onDefault = true ∨ conn.defaultAtomic = false) (p : FormPage ρ) :
    AllOrNothing .saved db (fun db' => p.formValid = true ∧ p.inlinesValid = true ∧
      ∃ db₁ obj, formSave m db p.inst p.adding p.changed p.ref p.pos = .ok (db₁, obj) ∧ related db₁ obj = .ok db') (changeformView m related conn db p) := by
  unfold AllOrNothing
  by_cases hv : p.formValid = true ∧ p.inlinesValid = true
  · obtain ⟨hf, hi⟩ := hv
    unfold changeformView
    rw [djangoChangeform_valid related hf hi]
    cases h1 : formSave m db p.inst p.adding p.changed p.ref p.pos with
    | error e => simp
    | ok r =>
      simp only
      cases h2 : related r.1 r.2 with
      | error e => simp
      | ok db₂ => exact Or.inl ⟨rfl, hf, hi, r.1, r.2, rfl, h2⟩
  · right
    have key : ∀ r, djangoChangeform m related db p = .ok r → r.2 = true := by
      intro r
      unfold djangoChangeform
      by_cases hf : p.formValid = true
      · have hi : p.inlinesValid ≠ true := fun hi => hv ⟨hf, hi⟩
        rw [if_pos hf]
        cases formSaveLater m db p.inst p.adding p.changed p.ref p.pos with
        | error e => nofun
        | ok q => simp only [if_neg hi]; rintro ⟨⟩; rfl
      · rw [if_neg hf]; rintro ⟨⟩; rfl
    unfold changeformView
    cases hd : djangoChangeform m related db p with
    | error e => simp
    | ok r =>
      obtain ⟨db', b⟩ := r
      obtain rfl : b = true := key _ hd
      rcases hconn with hc | hc <;> cases ho : conn.onDefault <;> simp_all

/-- **C75, pages that are saved**: with valid inlines, the answer says what happened. -/
theorem C75_page_saved (related : σ → ρ → Except Err σ) (conn : Conn) {p : FormPage ρ} (hf : p.formValid = true) (hi : p.inlinesValid = true) :
    (∀ db₁ obj db', formSave m db p.inst p.adding p.changed p.ref p.pos = .ok (db₁, obj) → related db₁ obj = .ok db' →
      changeformView m related conn db p = (db', .saved)) ∧
    (∀ e, formSave m db p.inst p.adding p.changed p.ref p.pos = .error e → changeformView m related conn db p = (db, .exception e)) ∧
    (∀ db₁ obj e, formSave m db p.inst p.adding p.changed p.ref p.pos = .ok (db₁, obj) → related db₁ obj = .error e →
      changeformView m related conn db p = (db, .exception e)) := by
  unfold changeformView
  rw [djangoChangeform_valid related hf hi]
  refine ⟨?_, ?_, ?_⟩
  · intro db₁ obj db' h1 h2; rw [h1]; simp only [h2]; rfl
  · intro e h1; rw [h1]
  · intro db₁ obj e h1 h2; rw [h1]; simp only [h2]

/-- **C75, pages with errors**: the page is shown again, and an exception when the node is put at its place is still an exception. -/
theorem C75_page_errors (related : σ → ρ → Except Err σ) {conn : Conn} (hconn : conn.onDefault = true) {p : FormPage ρ} :
    (p.formValid = false → changeformView m related conn db p = (db, .errors)) ∧
    (p.formValid = true → p.inlinesValid = false →
      (changeformView m related conn db p = (db, .errors) ∨ ∃ e, changeformView m related conn db p = (db, .exception e))) := by
  unfold changeformView djangoChangeform
  constructor
  · intro hf; simp [hf, hconn]
  · intro hf hi
    simp only [hf, hi, if_true]
    cases h : formSaveLater m db p.inst p.adding p.changed p.ref p.pos with
    | error e => exact Or.inr ⟨e, rfl⟩
    | ok r => left; simp [hconn]

theorem formSaveLater_of_ok {inst : ρ} {adding : Bool} {ch : Changed} {ref : Option ρ} {pos : Pos} {db₁ : σ} {obj : ρ}
    (h : formSave m db inst adding ch ref pos = .ok (db₁, obj)) : ∃ db₂, formSaveLater m db inst adding ch ref pos = .ok (db₂, obj) ∧ m.save db₂ obj = .ok db₁ := by
  unfold formSave at h
  unfold formSaveLater
  by_cases hc : ch.inTree m.orderBy = true
  · rw [if_pos hc] at h
    rw [if_pos hc]
    cases hp : formPlace m db inst adding ref pos with
    | error e => rw [hp] at h; cases h
    | ok r =>
      rw [hp] at h
      simp only at h ⊢
      cases hr : m.refresh r.1 r.2 with
      | error e => rw [hr] at h; cases h
      | ok o =>
        rw [hr] at h
        simp only at h ⊢
        cases hs : m.save r.1 o with
        | error e => rw [hs] at h; cases h
        | ok d => rw [hs] at h; cases h; exact ⟨_, rfl, hs⟩
  · rw [if_neg hc] at h
    rw [if_neg hc]
    cases hs : m.save db inst with
    | error e => rw [hs] at h; cases h
    | ok d => rw [hs] at h; cases h; exact ⟨_, rfl, hs⟩

/-- **C75, the same page with and without an error in an inline**: saved as the form says, or shown again with the table unchanged. -/
theorem C75_page_either {conn : Conn} (hconn : conn.onDefault = true) {inst : ρ} {adding : Bool} {ch : Changed} {ref : Option ρ} {pos : Pos} {db₁ : σ} {obj : ρ}
    (h : formSave m db inst adding ch ref pos = .ok (db₁, obj)) (inlines : Bool) :
    changeformView m (fun db _ => .ok db) conn db ⟨inst, adding, ch, ref, pos, true, inlines⟩ = if inlines then (db₁, .saved) else (db, .errors) := by
  cases inlines with
  | true => exact (C75_page_saved (p := ⟨inst, adding, ch, ref, pos, true, true⟩) _ conn rfl rfl).1 _ _ _ h rfl
  | false =>
    obtain ⟨db₂, hl, _⟩ := formSaveLater_of_ok h
    unfold changeformView djangoChangeform
    simp [hl, hconn]

/-- **C75, pages of trees in another database**: with a transaction around the request in the default database, a page that is shown again with errors has all the same put the node
at its place: the table is the one `save(commit=False)` left. -/
theorem C75_page_kept (related : σ → ρ → Except Err σ) {p : FormPage ρ} (hf : p.formValid = true) (hi : p.inlinesValid = false) {db₁ : σ} {obj : ρ}
    (hl : formSaveLater m db p.inst p.adding p.changed p.ref p.pos = .ok (db₁, obj)) :
    changeformView m related ⟨false, true⟩ db p = (db₁, .errors) := by
  unfold changeformView djangoChangeform
  simp [hf, hi, hl]

/-! ### Drag and drop -/

/-- **C75, drops that are not looked at further**: without permission, or with keys of no node, nothing happens, and the answer is not "OK". -/
theorem C75_move_unmoved (fetch : σ → Nat → Option ρ) {mayView : Bool} {mayChange : ρ → Bool} {d : Drop}
    (h : mayView = false ∨ d.node.bind (fetch db) = none ∨ d.target.bind (fetch db) = none ∨ d.child = none ∨ ∃ x, d.node.bind (fetch db) = some x ∧ mayChange x = false) :
    (moveView m fetch mayView mayChange db d).1 = db ∧
    ((moveView m fetch mayView mayChange db d).2 = .forbidden ∨ (moveView m fetch mayView mayChange db d).2 = .badRequest) :=
  moveView_unmoved fetch h

/-- the manager of a project where saving raises `e`: a receiver of `pre_save`, for example -/
def Manager.refusing (m : Manager σ ρ) (e : Err) : Manager σ ρ := { m with save := fun _ _ => .error e }

/-- **C75, drops in a project that refuses to save**: the answer is an error, and the node has been moved all the same. -/
theorem C75_move_refusing (fetch : σ → Nat → Option ρ) {mayChange : ρ → Bool} {node target obj obj' : ρ} {child : Bool} {j k : Nat} {db' : σ} (e : Err)
    (h1 : fetch db j = some node) (h2 : fetch db k = some target) (hc : mayChange node = true)
    (hm : m.move db node target (adminPos child m.ordered) = .ok (db', obj)) (hr : m.refresh db' obj = .ok obj') :
    moveView (m.refusing e) fetch true mayChange db ⟨some j, some k, some child⟩ = (db', moveAnswer e) ∧ moveAnswer e ≠ .ok := by
  constructor
  · unfold moveView
    simp only [if_true, Option.bind_some, h1, h2, hc]
    have ho : (m.refusing e).ordered = m.ordered := rfl
    rw [ho, show (m.refusing e).move = m.move from rfl, hm]
    simp only
    rw [show (m.refusing e).refresh = m.refresh from rfl, hr]
    rfl
  · unfold moveAnswer; split <;> simp

end Verif

/-! ### The four kinds of tree -/

namespace Verif.MP

variable {cfg : Cfg} {db : DB}

theorem refresh_error {db : DB} {x : Row} {e : Err} (h : e ≠ .doesNotExist) : (manager cfg).refresh db x ≠ .error e := by
  show (match db.get? x.pk with | none => Except.error Err.doesNotExist | some r => .ok r) ≠ _
  cases db.get? x.pk <;> simp [Ne.symm h]

theorem save_error {db : DB} {x : Row} {e : Err} (h : e ≠ .integrity) : (manager cfg).save db x ≠ .error e := by
  show save db x ≠ _
  unfold save
  generalize (if db.rows.any (·.pk == x.pk) then db.rows.map (fun r => if r.pk == x.pk then x else r) else db.rows ++ [x]) = rows
  simp only
  by_cases hu : uniquePaths rows = true <;> simp [hu, Ne.symm h]

/-- **C75 for MP, drag and drop** (partial like C52: moves whose paths fit).  "OK" means that the node is the last child of the target or just before it; otherwise the answer is an
error, for a move to a descendant or below a parent that is full, and the table is unchanged. -/
theorem C75_mp_move_partial (hok : cfg.Ok) (h : Consistent cfg db) (ho : cfg.orderBy = []) {x t : Row} (hx : x ∈ db.rows) (ht : t ∈ db.rows)
    (child : Bool) {mayChange : Row → Bool} (hc : mayChange x = true) :
    ∃ p, t.pk ∈ forest cfg db p ∧
      ((forest cfg db).MoveRefused x.pk t.pk (adminPos child false) →
        moveView (manager cfg) DB.get? true mayChange db ⟨some x.pk, some t.pk, some child⟩ = (db, .badRequest)) ∧
      (¬ (forest cfg db).MoveRefused x.pk t.pk (adminPos child false) → MoveFits cfg db x.pk p t.pk (adminPos child false) →
        (∃ db' obj, moveView (manager cfg) DB.get? true mayChange db ⟨some x.pk, some t.pk, some child⟩ = (db', .ok) ∧
          FormDone cfg db' obj x.pk (if child then (forest cfg db).move x.pk (some t.pk) .last
            else if t.pk = x.pk then forest cfg db else (forest cfg db).move x.pk p (.before t.pk)) (data db.rows)) ∨
        (moveView (manager cfg) DB.get? true mayChange db ⟨some x.pk, some t.pk, some child⟩ = (db, .badRequest) ∧
          LastTaken cfg db (if child then some t.pk else p))) := by
  have hi := (consistent_iff hok).1 h
  have h1 : (some x.pk).bind db.get? = some x := (get?_eq_some hi.inv).2 ⟨hx, rfl⟩
  have h2 : (some t.pk).bind db.get? = some t := (get?_eq_some hi.inv).2 ⟨ht, rfl⟩
  obtain ⟨p, hp, hr, hd⟩ := C52_mp_partial hok h ho hx ht child
  refine ⟨p, hp, ?_, ?_⟩
  · intro hrf
    exact moveView_error DB.get? h1 h2 rfl hc (fun _ _ => refresh_error (by decide)) (fun _ _ => save_error (by decide)) (hr hrf)
  · intro hrf hfit
    rcases hd hrf hfit with ⟨db', obj, e, hf⟩ | ⟨e, hl⟩
    · exact Or.inl ⟨db', obj, (moveView_move DB.get? h1 h2 rfl hc).2 db' obj e, hf⟩
    · exact Or.inr ⟨moveView_error DB.get? h1 h2 rfl hc (fun _ _ => refresh_error (by decide)) (fun _ _ => save_error (by decide)) e, hl⟩

/-- **C75 for MP with `node_order_by`, drag and drop.** -/
theorem C75_mp_move_sorted (hok : cfg.Ok) (h : Consistent cfg db) (ho : cfg.orderBy ≠ []) (hs : SortedTree cfg db) {x t : Row}
    (hx : x ∈ db.rows) (ht : t ∈ db.rows) (child : Bool) {mayChange : Row → Bool} (hc : mayChange x = true) :
    ∃ p, t.pk ∈ forest cfg db p ∧
      ((forest cfg db).MoveRefused x.pk t.pk (adminPos child true) →
        moveView (manager cfg) DB.get? true mayChange db ⟨some x.pk, some t.pk, some child⟩ = (db, .badRequest)) ∧
      (¬ (forest cfg db).MoveRefused x.pk t.pk (adminPos child true) →
        (∃ db' obj s, moveView (manager cfg) DB.get? true mayChange db ⟨some x.pk, some t.pk, some child⟩ = (db', .ok) ∧
          FormDone cfg db' obj x.pk ((forest cfg db).move x.pk (if child then some t.pk else p) s) (data db.rows) ∧
          FormSorted cfg db' x.pk (if child then some t.pk else p)) ∨
        (moveView (manager cfg) DB.get? true mayChange db ⟨some x.pk, some t.pk, some child⟩ = (db, .badRequest) ∧
          LastTaken cfg db (if child then some t.pk else p))) := by
  have hi := (consistent_iff hok).1 h
  have h1 : (some x.pk).bind db.get? = some x := (get?_eq_some hi.inv).2 ⟨hx, rfl⟩
  have h2 : (some t.pk).bind db.get? = some t := (get?_eq_some hi.inv).2 ⟨ht, rfl⟩
  have hord : (manager cfg).ordered = true := ordered_true ho
  refine ⟨par cfg db.rows t, mem_forest_par hok hi ht, ?_, ?_⟩
  · intro hrf
    refine (moveView_move DB.get? h1 h2 rfl hc).1 .invalidMoveToDescendant ?_
    rw [hord, manager_move, C08_mp hok h hx ht (by rw [show cfg.ordered = true from hord]; cases child <;> rfl) hrf]
    rfl
  · intro hrf
    obtain ⟨p, hp, hd⟩ := C52_mp_sorted hok h ho hs hx ht child hrf
    obtain rfl := parent_unique hok h hp (mem_forest_par hok hi ht)
    rcases hd with ⟨db', obj, s, e, hf⟩ | ⟨e, hl⟩
    · exact Or.inl ⟨db', obj, s, (moveView_move DB.get? h1 h2 rfl hc).2 db' obj e, hf⟩
    · exact Or.inr ⟨moveView_error DB.get? h1 h2 rfl hc (fun _ _ => refresh_error (by decide)) (fun _ _ => save_error (by decide)) e, hl⟩

/-- **C75 for MP, change pages** (an existing node, with a reference; partial like C44: moves whose paths fit).  Below a parent that is full the page ends in a server error, and the
table is unchanged. -/
theorem C75_mp_page_partial (hok : cfg.Ok) (h : Consistent cfg db) (ho : cfg.orderBy = []) {x t : Row} (hx : x ∈ db.rows)
    (v : Vals) (ht : t ∈ db.rows) (hoff : (forest cfg db).Offered x.pk t.pk) {pos : Pos} (hpos : pos ∈ formPositions false)
    {ch : Changed} (hc : ch.Touches cfg.orderBy) {conn : Conn} (hconn : conn.onDefault = true) (inlines : Bool) :
    ∃ p, t.pk ∈ forest cfg db p ∧ (MoveFits cfg db x.pk p t.pk pos →
      (∃ db' obj, changeformView (manager cfg) (fun db _ => .ok db) conn db ⟨{ x with vals := v }, false, ch, some t, pos, true, inlines⟩ =
          (if inlines then (db', .saved) else (db, .errors)) ∧
        FormDone cfg db' obj x.pk ((forest cfg db).move x.pk (pos.dest p t.pk) (formSlot t.pk pos)) (editData (data db.rows) x.pk v)) ∨
      ((changeformView (manager cfg) (fun db _ => .ok db) conn db ⟨{ x with vals := v }, false, ch, some t, pos, true, inlines⟩).1 = db ∧
        (changeformView (manager cfg) (fun db _ => .ok db) conn db ⟨{ x with vals := v }, false, ch, some t, pos, true, inlines⟩).2 ≠ .saved ∧
        LastTaken cfg db (pos.dest p t.pk))) := by
  obtain ⟨p, hp, hd⟩ := C44_mp_edit_partial hok h ho hx v ht hoff hpos hc
  refine ⟨p, hp, fun hfit => ?_⟩
  rcases hd hfit with ⟨db', obj, e, hf⟩ | ⟨e, hl⟩
  · exact Or.inl ⟨db', obj, C75_page_either hconn e inlines, hf⟩
  · right
    rcases C75_page_partial (m := manager cfg) (db := db) (fun db _ => .ok db) conn (Or.inl hconn)
        ⟨{ x with vals := v }, false, ch, some t, pos, true, inlines⟩ with ⟨_, _, _, db₁, obj, e', _⟩ | ⟨h1, h2⟩
    · rw [e] at e'; cases e'
    · exact ⟨h2, h1, hl⟩

/-! ### Witnesses and a concrete case -/

/-- node 4 is edited and put to the left of node 2, and an inline of the page has an error -/
def exPage (inlines : Bool) : FormPage Row := ⟨⟨4, [49, 51, 49], 3, 0, [some 7]⟩, false, ⟨true, true, []⟩, some ⟨2, [49, 49], 2, 0, []⟩, .left, true, inlines⟩

example : Consistent exCfg exDB ∧ (forest exCfg exDB).Offered 4 2 ∧
    (changeformView (manager exCfg) (fun db _ => .ok db) ⟨true, false⟩ exDB (exPage true)).2 = .saved ∧
    forest exCfg (changeformView (manager exCfg) (fun db _ => .ok db) ⟨true, false⟩ exDB (exPage true)).1 (some 1) = [4, 2, 3] ∧
    changeformView (manager exCfg) (fun db _ => .ok db) ⟨true, false⟩ exDB (exPage false) = (exDB, .errors) ∧
    changeformView (manager exCfg) (fun _ _ => .error .integrity) ⟨true, false⟩ exDB (exPage true) = (exDB, .exception .integrity) ∧
    changeformView (manager exCfg) (fun db _ => .ok db) ⟨false, false⟩ exDB (exPage false) = (exDB, .transaction) :=
  by
  refine ⟨exDB_consistent, ⟨by decide, ?_⟩, by decide, by decide, by decide, by decide, by decide⟩
  have hl := (C11_mp exCfg_ok exDB_consistent (p := some ⟨4, [49, 51, 49], 3, 0, []⟩) (by rintro q e; cases e; decide) none).mem_branch 2
  intro hd
  have := hl.2 (Or.inr hd)
  revert this
  decide

/-- **C75 fails for trees in another database.**  With `ATOMIC_REQUESTS` in the default database and the tree elsewhere, the page is shown again with its errors, and yet node 4 is
now the first child of node 1 and has its new value.  For an add page, the node is stored although the page says that it is not. -/
theorem C75_page_other : Consistent exCfg exDB ∧
    (changeformView (manager exCfg) (fun db _ => .ok db) ⟨false, true⟩ exDB (exPage false)).2 = .errors ∧
    forest exCfg exDB (some 1) = [2, 3] ∧
    forest exCfg (changeformView (manager exCfg) (fun db _ => .ok db) ⟨false, true⟩ exDB (exPage false)).1 (some 1) = [4, 2, 3] ∧
    (changeformView (manager exCfg) (fun db _ => .ok db) ⟨false, true⟩ exDB
      ⟨⟨9, [], 0, 0, []⟩, true, ⟨true, true, []⟩, some ⟨3, [49, 51], 2, 1, []⟩, .left, true, false⟩).2 = .errors ∧
    9 ∈ forest exCfg (changeformView (manager exCfg) (fun db _ => .ok db) ⟨false, true⟩ exDB
      ⟨⟨9, [], 0, 0, []⟩, true, ⟨true, true, []⟩, some ⟨3, [49, 51], 2, 1, []⟩, .left, true, false⟩).1 (some 1) :=
  ⟨exDB_consistent, by decide, by decide, by decide, by decide, by decide⟩

/-- **C75 fails for drops in a project that refuses to save**: a server error, and node 4 has been moved. -/
theorem C75_move_refused_moved : Consistent exCfg exDB ∧
    (moveView ((manager exCfg).refusing .valueError) DB.get? true (fun _ => true) exDB ⟨some 4, some 1, some true⟩).2 = .exception .valueError ∧
    forest exCfg exDB (some 1) = [2, 3] ∧
    forest exCfg (moveView ((manager exCfg).refusing .valueError) DB.get? true (fun _ => true) exDB ⟨some 4, some 1, some true⟩).1 (some 1) = [2, 3, 4] :=
  ⟨exDB_consistent, by decide, by decide, by decide⟩

example : (moveView (manager exCfg) DB.get? true (fun _ => true) exDB ⟨some 4, some 1, some true⟩).2 = .ok ∧
    forest exCfg (moveView (manager exCfg) DB.get? true (fun _ => true) exDB ⟨some 4, some 1, some true⟩).1 (some 1) = [2, 3, 4] ∧
    moveView (manager exCfg) DB.get? true (fun _ => true) exDB ⟨some 1, some 4, some true⟩ = (exDB, .badRequest) ∧
    moveView (manager exCfg) DB.get? true (fun _ => true) exDB ⟨some 77, some 4, some true⟩ = (exDB, .badRequest) ∧
    moveView (manager exCfg) DB.get? true (fun r => r.pk != 4) exDB ⟨some 4, some 1, some true⟩ = (exDB, .forbidden) :=
  ⟨by decide, by decide, by decide, by decide, by decide⟩

end Verif.MP

namespace Verif.NS

variable {cfg : Cfg} {db : DB}

theorem refresh_error {db : DB} {x : Row} {e : Err} (h : e ≠ .doesNotExist) : (manager cfg).refresh db x ≠ .error e := by
  show (match db.get? x.pk with | none => Except.error Err.doesNotExist | some r => .ok r) ≠ _
  cases db.get? x.pk <;> simp [Ne.symm h]

/-- **C75 for NS, drag and drop.** -/
theorem C75_ns_move (h : Consistent db) (ho : cfg.orderBy = []) {x t : Row} (hx : x ∈ db.rows) (ht : t ∈ db.rows) (child : Bool)
    {mayChange : Row → Bool} (hc : mayChange x = true) :
    ∃ p, t.pk ∈ forest db p ∧
      ((forest db).MoveRefused x.pk t.pk (adminPos child false) →
        moveView (manager cfg) DB.get? true mayChange db ⟨some x.pk, some t.pk, some child⟩ = (db, .badRequest)) ∧
      (¬ (forest db).MoveRefused x.pk t.pk (adminPos child false) →
        ∃ db' obj, moveView (manager cfg) DB.get? true mayChange db ⟨some x.pk, some t.pk, some child⟩ = (db', .ok) ∧
          FormDone db' obj x.pk (if child then (forest db).move x.pk (some t.pk) .last
            else if t.pk = x.pk then forest db else (forest db).move x.pk p (.before t.pk)) (data db.rows)) := by
  have h1 : (some x.pk).bind db.get? = some x := (get?_eq_some h.toNI).2 ⟨hx, rfl⟩
  have h2 : (some t.pk).bind db.get? = some t := (get?_eq_some h.toNI).2 ⟨ht, rfl⟩
  obtain ⟨p, hp, hr, hd⟩ := C52_ns h ho hx ht child
  refine ⟨p, hp, ?_, ?_⟩
  · intro hrf
    exact moveView_error DB.get? h1 h2 rfl hc (fun _ _ => refresh_error (by decide)) (fun _ _ => nofun) (hr hrf)
  · intro hrf
    obtain ⟨db', obj, e, hf⟩ := hd hrf
    exact ⟨db', obj, (moveView_move DB.get? h1 h2 rfl hc).2 db' obj e, hf⟩

/-- **C75 for NS with `node_order_by`, drag and drop.** -/
theorem C75_ns_move_sorted (h : Consistent db) (ho : cfg.orderBy ≠ []) (hs : SortedTree cfg db) {x t : Row} (hx : x ∈ db.rows)
    (ht : t ∈ db.rows) (child : Bool) {mayChange : Row → Bool} (hc : mayChange x = true) :
    ∃ p, t.pk ∈ forest db p ∧
      ((forest db).MoveRefused x.pk t.pk (adminPos child true) →
        moveView (manager cfg) DB.get? true mayChange db ⟨some x.pk, some t.pk, some child⟩ = (db, .badRequest)) ∧
      (¬ (forest db).MoveRefused x.pk t.pk (adminPos child true) →
        ∃ db' obj s, moveView (manager cfg) DB.get? true mayChange db ⟨some x.pk, some t.pk, some child⟩ = (db', .ok) ∧
          FormDone db' obj x.pk ((forest db).move x.pk (if child then some t.pk else p) s) (data db.rows) ∧
          FormSorted cfg db' x.pk (if child then some t.pk else p)) := by
  have h1 : (some x.pk).bind db.get? = some x := (get?_eq_some h.toNI).2 ⟨hx, rfl⟩
  have h2 : (some t.pk).bind db.get? = some t := (get?_eq_some h.toNI).2 ⟨ht, rfl⟩
  have hord : (manager cfg).ordered = true := ordered_true ho
  refine ⟨par db.rows t, (mem_forest h ht).2 rfl, ?_, ?_⟩
  · intro hrf
    refine (moveView_move DB.get? h1 h2 rfl hc).1 .invalidMoveToDescendant ?_
    rw [hord]
    show (move cfg db x t none (some (adminPos child true))).map _ = _
    rw [C08_ns h hx ht (by rw [show cfg.ordered = true from hord]; cases child <;> rfl) hrf]
    rfl
  · intro hrf
    obtain ⟨p, hp, db', obj, s, e, hf⟩ := C52_ns_sorted h ho hs hx ht child hrf
    obtain rfl := parent_unique h hp ((mem_forest h ht).2 rfl)
    exact ⟨db', obj, s, (moveView_move DB.get? h1 h2 rfl hc).2 db' obj e, hf⟩

/-- **C75 for NS, change pages** (an existing node, with a reference). -/
theorem C75_ns_page (h : Consistent db) (ho : cfg.orderBy = []) {x t : Row} (hx : x ∈ db.rows) (v : Vals) (ht : t ∈ db.rows)
    (hoff : (forest db).Offered x.pk t.pk) {pos : Pos} (hpos : pos ∈ formPositions false) {ch : Changed} (hc : ch.Touches cfg.orderBy)
    {conn : Conn} (hconn : conn.onDefault = true) (inlines : Bool) :
    ∃ p, t.pk ∈ forest db p ∧ ∃ db' obj,
      changeformView (manager cfg) (fun db _ => .ok db) conn db ⟨{ x with vals := v }, false, ch, some t, pos, true, inlines⟩ =
        (if inlines then (db', .saved) else (db, .errors)) ∧
      FormDone db' obj x.pk ((forest db).move x.pk (pos.dest p t.pk) (formSlot t.pk pos)) (editData (data db.rows) x.pk v) := by
  obtain ⟨p, hp, db', obj, e, hd⟩ := C44_ns_edit h ho hx v ht hoff hpos hc
  exact ⟨p, hp, db', obj, C75_page_either hconn e inlines, hd⟩

example : Consistent exDB ∧
    (moveView (manager ⟨[]⟩) DB.get? true (fun _ => true) exDB ⟨some 4, some 1, some true⟩).2 = .ok ∧
    forest exDB (some 1) = [2, 3] ∧
    forest (moveView (manager ⟨[]⟩) DB.get? true (fun _ => true) exDB ⟨some 4, some 1, some true⟩).1 (some 1) = [2, 3, 4] ∧
    moveView (manager ⟨[]⟩) DB.get? true (fun _ => true) exDB ⟨some 1, some 4, some true⟩ = (exDB, .badRequest) :=
  ⟨exDB_inv, by decide, by decide, by decide, by decide⟩

end Verif.NS

namespace Verif.AL

variable {cfg : Cfg} {db : DB}

theorem refresh_error {db : DB} {x : Row} {e : Err} (h : e ≠ .doesNotExist) : (manager cfg).refresh db x ≠ .error e := by
  show (match db.get? x.pk with | none => Except.error Err.doesNotExist | some r => .ok r) ≠ _
  cases db.get? x.pk <;> simp [Ne.symm h]

theorem save_error {db : DB} {x : Row} {e : Err} (h : e ≠ .integrity) : (manager cfg).save db x ≠ .error e := by
  show save db x ≠ _
  unfold save
  generalize (if db.rows.any (·.pk == x.pk) then db.rows.map (fun r => if r.pk == x.pk then x else r) else db.rows ++ [x]) = rows
  simp only
  cases x.parent with
  | none => simp
  | some p => by_cases hu : rows.any (·.pk == p) = true <;> simp [hu, Ne.symm h]

/-- **C75 for AL, drag and drop.** -/
theorem C75_al_move (h : Consistent cfg db) (ho : cfg.orderBy = []) {x t : Row} (hx : x ∈ db.rows) (ht : t ∈ db.rows) (child : Bool)
    {mayChange : Row → Bool} (hc : mayChange x = true) :
    ∃ p, t.pk ∈ forest cfg db p ∧
      ((forest cfg db).MoveRefused x.pk t.pk (adminPos child false) →
        moveView (manager cfg) DB.get? true mayChange db ⟨some x.pk, some t.pk, some child⟩ = (db, .badRequest)) ∧
      (¬ (forest cfg db).MoveRefused x.pk t.pk (adminPos child false) →
        ∃ db' obj, moveView (manager cfg) DB.get? true mayChange db ⟨some x.pk, some t.pk, some child⟩ = (db', .ok) ∧
          FormDone cfg db' obj x.pk (if child then (forest cfg db).move x.pk (some t.pk) .last
            else if t.pk = x.pk then forest cfg db else (forest cfg db).move x.pk p (.before t.pk)) (data db.rows)) := by
  have h1 : (some x.pk).bind db.get? = some x := (get?_eq_some h.toWf.ai).2 ⟨hx, rfl⟩
  have h2 : (some t.pk).bind db.get? = some t := (get?_eq_some h.toWf.ai).2 ⟨ht, rfl⟩
  obtain ⟨p, hp, hr, hd⟩ := C52_al h ho hx ht child
  refine ⟨p, hp, ?_, ?_⟩
  · intro hrf
    exact moveView_error DB.get? h1 h2 rfl hc (fun _ _ => refresh_error (by decide)) (fun _ _ => save_error (by decide)) (hr hrf)
  · intro hrf
    obtain ⟨db', obj, e, hf⟩ := hd hrf
    exact ⟨db', obj, (moveView_move DB.get? h1 h2 rfl hc).2 db' obj e, hf⟩

/-- **C75 for AL with `node_order_by`, drag and drop** (partial like C52: the place among equal siblings). -/
theorem C75_al_move_sorted_partial (h : Wf cfg db) (ho : cfg.orderBy ≠ []) {x t : Row} (hx : x ∈ db.rows) (ht : t ∈ db.rows) (child : Bool)
    {mayChange : Row → Bool} (hc : mayChange x = true) :
    ∃ p, t.pk ∈ forest cfg db p ∧
      ((forest cfg db).MoveRefused x.pk t.pk (adminPos child true) →
        moveView (manager cfg) DB.get? true mayChange db ⟨some x.pk, some t.pk, some child⟩ = (db, .badRequest)) ∧
      (¬ (forest cfg db).MoveRefused x.pk t.pk (adminPos child true) →
        ∃ db' obj, moveView (manager cfg) DB.get? true mayChange db ⟨some x.pk, some t.pk, some child⟩ = (db', .ok) ∧
          FormSorted cfg (forest cfg db) db' obj x.pk (if child then some t.pk else p) (data db.rows) ∧
          (NoTies cfg db → DistinctAt cfg db x.pk (if child then some t.pk else p) x.vals →
            NoTies cfg db' ∧ ∃ s, forest cfg db' = (forest cfg db).move x.pk (if child then some t.pk else p) s)) := by
  have h1 : (some x.pk).bind db.get? = some x := (get?_eq_some h.ai).2 ⟨hx, rfl⟩
  have h2 : (some t.pk).bind db.get? = some t := (get?_eq_some h.ai).2 ⟨ht, rfl⟩
  obtain ⟨p, hp, hr, hd⟩ := C52_al_sorted_partial h ho hx ht child
  refine ⟨p, hp, ?_, ?_⟩
  · intro hrf
    exact moveView_error DB.get? h1 h2 rfl hc (fun _ _ => refresh_error (by decide)) (fun _ _ => save_error (by decide)) (hr hrf)
  · intro hrf
    obtain ⟨db', obj, e, hf⟩ := hd hrf
    exact ⟨db', obj, (moveView_move DB.get? h1 h2 rfl hc).2 db' obj e, hf⟩

/-- **C75 for AL, change pages** (an existing node, with a reference). -/
theorem C75_al_page (h : Consistent cfg db) (ho : cfg.orderBy = []) {x t : Row} (hx : x ∈ db.rows) (v : Vals) (ht : t ∈ db.rows)
    (hoff : (forest cfg db).Offered x.pk t.pk) {pos : Pos} (hpos : pos ∈ formPositions false) {ch : Changed} (hc : ch.Touches cfg.orderBy)
    {conn : Conn} (hconn : conn.onDefault = true) (inlines : Bool) :
    ∃ p, t.pk ∈ forest cfg db p ∧ ∃ db' obj,
      changeformView (manager cfg) (fun db _ => .ok db) conn db ⟨{ x with vals := v }, false, ch, some t, pos, true, inlines⟩ =
        (if inlines then (db', .saved) else (db, .errors)) ∧
      FormDone cfg db' obj x.pk ((forest cfg db).move x.pk (pos.dest p t.pk) (formSlot t.pk pos)) (editData (data db.rows) x.pk v) := by
  obtain ⟨p, hp, db', obj, e, hd⟩ := C44_al_edit h ho hx v ht hoff hpos hc
  exact ⟨p, hp, db', obj, C75_page_either hconn e inlines, hd⟩

example : Consistent exPlain exDB ∧
    (moveView (manager exPlain) DB.get? true (fun _ => true) exDB ⟨some 4, some 1, some true⟩).2 = .ok ∧
    forest exPlain exDB (some 1) = [2, 3] ∧
    forest exPlain (moveView (manager exPlain) DB.get? true (fun _ => true) exDB ⟨some 4, some 1, some true⟩).1 (some 1) = [2, 3, 4] ∧
    moveView (manager exPlain) DB.get? true (fun _ => true) exDB ⟨some 1, some 4, some true⟩ = (exDB, .badRequest) :=
  ⟨AL.consistent_of_inv rfl AL.exDB_inv, by decide, by decide, by decide, by decide⟩

end Verif.AL

namespace Verif.LT

variable {cfg : Cfg} {db : DB}

theorem refresh_error {db : DB} {x : Row} {e : Err} (h : e ≠ .doesNotExist) : (manager cfg).refresh db x ≠ .error e := by
  show (match db.get? x.pk with | none => Except.error Err.doesNotExist | some r => .ok r) ≠ _
  cases db.get? x.pk <;> simp [Ne.symm h]

/-- **C75 for LT, drag and drop** (partial like C52: siblings whose labels are not tidy). -/
theorem C75_lt_move_partial (h : Consistent db) (ho : cfg.orderBy = []) {x t : Row} (hx : x ∈ db.rows) (ht : t ∈ db.rows) (child : Bool)
    {mayChange : Row → Bool} (hc : mayChange x = true) :
    ∃ p, t.pk ∈ forest db p ∧
      ((forest db).MoveRefused x.pk t.pk (adminPos child false) →
        moveView (manager cfg) DB.get? true mayChange db ⟨some x.pk, some t.pk, some child⟩ = (db, .badRequest)) ∧
      (¬ (forest db).MoveRefused x.pk t.pk (adminPos child false) →
        ∃ db' obj, moveView (manager cfg) DB.get? true mayChange db ⟨some x.pk, some t.pk, some child⟩ = (db', .ok) ∧
          (child = true ∨ TidyLabels db p → FormDone db' obj x.pk (if child then (forest db).move x.pk (some t.pk) .last
            else if t.pk = x.pk then forest db else (forest db).move x.pk p (.before t.pk)) (data db.rows)) ∧
          (child = false → FormNear db' obj x.pk (if t.pk = x.pk then forest db else (forest db).move x.pk p (.before t.pk)) p (data db.rows))) := by
  have h1 : (some x.pk).bind db.get? = some x := (get?_eq_some h.inv.inv).2 ⟨hx, rfl⟩
  have h2 : (some t.pk).bind db.get? = some t := (get?_eq_some h.inv.inv).2 ⟨ht, rfl⟩
  obtain ⟨p, hp, hr, hd⟩ := C52_lt_partial h ho hx ht child
  refine ⟨p, hp, ?_, ?_⟩
  · intro hrf
    exact moveView_error DB.get? h1 h2 rfl hc (fun _ _ => refresh_error (by decide)) (fun _ _ => nofun) (hr hrf)
  · intro hrf
    obtain ⟨db', obj, e, hf⟩ := hd hrf
    exact ⟨db', obj, (moveView_move DB.get? h1 h2 rfl hc).2 db' obj e, hf⟩

/-- **C75 for LT with `node_order_by`, drag and drop** (partial like C52).  Below a parent that is full the answer is a server error, and the table is unchanged. -/
theorem C75_lt_move_sorted_partial (h : Consistent db) (ho : cfg.orderBy ≠ []) (hs : SortedTree cfg db) {x t : Row} (hx : x ∈ db.rows) (ht : t ∈ db.rows)
    (child : Bool) {mayChange : Row → Bool} (hc : mayChange x = true) :
    ∃ p, t.pk ∈ forest db p ∧
      ((forest db).MoveRefused x.pk t.pk (adminPos child true) →
        moveView (manager cfg) DB.get? true mayChange db ⟨some x.pk, some t.pk, some child⟩ = (db, .badRequest)) ∧
      (¬ (forest db).MoveRefused x.pk t.pk (adminPos child true) →
        (∃ db' obj s, moveView (manager cfg) DB.get? true mayChange db ⟨some x.pk, some t.pk, some child⟩ = (db', .ok) ∧
          FormNear db' obj x.pk ((forest db).move x.pk (if child then some t.pk else p) s) (if child then some t.pk else p) (data db.rows) ∧
          (Lucky cfg db (if child then some t.pk else p) x obj →
            FormDone db' obj x.pk ((forest db).move x.pk (if child then some t.pk else p) s) (data db.rows) ∧
            FormSorted cfg db' x.pk (if child then some t.pk else p))) ∨
        (moveView (manager cfg) DB.get? true mayChange db ⟨some x.pk, some t.pk, some child⟩ = (db, .exception .valueError) ∧
          Full db (if child then some t.pk else p))) := by
  have h1 : (some x.pk).bind db.get? = some x := (get?_eq_some h.inv.inv).2 ⟨hx, rfl⟩
  have h2 : (some t.pk).bind db.get? = some t := (get?_eq_some h.inv.inv).2 ⟨ht, rfl⟩
  obtain ⟨p, hp, hr, hd⟩ := C52_lt_sorted_partial h ho hs hx ht child
  refine ⟨p, hp, ?_, ?_⟩
  · intro hrf
    exact moveView_error DB.get? h1 h2 rfl hc (fun _ _ => refresh_error (by decide)) (fun _ _ => nofun) (hr hrf)
  · intro hrf
    rcases hd hrf with ⟨db', obj, s, e, hf⟩ | ⟨e, hl⟩
    · exact Or.inl ⟨db', obj, s, (moveView_move DB.get? h1 h2 rfl hc).2 db' obj e, hf⟩
    · exact Or.inr ⟨moveView_error DB.get? h1 h2 rfl hc (fun _ _ => refresh_error (by decide)) (fun _ _ => nofun) e, hl⟩

/-- **C75 for LT, change pages** (an existing node, with a reference; partial like C44: siblings whose labels are not tidy). -/
theorem C75_lt_page_partial (h : Consistent db) (ho : cfg.orderBy = []) {x t : Row} (hx : x ∈ db.rows) (v : Vals) (ht : t ∈ db.rows)
    (hoff : (forest db).Offered x.pk t.pk) {pos : Pos} (hpos : pos ∈ formPositions false) {ch : Changed} (hc : ch.Touches cfg.orderBy)
    {conn : Conn} (hconn : conn.onDefault = true) (inlines : Bool) :
    ∃ p, t.pk ∈ forest db p ∧ ∃ db' obj,
      changeformView (manager cfg) (fun db _ => .ok db) conn db ⟨{ x with vals := v }, false, ch, some t, pos, true, inlines⟩ =
        (if inlines then (db', .saved) else (db, .errors)) ∧
      FormNear db' obj x.pk ((forest db).move x.pk (pos.dest p t.pk) (formSlot t.pk pos)) (pos.dest p t.pk) (editData (data db.rows) x.pk v) ∧
      (TidyLabels db (pos.dest p t.pk) →
        FormDone db' obj x.pk ((forest db).move x.pk (pos.dest p t.pk) (formSlot t.pk pos)) (editData (data db.rows) x.pk v)) := by
  obtain ⟨p, hp, db', obj, e, hd⟩ := C44_lt_edit_partial h ho hx v ht hoff hpos hc
  exact ⟨p, hp, db', obj, C75_page_either hconn e inlines, hd⟩

example : Consistent exDB ∧
    (moveView (manager ⟨[]⟩) DB.get? true (fun _ => true) exDB ⟨some 4, some 1, some true⟩).2 = .ok ∧
    forest exDB (some 1) = [2, 3] ∧
    forest (moveView (manager ⟨[]⟩) DB.get? true (fun _ => true) exDB ⟨some 4, some 1, some true⟩).1 (some 1) = [2, 3, 4] ∧
    moveView (manager ⟨[]⟩) DB.get? true (fun _ => true) exDB ⟨some 1, some 4, some true⟩ = (exDB, .badRequest) :=
  ⟨consistent_iff.2 exDB_inv, by decide, by decide, by decide, by decide⟩

end Verif.LT
