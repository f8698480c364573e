/-
Model of the admin's views that write: the add and change pages (`TreeAdmin._changeform_view`) and drag and drop (`TreeAdmin.move_node`), on top of any manager.
-/
import Verif.SpecAnswer
import Verif.FormModel

namespace Verif

variable {σ ρ : Type}

/-- forms.py:149-190 `save(commit=False)`: the same as `formSave`, but `super().save(commit=False)` writes nothing -/
def formSaveLater (m : Manager σ ρ) (db : σ) (inst : ρ) (adding : Bool) (ch : Changed) (ref : Option ρ) (pos : Pos) : Except Err (σ × ρ) :=
  if ch.inTree m.orderBy then
    match formPlace m db inst adding ref pos with
    | .error e => .error e
    | .ok (db, inst) =>
      match m.refresh db inst with
      | .error e => .error e
      | .ok inst => .ok (db, inst)
  else .ok (db, inst)

/-- What was submitted to an add or change page.  `inst` is the instance with the submitted values. -/
structure FormPage (ρ : Type) where
  inst : ρ
  adding : Bool
  changed : Changed
  ref : Option ρ
  pos : Pos
  /-- `form.is_valid()` -/
  formValid : Bool
  /-- `all_valid(formsets)`: the inlines of the page -/
  inlinesValid : Bool

/-- Django's `ModelAdmin._changeform_view` for a POST request (outside /repo, by its known behaviour): `save_form` is `form.save(commit=False)`, and only if the
inlines are valid too, `save_model` saves the object and `save_related` (`related`) the rest.  The result is what is written in the transaction, and whether the
page is shown again; then its context has `errors`. -/
def djangoChangeform (m : Manager σ ρ) (related : σ → ρ → Except Err σ) (db : σ) (p : FormPage ρ) : Except Err (σ × Bool) :=
  if p.formValid then
    match formSaveLater m db p.inst p.adding p.changed p.ref p.pos with
    | .error e => .error e
    | .ok (db, obj) =>
      if p.inlinesValid then
        match m.save db obj with
        | .error e => .error e
        | .ok db =>
          match related db obj with
          | .error e => .error e
          | .ok db => .ok (db, false)
      else .ok (db, true)
  else .ok (db, true)

/-- Where the tree is stored.  Django opens the transaction of the page on the database of the model; `transaction.set_rollback(True)` without `using` is about the
default one. -/
structure Conn where
  /-- the tree is in the default database -/
  onDefault : Bool
  /-- the default database has a transaction in any case (`ATOMIC_REQUESTS`) -/
  defaultAtomic : Bool

/-- admin.py:54-64 `_changeform_view`, inside Django's `changeform_view`, which is one transaction: an exception rolls it back, and so does `set_rollback(True)` if it is about
the same database.  For a tree that is elsewhere, `set_rollback` raises TransactionManagementError if the default database has no transaction, and otherwise
does nothing about the tree. -/
def changeformView (m : Manager σ ρ) (related : σ → ρ → Except Err σ) (conn : Conn) (db : σ) (p : FormPage ρ) : σ × FormAnswer :=
  match djangoChangeform m related db p with
  | .error e => (db, .exception e)
  | .ok (db', errors) =>
    if errors then
      if conn.onDefault then (db, .errors)
      else if conn.defaultAtomic then (db', .errors)
      else (db, .transaction)
    else (db', .saved)

/-- What was sent by a drop: `none` is a field that is missing or malformed. -/
structure Drop where
  node : Option Nat
  target : Option Nat
  /-- `child` or `sibling` -/
  child : Option Bool

/-- admin.py:143-148: the exceptions that become a message -/
def moveCaught : List Err := [.missingNodeOrderBy, .pathOverflow, .invalidMoveToDescendant, .invalidPosition]

def moveAnswer (e : Err) : MoveAnswer := if e ∈ moveCaught then .badRequest else .exception e

/-- admin.py:106-156 `move_node`.  `fetch` is the look up of a submitted key in `objects.all()`, `mayView` and `mayChange` are the permissions.  There is no transaction around it
(without `ATOMIC_REQUESTS`), so that an exception of the last `save` does not undo the move. -/
def moveView (m : Manager σ ρ) (fetch : σ → Nat → Option ρ) (mayView : Bool) (mayChange : ρ → Bool) (db : σ) (d : Drop) : σ × MoveAnswer :=
  if mayView then
    match d.node.bind (fetch db), d.target.bind (fetch db), d.child with
    | some node, some target, some child =>
      if mayChange node then
        match m.move db node target (adminPos child m.ordered) with
        | .error e => (db, moveAnswer e)
        | .ok (db, node) =>
          match m.refresh db node with
          | .error e => (db, moveAnswer e)
          | .ok node =>
            match m.save db node with
            | .error e => (db, moveAnswer e)
            | .ok db => (db, .ok)
      else (db, .forbidden)
    | _, _, _ => (db, .badRequest)
  else (db, .forbidden)

/-! ### What is the same for all managers -/

variable {m : Manager σ ρ} {db : σ}

/-- a page that is saved does what the form does -/
theorem djangoChangeform_valid (related : σ → ρ → Except Err σ) {p : FormPage ρ} (hf : p.formValid = true) (hi : p.inlinesValid = true) :
    djangoChangeform m related db p =
      match formSave m db p.inst p.adding p.changed p.ref p.pos with
      | .error e => .error e
      | .ok (db, obj) =>
        match related db obj with
        | .error e => .error e
        | .ok db => .ok (db, false) := by
  unfold djangoChangeform formSaveLater formSave
  simp only [hf, hi, if_true]
  by_cases hc : p.changed.inTree m.orderBy = true
  · simp only [hc, if_true]
    cases formPlace m db p.inst p.adding p.ref p.pos with
    | error e => rfl
    | ok r =>
      simp only
      cases m.refresh r.1 r.2 with
      | error e => rfl
      | ok o =>
        simp only
        cases m.save r.1 o <;> rfl
  · simp only [hc, Bool.false_eq_true, if_false]
    cases m.save db p.inst <;> rfl

theorem moveView_move (fetch : σ → Nat → Option ρ) {mayChange : ρ → Bool} {d : Drop} {node target : ρ} {child : Bool} (h1 : d.node.bind (fetch db) = some node)
    (h2 : d.target.bind (fetch db) = some target) (h3 : d.child = some child) (hc : mayChange node = true) :
    (∀ e, m.move db node target (adminPos child m.ordered) = .error e → moveView m fetch true mayChange db d = (db, moveAnswer e)) ∧
    (∀ db' obj, adminMove m db node target child = .ok (db', obj) → moveView m fetch true mayChange db d = (db', .ok)) := by
  unfold moveView adminMove
  simp only [if_true, h1, h2, h3, hc]
  constructor
  · intro e he; rw [he]
  · intro db' obj
    cases m.move db node target (adminPos child m.ordered) with
    | error e => nofun
    | ok r =>
      simp only
      cases m.refresh r.1 r.2 with
      | error e => nofun
      | ok o =>
        simp only
        cases m.save r.1 o with
        | error e => nofun
        | ok db₂ => rintro ⟨⟩; rfl

/-- errors of the move itself leave the table alone -/
theorem moveView_error (fetch : σ → Nat → Option ρ) {mayChange : ρ → Bool} {d : Drop} {node target : ρ} {child : Bool} {e : Err}
    (h1 : d.node.bind (fetch db) = some node) (h2 : d.target.bind (fetch db) = some target) (h3 : d.child = some child) (hc : mayChange node = true)
    (hr : ∀ db x, m.refresh db x ≠ .error e) (hs : ∀ db x, m.save db x ≠ .error e) (he : adminMove m db node target child = .error e) :
    moveView m fetch true mayChange db d = (db, moveAnswer e) := by
  refine (moveView_move fetch h1 h2 h3 hc).1 e ?_
  unfold adminMove at he
  cases hm : m.move db node target (adminPos child m.ordered) with
  | error e' => rw [hm] at he; simpa using he
  | ok r =>
    rw [hm] at he
    simp only at he
    cases h4 : m.refresh r.1 r.2 with
    | error e' => rw [h4] at he; simp only [Except.error.injEq] at he; exact absurd (he ▸ h4) (hr _ _)
    | ok o =>
      rw [h4] at he
      simp only at he
      cases h5 : m.save r.1 o with
      | error e' => rw [h5] at he; simp only [Except.error.injEq] at he; exact absurd (he ▸ h5) (hs _ _)
      | ok db₂ => rw [h5] at he; cases he

theorem moveView_unmoved (fetch : σ → Nat → Option ρ) {mayView : Bool} {mayChange : ρ → Bool} {d : Drop}
    (h : mayView = false ∨ d.node.bind (fetch db) = none ∨ d.target.bind (fetch db) = none ∨ d.child = none ∨ ∃ x, d.node.bind (fetch db) = some x ∧ mayChange x = false) :
    (moveView m fetch mayView mayChange db d).1 = db ∧ ((moveView m fetch mayView mayChange db d).2 = .forbidden ∨ (moveView m fetch mayView mayChange db d).2 = .badRequest) := by
  unfold moveView
  cases mayView with
  | false => simp
  | true =>
    simp only [if_true]
    cases h1 : d.node.bind (fetch db) with
    | none => simp
    | some node =>
      cases h2 : d.target.bind (fetch db) with
      | none => simp
      | some target =>
        cases h3 : d.child with
        | none => simp
        | some child =>
          simp only [h1, h2, h3] at h
          have : mayChange node = false := by simpa using h
          simp [this]

end Verif
