/-
Model of treebeard/forms.py (`MoveNodeForm`) and of `TreeAdmin.move_node`, on top of any of the four managers.
-/
import Verif.SpecNav
import Verif.SpecForm

namespace Verif

/-- What the form uses of a manager and its model.  `σ` is the database and `ρ` a node object in memory. -/
structure Manager (σ ρ : Type) where
  /-- `node_order_by` -/
  orderBy : List (Nat × Bool)
  /-- `add_root(instance=obj)` -/
  addRoot : σ → ρ → Except Err (σ × ρ)
  /-- `add_child(target, instance=obj)`: also what it leaves in the target object -/
  addChild : σ → ρ → ρ → Except Err (σ × ρ × ρ)
  /-- `move(node, target, pos=pos)`: also what it leaves in the node object -/
  move : σ → ρ → ρ → Pos → Except Err (σ × ρ)
  /-- `obj.save()` -/
  save : σ → ρ → Except Err σ
  /-- `obj.refresh_from_db()` -/
  refresh : σ → ρ → Except Err ρ
  /-- `get_first_root_node()` -/
  firstRoot : σ → Option ρ

/-- forms.py:132 `is_sorted`: the truth value of `node_order_by` -/
def Manager.ordered {σ ρ : Type} (m : Manager σ ρ) : Bool := !m.orderBy.isEmpty

/-- forms.py:59-68, 143-145: the positions offered -/
def formPositions (ordered : Bool) : List Pos :=
  if ordered then [.sortedChild, .sortedSibling] else [.firstChild, .left, .right]

/-- forms.py:78-94 `_get_initial`, from the answers of the manager for the instance -/
def formInitial (ordered : Bool) (a : NavAnswers) : Except Err (Option Nat × Pos) :=
  if ordered then a.parent.map (fun p => (p, .sortedChild))
  else
    match a.prev with
    | .error e => .error e
    | .ok (some r) => .ok (some r, .right)
    | .ok none => if a.isRoot then .ok (none, .firstChild) else a.parent.map (fun p => (p, .firstChild))

/-- forms.py:96-125 `_set_ref_model_queryset`: the nodes of `get_tree()` without those of
`get_descendants(instance, include_self=True)` (nothing for a new instance), as primary keys -/
def formRefs (tree branch : List Nat) : List Nat := tree.filter (fun k => decide (k ∉ branch))

/-- forms.py:166-171: `changed_data` meets the tree fields.  `node_order_by` is used as it is written, so the name of
a descending field is `"-name"` and never equals the name of a form field. -/
def Changed.inTree (c : Changed) (orderBy : List (Nat × Bool)) : Bool :=
  c.ref || c.pos || c.fields.any (fun f => orderBy.contains (f, false))

theorem Changed.inTree_iff (c : Changed) (orderBy : List (Nat × Bool)) : c.inTree orderBy = true ↔ c.Touches orderBy := by
  unfold Changed.inTree Changed.Touches
  simp [or_assoc]

/-- Django's `changed_data` for the two extra fields (`has_changed`: the submitted primary key or choice against the
initial one), with the changed model fields given.  `initial` is `none` for a new instance: no initial values
(forms.py:136), so an empty reference is no change and the position, which is required, always is. -/
def changedData (initial : Option (Option Nat × Pos)) (ref : Option Nat) (pos : Pos) (fields : List Nat) : Changed :=
  match initial with
  | none => ⟨ref.isSome, true, fields⟩
  | some (r, p) => ⟨decide (ref ≠ r), decide (pos ≠ p), fields⟩

variable {σ ρ : Type}

/-- forms.py:174-186: put the instance, new or not, at its place -/
def formPlace (m : Manager σ ρ) (db : σ) (inst : ρ) (adding : Bool) (ref : Option ρ) (pos : Pos) : Except Err (σ × ρ) :=
  if adding then
    match ref with
    | some r =>
      match m.addChild db r inst with
      | .error e => .error e
      | .ok (db, inst, r) => m.move db inst r pos
    | none => m.addRoot db inst
  else
    match m.save db inst with
    | .error e => .error e
    | .ok db =>
      match ref with
      | some r => m.move db inst r pos
      | none =>
        match m.firstRoot db with
        | none => .error .attributeError
        | some r => m.move db inst r (if m.ordered then .sortedSibling else .firstSibling)

/-- forms.py:149-190 `save`, with `cleaned_data` already stored in the instance (Django does it when it validates the
form).  An exception leaves no new state: TreeAdmin rolls the transaction back (forms.py:157-158). -/
def formSave (m : Manager σ ρ) (db : σ) (inst : ρ) (adding : Bool) (ch : Changed) (ref : Option ρ) (pos : Pos) :
    Except Err (σ × ρ) :=
  if ch.inTree m.orderBy then
    match formPlace m db inst adding ref pos with
    | .error e => .error e
    | .ok (db, inst) =>
      match m.refresh db inst with
      | .error e => .error e
      | .ok inst =>
        match m.save db inst with
        | .error e => .error e
        | .ok db => .ok (db, inst)
  else
    match m.save db inst with
    | .error e => .error e
    | .ok db => .ok (db, inst)

/-- forms.py:127-190: a submitted form.  The form is built for the stored instance `old` (`none`: a new one), the initial
values are those of `_get_initial`, then `save` runs with the changed fields.  `key` gives the primary key of an object,
`nav` the answers of the manager, and `inst` is `old` with the submitted values. -/
def formSubmit (m : Manager σ ρ) (nav : σ → ρ → NavAnswers) (key : ρ → Nat) (db : σ) (old : Option ρ) (inst : ρ)
    (fields : List Nat) (ref : Option ρ) (pos : Pos) : Except Err (σ × ρ) :=
  match old with
  | none => formSave m db inst true (changedData none (ref.map key) pos fields) ref pos
  | some x =>
    match formInitial m.ordered (nav db x) with
    | .error e => .error e
    | .ok initial => formSave m db inst false (changedData (some initial) (ref.map key) pos fields) ref pos

/-- admin.py:130-135: the position for the relation chosen by dragging a node (`child` or `sibling`) -/
def adminPos (child ordered : Bool) : Pos :=
  match child, ordered with
  | true, true => .sortedChild
  | true, false => .lastChild
  | false, true => .sortedSibling
  | false, false => .left

/-- admin.py:138-142, the part of `move_node` inside `try`.  The request is one transaction only if
`ATOMIC_REQUESTS` is set; `move` is atomic by itself, and what follows only saves the moved node again. -/
def adminMove (m : Manager σ ρ) (db : σ) (node target : ρ) (child : Bool) : Except Err (σ × ρ) :=
  match m.move db node target (adminPos child m.ordered) with
  | .error e => .error e
  | .ok (db, node) =>
    match m.refresh db node with
    | .error e => .error e
    | .ok node =>
      match m.save db node with
      | .error e => .error e
      | .ok db => .ok (db, node)

/-! ### What is the same for all managers -/

variable {m : Manager σ ρ} {db db₁ : σ} {inst obj obj' : ρ}

/-- a fresh object of the database, saved again -/
structure Settled (m : Manager σ ρ) (db : σ) (obj obj' : ρ) : Prop where
  refresh : m.refresh db obj = .ok obj'
  save : m.save db obj' = .ok db

theorem formSave_ok {adding : Bool} {ch : Changed} {ref : Option ρ} {pos : Pos} (hc : ch.Touches m.orderBy)
    (hp : formPlace m db inst adding ref pos = .ok (db₁, obj)) (hs : Settled m db₁ obj obj') :
    formSave m db inst adding ch ref pos = .ok (db₁, obj') := by
  unfold formSave
  rw [if_pos ((ch.inTree_iff _).2 hc), hp]
  simp only [hs.refresh, hs.save]

theorem formSave_error {adding : Bool} {ch : Changed} {ref : Option ρ} {pos : Pos} {e : Err} (hc : ch.Touches m.orderBy)
    (hp : formPlace m db inst adding ref pos = .error e) :
    formSave m db inst adding ch ref pos = .error e := by
  unfold formSave
  rw [if_pos ((ch.inTree_iff _).2 hc), hp]

theorem formSave_untouched {adding : Bool} {ch : Changed} {ref : Option ρ} {pos : Pos} (hc : ¬ ch.Touches m.orderBy)
    (hs : m.save db inst = .ok db₁) : formSave m db inst adding ch ref pos = .ok (db₁, inst) := by
  unfold formSave
  rw [if_neg (by rw [ch.inTree_iff]; exact hc), hs]

theorem adminMove_ok {target : ρ} {child : Bool} (hp : m.move db inst target (adminPos child m.ordered) = .ok (db₁, obj))
    (hs : Settled m db₁ obj obj') : adminMove m db inst target child = .ok (db₁, obj') := by
  unfold adminMove
  rw [hp]
  simp only [hs.refresh, hs.save]

theorem adminMove_error {target : ρ} {child : Bool} {e : Err} (hp : m.move db inst target (adminPos child m.ordered) = .error e) :
    adminMove m db inst target child = .error e := by
  unfold adminMove
  rw [hp]

theorem ordered_false (h : m.orderBy = []) : m.ordered = false := by unfold Manager.ordered; rw [h]; rfl
theorem ordered_true (h : m.orderBy ≠ []) : m.ordered = true := by
  unfold Manager.ordered; cases e : m.orderBy with | nil => exact absurd e h | cons => rfl

/-! ### The initial values and the offered references -/

theorem formInitial_shows {F : Forest} {x : Nat} {a : NavAnswers} (h : NavSpec F x a) (hu : ∀ p q, x ∈ F p → x ∈ F q → p = q) (ordered : Bool) :
    ∃ ref pos, formInitial ordered a = .ok (ref, pos) ∧ pos ∈ formPositions ordered ∧ F.ShowsPlace x ref pos := by
  obtain ⟨p, hp, hx, _, _, _, l₁, l₂, e, hprev, _⟩ := h.parent
  unfold formInitial formPositions
  cases ordered with
  | true =>
    refine ⟨p, .sortedChild, ?_, ?_, ?_⟩
    · simp [hp, Except.map]
    · simp
    · unfold Forest.ShowsPlace; cases p <;> exact hx
  | false =>
    simp only [Bool.false_eq_true, if_false, hprev]
    cases hl : l₁.getLast? with
    | some r =>
      refine ⟨some r, .right, rfl, by simp, p, l₁.dropLast, l₂, ?_⟩
      rw [e]
      have := List.dropLast_append_getLast? r hl
      conv_lhs => rw [← this]
      simp
    | none =>
      have hnil : l₁ = [] := by simpa using hl
      rw [hnil] at e
      by_cases hr : a.isRoot = true
      · have hpn : p = none := hu p none hx (h.isRoot.1 hr)
        refine ⟨none, .firstChild, by simp [hr], by simp, l₂, ?_⟩
        rw [← hpn, e]; rfl
      · refine ⟨p, .firstChild, by simp [hr, hp, Except.map], by simp, ?_⟩
        unfold Forest.ShowsPlace
        cases p <;> exact ⟨l₂, by rw [e]; rfl⟩

theorem mem_formRefs {tree branch : List Nat} {k : Nat} : k ∈ formRefs tree branch ↔ k ∈ tree ∧ k ∉ branch := by
  unfold formRefs; simp

end Verif
