/-
`add_child` of mp_tree.py as a transaction, statement by statement, without `node_order_by`.
-/
import Verif.TxnLemmas
import Verif.Props.MPAdd

namespace Verif.MP

open Txn

/-- the local variables of `add_child`: `node`, `newobj.path`, `newobj` -/
structure AddVars where
  node : Row
  path : List Nat
  obj : Row

/-- mp_tree.py:400: the row read with the lock -/
def readParent (target : Row) : Stmt DB AddVars := fun db l =>
  match db.get? target.pk with
  | none => .error .doesNotExist
  | some node => .ok (id, { l with node })

/-- mp_tree.py:410-424: the query for the last child, and the new path -/
def choosePath (cfg : Cfg) : Stmt DB AddVars := fun db l =>
  match newChildPath cfg db l.node with
  | .error e => .error e
  | .ok path => .ok (id, { l with path })

/-- mp_tree.py:427: UPDATE of the parent's `numchild` -/
def countChild : Stmt DB AddVars := fun _ l => .ok (fun db => incNumchildPk db l.node.pk, l)

/-- INSERT of a row -/
def insertRow (obj : Row) (db : DB) : DB := { db with rows := db.rows ++ [obj] }

/-- mp_tree.py:432: INSERT of the new row; the unique index on `path` is checked against what the statement sees -/
def insertChild (new : Row) : Stmt DB AddVars := fun db l =>
  let obj := { new with path := l.path, depth := l.node.depth + 1 }
  if uniquePaths (db.rows ++ [obj]) then .ok (insertRow obj, { l with obj }) else .error .integrity

/-- the unique index on `path` -/
def checkPaths (db : DB) : Option Err := if uniquePaths db.rows then none else some .integrity

/-- mp_tree.py:383-434 `add_child` without `node_order_by`, as a client: it locks the row of the target, then these statements -/
def childClient (cfg : Cfg) (target new : Row) : Client DB AddVars where
  key := target.pk
  start := ⟨target, [], new⟩
  body := [readParent target, choosePath cfg, countChild, insertChild new]
  check := checkPaths

variable {cfg : Cfg} {db db' : DB}

theorem save_fresh {obj : Row} (hf : ∀ r ∈ db.rows, r.pk ≠ obj.pk) :
    save db obj = if uniquePaths (db.rows ++ [obj]) then .ok (insertRow obj db) else .error .integrity := by
  have : db.rows.any (·.pk == obj.pk) = false := by
    rw [List.any_eq_false]
    intro r hr
    simpa using hf r hr
  unfold save insertRow
  simp only [this]
  rfl

/-- Alone, the statements are `add_child`. -/
theorem childClient_alone (ho : cfg.ordered = false) {target new : Row} (hf : ∀ r ∈ db.rows, r.pk ≠ new.pk) :
    ((childClient cfg target new).alone db).map (fun r => (r.1, r.2.obj)) = (addChild cfg db target new).map (fun r => (r.1, r.2.1)) := by
  unfold Client.alone childClient addChild
  simp only [exec, readParent]
  cases hg : db.get? target.pk with
  | none => rfl
  | some node =>
    simp only [choosePath, id, ho, Bool.false_eq_true, false_and, if_false]
    cases hp : newChildPath cfg db node with
    | error e => rfl
    | ok p =>
      simp only [id, countChild, insertChild]
      rw [save_fresh]
      · generalize hu : uniquePaths _ = b
        cases b with
        | false => rfl
        | true => simp [Client.finish, checkPaths, insertRow, hu, Except.map]
      · intro r hr
        obtain ⟨q, hq, rfl⟩ := List.mem_map.1 hr
        have := hf q hq
        by_cases e : q.pk = node.pk <;> simp_all

/-- What a successful `add_child` does to the rows, without `node_order_by`. -/
theorem addChild_inserts (ho : cfg.ordered = false) {target new obj target' : Row} (hf : ∀ r ∈ db.rows, r.pk ≠ new.pk)
    (h : addChild cfg db target new = .ok (db', obj, target')) :
    ∃ node, db.get? target.pk = some node ∧ newChildPath cfg db node = .ok obj.path ∧ obj = { new with path := obj.path, depth := node.depth + 1 } ∧
      db' = insertRow obj (incNumchildPk db target.pk) := by
  unfold addChild at h
  cases hg : db.get? target.pk with
  | none => simp [hg] at h
  | some node =>
    have hk : node.pk = target.pk := by simpa using List.find?_some hg
    simp only [hg, ho, Bool.false_eq_true, false_and, if_false] at h
    cases hp : newChildPath cfg db node with
    | error e => simp [hp] at h
    | ok p =>
      simp only [hp] at h
      rw [save_fresh] at h
      · generalize hu : uniquePaths _ = b at h
        cases b with
        | false => cases h
        | true =>
          simp only [if_true] at h
          cases h
          exact ⟨node, rfl, hp, rfl, by rw [hk]⟩
      · intro r hr
        obtain ⟨q, hq, rfl⟩ := List.mem_map.1 hr
        have := hf q hq
        by_cases e : q.pk = node.pk <;> simp_all

/-! ### Clients that call `add_child` -/

/-- The transaction of this client, alone, is `add_child(target)` with this new object: it ends with the same table and the same
returned object (`out` of its variables), or the same exception.  How it is cut into statements does not matter. -/
def Calls (cfg : Cfg) {ℓ : Type} (c : Client DB ℓ) (out : ℓ → Row) (target new : Row) : Prop :=
  ∀ db, (∀ r ∈ db.rows, r.pk ≠ new.pk) →
    (c.alone db).map (fun r => (r.1, out r.2)) = (addChild cfg db target new).map (fun r => (r.1, r.2.1))

theorem childClient_calls (ho : cfg.ordered = false) (target new : Row) :
    Calls cfg (childClient cfg target new) AddVars.obj target new := fun _ hf => childClient_alone ho hf

variable {ℓ : Type} {c : Client DB ℓ} {out : ℓ → Row} {target new : Row}

theorem Calls.ok (h : Calls cfg c out target new) (hf : ∀ r ∈ db.rows, r.pk ≠ new.pk) {l : ℓ} (e : c.alone db = .ok (db', l)) :
    ∃ t', addChild cfg db target new = .ok (db', out l, t') := by
  have := h db hf
  rw [e] at this
  cases e' : addChild cfg db target new with
  | error e => rw [e'] at this; cases this
  | ok r =>
    obtain ⟨a, b, t'⟩ := r
    rw [e'] at this
    cases this
    exact ⟨t', rfl⟩

theorem Calls.error (h : Calls cfg c out target new) (hf : ∀ r ∈ db.rows, r.pk ≠ new.pk) {e : Err} (he : c.alone db = .error e) :
    addChild cfg db target new = .error e := by
  have := h db hf
  rw [he] at this
  cases e' : addChild cfg db target new with
  | error e => rw [e'] at this; cases this; rfl
  | ok r => rw [e'] at this; cases this

/-- Nodes stay, with their paths, depths and data. -/
def Kept (db db' : DB) : Prop := ∀ r ∈ db.rows, ∃ r' ∈ db'.rows, r'.pk = r.pk ∧ r'.path = r.path ∧ r'.depth = r.depth ∧ r'.vals = r.vals

theorem Kept.refl (db : DB) : Kept db db := fun r hr => ⟨r, hr, rfl, rfl, rfl, rfl⟩

theorem Kept.trans {a b c : DB} (h1 : Kept a b) (h2 : Kept b c) : Kept a c := by
  intro r hr
  obtain ⟨x, hx, e1, e2, e3, e4⟩ := h1 r hr
  obtain ⟨y, hy, f1, f2, f3, f4⟩ := h2 x hx
  exact ⟨y, hy, f1.trans e1, f2.trans e2, f3.trans e3, f4.trans e4⟩

theorem mem_inserted {k : Nat} {obj r : Row} : r ∈ (insertRow obj (incNumchildPk db k)).rows ↔
    (∃ q ∈ db.rows, (if q.pk == k then { q with numchild := q.numchild + 1 } else q) = r) ∨ r = obj := by
  simp [insertRow, incNumchildPk]

theorem kept_inserted (db : DB) (k : Nat) (obj : Row) : Kept db (insertRow obj (incNumchildPk db k)) := by
  intro r hr
  refine ⟨_, mem_inserted.2 (Or.inl ⟨r, hr, rfl⟩), ?_⟩
  split <;> simp

theorem get?_inserted {k k' : Nat} {obj : Row} (hk : k' ≠ k) (ho : obj.pk ≠ k') :
    DB.get? (insertRow obj (incNumchildPk db k)) k' = db.get? k' := by
  unfold DB.get? insertRow incNumchildPk
  rw [List.find?_append, List.find?_map]
  have : ((fun r : Row => r.pk == k') ∘ fun r => if r.pk == k then { r with numchild := r.numchild + 1 } else r) = fun r => r.pk == k' := by
    funext r
    by_cases e : r.pk = k <;> simp [e]
  rw [this]
  cases h : db.rows.find? (fun r => r.pk == k') with
  | none => simp [ho]
  | some r =>
    have : r.pk = k' := by simpa using List.find?_some h
    simp [this, hk]

/-- The path below `node` is not upset by a new child of another node. -/
theorem newChildPath_inserted (hok : cfg.Ok) (h : Inv cfg db.rows) {k : Nat} {obj node par : Row} (hn : node ∈ db.rows) (hp : par ∈ db.rows)
    (hpk : par.pk = k) (hne : node.pk ≠ k) (hobj : pp cfg.steplen obj.path = par.path)
    (h' : Inv cfg (insertRow obj (incNumchildPk db k)).rows) :
    newChildPath cfg (insertRow obj (incNumchildPk db k)) node = newChildPath cfg db node := by
  have hn' : node ∈ (insertRow obj (incNumchildPk db k)).rows := mem_inserted.2 (Or.inl ⟨node, hn, by simp [hne]⟩)
  unfold newChildPath
  cases hleaf : node.isLeaf with
  | true => rfl
  | false =>
    simp only [Bool.false_eq_true, if_false]
    obtain ⟨x, ex, hx, hxp, hxm⟩ := lastChild_none hok h hn hleaf
    obtain ⟨y, ey, hy, hyp, hym⟩ := lastChild_none hok h' hn' hleaf
    rw [ex, ey]
    have hpn : par.path ≠ node.path := fun e => hne (by rw [← h.inv.path_inj hp hn e]; exact hpk)
    obtain ⟨q, hq, e⟩ : ∃ q ∈ db.rows, q.path = y.path := by
      rcases mem_inserted.1 hy with ⟨q, hq, e⟩ | e
      · refine ⟨q, hq, ?_⟩
        rw [← e]
        split <;> rfl
      · rw [e, hobj] at hyp
        exact absurd hyp hpn
    have hqy : q.path = x.path := by
      by_contra hc
      have h1 := hxm q hq (by rw [e]; exact hyp) (fun e => hc (by rw [e]))
      obtain ⟨x', hx', -, ep, -, -⟩ := kept_inserted db k obj x hx
      have h2 := hym x' hx' (by rw [ep]; exact hxp) (by
        rintro rfl
        exact hc (by rw [e, ep]))
      rw [ep, ← e] at h2
      exact absurd h1 (List.lt_asymm h2)
    simp only [← e, hqy]

end Verif.MP
