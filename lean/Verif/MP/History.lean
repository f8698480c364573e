/-
Histories of operations on the materialized path backend.
-/
import Verif.Props.MPMove
import Verif.Props.MPDelete
import Verif.TreeLemmas
import Verif.PosLemmas

namespace Verif

namespace MP

/-- One operation on freshly fetched nodes.  A missing node or target raises when it is fetched, a used key when the
row is inserted. -/
def exec (cfg : Cfg) (db : DB) : Op → Except Err DB
  | .addRoot k v => match db.get? k with
    | some _ => .error .integrity
    | none => (addRoot cfg db ⟨k, [], 0, 0, v⟩).map (·.1)
  | .addChild t k v => match db.get? k, db.get? t with
    | _, none => .error .doesNotExist
    | some _, _ => .error .integrity
    | none, some target => (addChild cfg db target ⟨k, [], 0, 0, v⟩).map (·.1)
  | .addSibling t pos k v => match db.get? k, db.get? t with
    | _, none => .error .doesNotExist
    | some _, _ => .error .integrity
    | none, some target => (addSibling cfg db target pos ⟨k, [], 0, 0, v⟩).map (·.1)
  | .move x t pos => match db.get? x, db.get? t with
    | some node, some target => (move cfg db node target pos).map (·.db)
    | _, _ => .error .doesNotExist
  | .delete S => .ok (delete cfg db (fun r => S.contains r.pk))

/-- A call that raises leaves the table as it was (the operations run in `transaction.atomic`). -/
def step (cfg : Cfg) (db : DB) (op : Op) : DB :=
  match exec cfg db op with
  | .ok db' => db'
  | .error _ => db

/-- a whole history -/
def runOps (cfg : Cfg) (db : DB) (ops : List Op) : DB := ops.foldl (step cfg) db

/-- The guard of one operation: without `node_order_by`, moves need the room they do not check (`MoveFits`); with it, the new
values are not null. -/
def Guard (cfg : Cfg) (db : DB) : Op → Prop
  | .addRoot _ v | .addChild _ _ v | .addSibling _ _ _ v => cfg.ordered = true → NonNull cfg.orderBy v
  | .move x t pos => cfg.ordered = false → ∀ p pos', t ∈ forest cfg db p → preparePosForMove false pos = .ok pos' →
      MoveFits cfg db x p t pos'
  | .delete _ => True

/-- every operation of the history meets its guard at its time -/
def Guarded (cfg : Cfg) : DB → List Op → Prop
  | _, [] => True
  | db, op :: ops => Guard cfg db op ∧ Guarded cfg (step cfg db op) ops

/-- no operation of the history runs out of room -/
def Roomy (cfg : Cfg) : DB → List Op → Prop
  | _, [] => True
  | db, op :: ops => exec cfg db op ≠ .error .pathOverflow ∧ Roomy cfg (step cfg db op) ops

/-- what the histories keep -/
structure HInv (cfg : Cfg) (db : DB) : Prop where
  consistent : Consistent cfg db
  sorted : cfg.ordered = true → SortedTree cfg db

/-- the table shows the abstract tree -/
def Abs (cfg : Cfg) (db : DB) (s : Tree) : Prop := ShowsTree (forest cfg db) (db.rows.map Row.pk) s

variable {cfg : Cfg} {db : DB}

theorem row_of (h : Consistent cfg db) (hok : cfg.Ok) {k : Nat} {r : Row} (e : db.get? k = some r) : r ∈ db.rows ∧ r.pk = k :=
  (get?_eq_some ((consistent_iff hok).1 h).inv).1 e

theorem fresh_of {k : Nat} {v : Vals} (e : db.get? k = none) : Fresh db ⟨k, [], 0, 0, v⟩ :=
  ⟨get?_eq_none.1 e, rfl⟩

theorem Abs.mem (ha : Abs cfg db s) (h : Consistent cfg db) (hok : cfg.Ok) (k : Nat) : k ∈ s.ids ↔ ∃ r, db.get? k = some r := by
  rw [← ha.ids]
  have hi := ((consistent_iff hok).1 h).inv
  constructor
  · intro hm
    obtain ⟨r, hr, rfl⟩ := List.mem_map.1 hm
    exact ⟨r, (get?_eq_some hi).2 ⟨hr, rfl⟩⟩
  · rintro ⟨r, e⟩
    obtain ⟨hr, rfl⟩ := (get?_eq_some hi).1 e
    exact List.mem_map_of_mem hr

theorem Abs.parent (ha : Abs cfg db s) (h : Consistent cfg db) (hok : cfg.Ok) {p : Option Nat} {t : Nat}
    (ht : t ∈ forest cfg db p) : s.parent t = p := by
  refine Tree.parent_eq (F := forest cfg db) (ids := db.rows.map Row.pk) (fun p q k h1 h2 => parent_unique hok h h1 h2) ?_ ha.forest ha.ids ht
  intro q k hk
  unfold forest at hk
  simp only at hk
  split at hk
  · simp at hk
  · rename_i r e
    obtain ⟨hr, rfl⟩ := row_of h hok e
    exact List.mem_map_of_mem hr

theorem abs_added (ha : Abs cfg db s) {db' : DB} {obj new : Row} {p : Option Nat} {sl : Slot} (h : AddedAt cfg db db' obj new p sl) :
    Abs cfg db' ⟨new.pk :: s.ids, s.F.put p sl new.pk⟩ := by
  refine ⟨by rw [h.forest, ha.forest], fun k => ?_⟩
  have : db'.rows.map Row.pk = db.rows.map Row.pk ++ [new.pk] := by
    have := congrArg (List.map Prod.fst) h.data
    simpa [data, Function.comp_def] using this
  rw [this, List.mem_append, ha.ids, List.mem_singleton, or_comm]
  exact List.mem_cons.symm

/-- One operation without `node_order_by`: the table stays consistent, and shows what the operation asked for, unless it
raised PathOverflow. -/
theorem step_sim (hok : cfg.Ok) (ho : cfg.ordered = false) (h : Consistent cfg db) {op : Op} (hg : Guard cfg db op) {s : Tree}
    (ha : Abs cfg db s) : Consistent cfg (step cfg db op) ∧
      (Abs cfg (step cfg db op) (s.step op) ∨ (exec cfg db op = .error .pathOverflow ∧ step cfg db op = db)) := by
  cases op with
  | addRoot k v =>
    simp only [step, exec, Tree.step]
    cases e : db.get? k with
    | some r => rw [if_pos ((ha.mem h hok k).2 ⟨r, e⟩)]; exact ⟨h, Or.inl ha⟩
    | none =>
      rw [if_neg (fun hk => by obtain ⟨r, e'⟩ := (ha.mem h hok k).1 hk; rw [e] at e'; cases e')]
      rcases C05_add_root hok h ho (fresh_of e (v := v)) with ⟨db', obj, e, hadd⟩ | ⟨e, _⟩
      · rw [e]; exact ⟨hadd.consistent, Or.inl (abs_added ha hadd)⟩
      · rw [e]; exact ⟨h, Or.inr ⟨rfl, rfl⟩⟩
  | addChild t k v =>
    simp only [step, exec, Tree.step]
    cases e1 : db.get? t with
    | none =>
      rw [if_pos (Or.inr (fun hk => by obtain ⟨r, e'⟩ := (ha.mem h hok t).1 hk; rw [e1] at e'; cases e'))]
      cases db.get? k <;> exact ⟨h, Or.inl ha⟩
    | some target =>
      cases e : db.get? k with
      | some r => rw [if_pos (Or.inl ((ha.mem h hok k).2 ⟨r, e⟩))]; exact ⟨h, Or.inl ha⟩
      | none =>
        rw [if_neg (by
          rintro (hk | hk)
          · obtain ⟨r, e'⟩ := (ha.mem h hok k).1 hk; rw [e] at e'; cases e'
          · exact hk ((ha.mem h hok t).2 ⟨target, e1⟩))]
        dsimp only
        obtain ⟨ht, htk⟩ := row_of h hok e1
        rcases C05_add_child hok h ho ht rfl (fresh_of e (v := v)) with ⟨db', obj, t', e, hadd⟩ | ⟨e, _⟩
        · rw [e]
          rw [htk] at hadd
          exact ⟨hadd.consistent, Or.inl (abs_added ha hadd)⟩
        · rw [e]; exact ⟨h, Or.inr ⟨rfl, rfl⟩⟩
  | addSibling t pos k v =>
    simp only [step, exec, Tree.step]
    cases e1 : db.get? t with
    | none =>
      rw [if_pos (Or.inr (fun hk => by obtain ⟨r, e'⟩ := (ha.mem h hok t).1 hk; rw [e1] at e'; cases e'))]
      cases db.get? k <;> exact ⟨h, Or.inl ha⟩
    | some target =>
      cases e : db.get? k with
      | some r => rw [if_pos (Or.inl ((ha.mem h hok k).2 ⟨r, e⟩))]; exact ⟨h, Or.inl ha⟩
      | none =>
        rw [if_neg (by
          rintro (hk | hk)
          · obtain ⟨r, e'⟩ := (ha.mem h hok k).1 hk; rw [e] at e'; cases e'
          · exact hk ((ha.mem h hok t).2 ⟨target, e1⟩))]
        dsimp only
        obtain ⟨ht, htk⟩ := row_of h hok e1
        cases hp : preparePosForAddSibling false pos with
        | error er =>
          have : addSibling cfg db target pos ⟨k, [], 0, 0, v⟩ = .error er := by
            unfold addSibling; rw [ho, hp]
          rw [this]; exact ⟨h, Or.inl ha⟩
        | ok q =>
          obtain ⟨hq, harg⟩ := prepAdd_arg hp
          obtain ⟨p, hmem, ⟨db', obj, e, hadd⟩ | ⟨e, _⟩⟩ := C06_add_sibling hok h ho ht hq harg (fresh_of e (v := v))
          · rw [e]
            rw [htk] at hadd hmem
            simp only
            rw [ha.parent h hok hmem]
            exact ⟨hadd.consistent, Or.inl (abs_added ha hadd)⟩
          · rw [e]; exact ⟨h, Or.inr ⟨rfl, rfl⟩⟩
  | move x t pos =>
    simp only [step, exec, Tree.step]
    cases e1 : db.get? t with
    | none =>
      rw [if_pos (Or.inr (fun hk => by obtain ⟨r, e'⟩ := (ha.mem h hok t).1 hk; rw [e1] at e'; cases e'))]
      cases db.get? x <;> exact ⟨h, Or.inl ha⟩
    | some target =>
      cases e : db.get? x with
      | none =>
        rw [if_pos (Or.inl (fun hk => by obtain ⟨r, e'⟩ := (ha.mem h hok x).1 hk; rw [e] at e'; cases e'))]
        exact ⟨h, Or.inl ha⟩
      | some node =>
        rw [if_neg (by
          rintro (hk | hk)
          · exact hk ((ha.mem h hok x).2 ⟨node, e⟩)
          · exact hk ((ha.mem h hok t).2 ⟨target, e1⟩))]
        dsimp only
        obtain ⟨ht, htk⟩ := row_of h hok e1
        obtain ⟨hx, hxk⟩ := row_of h hok e
        cases hp : preparePosForMove false pos with
        | error er =>
          have : move cfg db node target pos = .error er := by
            unfold move; rw [ho, hp]
          rw [this]; exact ⟨h, Or.inl ha⟩
        | ok q =>
          obtain ⟨hq, harg⟩ := prepMove_arg hp
          simp only
          by_cases hr : (forest cfg db).MoveRefused node.pk target.pk q
          · rw [C08_mp hok h hx ht (by rw [ho]; exact hp) hr]
            rw [hxk, htk, ha.forest] at hr
            rw [if_pos hr]
            exact ⟨h, Or.inl ha⟩
          · obtain ⟨p, hmem, hmv⟩ := C07_move_partial hok h ho hx ht hq harg hr
            rw [hxk, htk, ha.forest] at hr
            rw [if_neg hr]
            rw [htk] at hmem
            rw [ha.parent h hok hmem]
            rcases hmv (by rw [hxk, htk]; exact hg ho p q hmem hp) with ⟨res, e, hm⟩ | ⟨e, _⟩
            · rw [e]
              refine ⟨hm.consistent, Or.inl ⟨?_, fun k => ?_⟩⟩
              · refine hm.forest.trans ?_
                rw [hxk, htk, ha.forest]
              · have : res.db.rows.map Row.pk = db.rows.map Row.pk := by
                  have := congrArg (List.map Prod.fst) hm.data
                  simpa [data, Function.comp_def] using this
                rw [show (Except.map (fun x => x.db) (Except.ok res : Except Err MoveResult)) = .ok res.db from rfl]
                simp only
                rw [this]
                exact ha.ids k
            · rw [e]; exact ⟨h, Or.inr ⟨rfl, rfl⟩⟩
  | delete S =>
    classical
    obtain ⟨D, hD, hc, hf, hd⟩ := C09_delete hok h S.contains
    refine ⟨hc, Or.inl ⟨?_, fun k => ?_⟩⟩
    · show forest cfg (delete cfg db (fun r => S.contains r.pk)) = _
      rw [hf]
      simp only [Tree.step]
      rw [ha.forest]
      congr 1
      funext k
      rw [Bool.eq_iff_iff, hD, decide_eq_true_eq, ha.ids, ha.forest]
    · have h1 : (delete cfg db (fun r => S.contains r.pk)).rows.map Row.pk = (db.rows.map Row.pk).filter (fun k => !D k) := by
        have := congrArg (List.map Prod.fst) hd
        simp only [data, List.map_map, Function.comp_def] at this
        rw [this, List.filter_map, List.map_map, List.filter_map]
        rfl
      show k ∈ (delete cfg db (fun r => S.contains r.pk)).rows.map Row.pk ↔ _
      rw [h1]
      simp only [Tree.step, List.mem_filter, ha.ids]
      refine and_congr_right (fun hk => ?_)
      rw [Bool.not_eq_true', Bool.not_eq_true', Bool.eq_false_iff, decide_eq_false_iff_not, Ne, hD, ha.ids, ha.forest]
      simp [hk]

end MP

end Verif
