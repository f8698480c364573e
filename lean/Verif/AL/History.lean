/-
Histories of operations on the adjacency list backend.
-/
import Verif.Props.ALTree
import Verif.TreeLemmas

namespace Verif.AL

/-- One operation on freshly fetched nodes.  A missing node or target raises when it is fetched, a used key when the
row is inserted. -/
def exec (cfg : Cfg) (db : DB) : Op → Except Err DB
  | .addRoot k v => match db.get? k with
    | some _ => .error .integrity
    | none => (addRoot cfg db ⟨k, none, 0, v⟩).map (·.1)
  | .addChild t k v => match db.get? k, db.get? t with
    | _, none => .error .doesNotExist
    | some _, _ => .error .integrity
    | none, some target => (addChild cfg db target none ⟨k, none, 0, v⟩).map (·.1)
  | .addSibling t pos k v => match db.get? k, db.get? t with
    | _, none => .error .doesNotExist
    | some _, _ => .error .integrity
    | none, some target => (addSibling cfg db target pos ⟨k, none, 0, v⟩).map (·.1)
  | .move x t pos => match db.get? x, db.get? t with
    | some node, some target => (move cfg db node target none pos).map (·.1)
    | _, _ => .error .doesNotExist
  | .delete S => .ok (delete db (fun r => S.contains r.pk))

/-- A call that raises leaves the table as it was (the operations run in `transaction.atomic`). -/
def step (cfg : Cfg) (db : DB) (op : Op) : DB :=
  match exec cfg db op with
  | .ok db' => db'
  | .error _ => db

/-- a whole history -/
def runOps (cfg : Cfg) (db : DB) (ops : List Op) : DB := ops.foldl (step cfg) db

/-- the table shows the abstract tree -/
def Abs (cfg : Cfg) (db : DB) (s : Tree) : Prop := ShowsTree (forest cfg db) (db.rows.map Row.pk) s

variable {cfg : Cfg} {db : DB} {s : Tree}

theorem row_of (h : Wf cfg db) {k : Nat} {r : Row} (e : db.get? k = some r) : r ∈ db.rows ∧ r.pk = k :=
  (get?_eq_some h.ai).1 e

theorem fresh_of {k : Nat} {v : Vals} (e : db.get? k = none) : Fresh db ⟨k, none, 0, v⟩ := get?_eq_none.1 e

theorem Abs.mem (ha : Abs cfg db s) (h : Wf cfg db) (k : Nat) : k ∈ s.ids ↔ ∃ r, db.get? k = some r := by
  rw [← ha.ids]
  constructor
  · intro hm
    obtain ⟨r, hr, rfl⟩ := List.mem_map.1 hm
    exact ⟨r, (get?_eq_some h.ai).2 ⟨hr, rfl⟩⟩
  · rintro ⟨r, e⟩
    obtain ⟨hr, rfl⟩ := (get?_eq_some h.ai).1 e
    exact List.mem_map_of_mem hr

theorem forest_keys (h : Wf cfg db) {p : Option Nat} {k : Nat} (hk : k ∈ forest cfg db p) : k ∈ db.rows.map Row.pk := by
  rw [forest_eq h.ai] at hk
  obtain ⟨r, hr, _, rfl⟩ := mem_PF.1 hk
  exact List.mem_map_of_mem hr

theorem Abs.parent (ha : Abs cfg db s) (h : Wf cfg db) {p : Option Nat} {t : Nat} (ht : t ∈ forest cfg db p) : s.parent t = p := by
  refine Tree.parent_eq (F := forest cfg db) (ids := db.rows.map Row.pk) ?_ ?_ ha.forest ha.ids ht
  · intro p q k h1 h2
    rw [forest_eq h.ai] at h1 h2
    exact PF_parent_unique h.ai h1 h2
  · intro q k hk
    rw [forest_eq h.ai] at hk
    obtain ⟨r, hr, e, _⟩ := mem_PF.1 hk
    obtain ⟨q', hq', rfl⟩ := h.exist r hr q e
    exact List.mem_map_of_mem hq'

theorem abs_added (ha : Abs cfg db s) {db' : DB} {obj new : Row} {p : Option Nat} {sl : Slot} (h : AddedAt cfg db db' obj new p sl) :
    Abs cfg db' ⟨new.pk :: s.ids, s.F.put p sl new.pk⟩ := by
  refine ⟨by rw [h.forest, ha.forest], fun k => ?_⟩
  have : db'.rows.map Row.pk = db.rows.map Row.pk ++ [new.pk] := by
    have := congrArg (List.map Prod.fst) h.data
    simpa [data, Function.comp_def] using this
  rw [this, List.mem_append, ha.ids, List.mem_singleton, or_comm]
  exact List.mem_cons.symm

/-- One operation without `node_order_by`: the table shows what the operation asked for. -/
theorem step_sim (ho : cfg.ordered = false) (h : Consistent cfg db) (op : Op) (ha : Abs cfg db s) :
    Consistent cfg (step cfg db op) ∧ Abs cfg (step cfg db op) (s.step op) := by
  cases op with
  | addRoot k v =>
    simp only [step, exec, Tree.step]
    cases e : db.get? k with
    | some r => rw [if_pos ((ha.mem h.toWf k).2 ⟨r, e⟩)]; exact ⟨h, ha⟩
    | none =>
      rw [if_neg (fun hk => by obtain ⟨r, e'⟩ := (ha.mem h.toWf k).1 hk; rw [e] at e'; cases e')]
      obtain ⟨db', obj, e, hadd⟩ := C31_add_root ho h (fresh_of e (v := v)) rfl
      rw [e]; exact ⟨hadd.consistent, abs_added ha hadd⟩
  | addChild t k v =>
    simp only [step, exec, Tree.step]
    cases e1 : db.get? t with
    | none =>
      rw [if_pos (Or.inr (fun hk => by obtain ⟨r, e'⟩ := (ha.mem h.toWf t).1 hk; rw [e1] at e'; cases e'))]
      cases db.get? k <;> exact ⟨h, ha⟩
    | some target =>
      cases e : db.get? k with
      | some r => rw [if_pos (Or.inl ((ha.mem h.toWf k).2 ⟨r, e⟩))]; exact ⟨h, ha⟩
      | none =>
        rw [if_neg (by
          rintro (hk | hk)
          · obtain ⟨r, e'⟩ := (ha.mem h.toWf k).1 hk; rw [e] at e'; cases e'
          · exact hk ((ha.mem h.toWf t).2 ⟨target, e1⟩))]
        dsimp only
        obtain ⟨ht, htk⟩ := row_of h.toWf e1
        obtain ⟨db', obj, c, e, hadd⟩ := C31_add_child ho h ht rfl (cached := none) (fresh_of e (v := v))
        rw [e]
        rw [htk] at hadd
        exact ⟨hadd.consistent, abs_added ha hadd⟩
  | addSibling t pos k v =>
    simp only [step, exec, Tree.step]
    cases e1 : db.get? t with
    | none =>
      rw [if_pos (Or.inr (fun hk => by obtain ⟨r, e'⟩ := (ha.mem h.toWf t).1 hk; rw [e1] at e'; cases e'))]
      cases db.get? k <;> exact ⟨h, ha⟩
    | some target =>
      cases e : db.get? k with
      | some r => rw [if_pos (Or.inl ((ha.mem h.toWf k).2 ⟨r, e⟩))]; exact ⟨h, ha⟩
      | none =>
        rw [if_neg (by
          rintro (hk | hk)
          · obtain ⟨r, e'⟩ := (ha.mem h.toWf k).1 hk; rw [e] at e'; cases e'
          · exact hk ((ha.mem h.toWf t).2 ⟨target, e1⟩))]
        dsimp only
        obtain ⟨ht, htk⟩ := row_of h.toWf e1
        cases hp : preparePosForAddSibling false pos with
        | error er =>
          have : addSibling cfg db target pos ⟨k, none, 0, v⟩ = .error er := by
            unfold addSibling; rw [ho, hp]
          rw [this]; exact ⟨h, ha⟩
        | ok q =>
          obtain ⟨p, hmem, db', obj, e, hadd⟩ := C31_add_sibling ho h ht hp (fresh_of e (v := v))
          rw [e]
          rw [htk] at hadd hmem
          simp only
          rw [ha.parent h.toWf hmem]
          exact ⟨hadd.consistent, abs_added ha hadd⟩
  | move x t pos =>
    simp only [step, exec, Tree.step]
    cases e1 : db.get? t with
    | none =>
      rw [if_pos (Or.inr (fun hk => by obtain ⟨r, e'⟩ := (ha.mem h.toWf t).1 hk; rw [e1] at e'; cases e'))]
      cases db.get? x <;> exact ⟨h, ha⟩
    | some target =>
      cases e : db.get? x with
      | none =>
        rw [if_pos (Or.inl (fun hk => by obtain ⟨r, e'⟩ := (ha.mem h.toWf x).1 hk; rw [e] at e'; cases e'))]
        exact ⟨h, ha⟩
      | some node =>
        rw [if_neg (by
          rintro (hk | hk)
          · exact hk ((ha.mem h.toWf x).2 ⟨node, e⟩)
          · exact hk ((ha.mem h.toWf t).2 ⟨target, e1⟩))]
        dsimp only
        obtain ⟨ht, htk⟩ := row_of h.toWf e1
        obtain ⟨hx, hxk⟩ := row_of h.toWf e
        cases hp : preparePosForMove false pos with
        | error er =>
          have : move cfg db node target none pos = .error er := by
            unfold move; rw [ho, hp]
          rw [this]; exact ⟨h, ha⟩
        | ok q =>
          simp only
          by_cases hr : (forest cfg db).MoveRefused node.pk target.pk q
          · rw [C08_al h.toWf hx (cached := none) (by rw [ho]; exact hp) hr]
            rw [hxk, htk, ha.forest] at hr
            rw [if_pos hr]
            exact ⟨h, ha⟩
          · obtain ⟨p, hmem, db', obj, e, hm⟩ := C31_move ho h hx ht (cached := none) hp hr
            rw [hxk, htk, ha.forest] at hr
            rw [if_neg hr]
            rw [htk] at hmem
            rw [ha.parent h.toWf hmem]
            rw [e]
            refine ⟨hm.consistent, ?_, fun k => ?_⟩
            · refine hm.forest.trans ?_
              rw [hxk, htk, ha.forest]
            · have : db'.rows.map Row.pk = db.rows.map Row.pk := by
                have := congrArg (List.map Prod.fst) hm.data
                simpa [data, Function.comp_def] using this
              rw [show (Except.map (fun x => x.1) (Except.ok (db', obj) : Except Err (DB × Row))) = .ok db' from rfl]
              simp only
              rw [this]
              exact ha.ids k
  | delete S =>
    classical
    obtain ⟨D, hD, hc, hf, hd⟩ := C31_delete ho h S.contains
    refine ⟨hc, ?_, fun k => ?_⟩
    · show forest cfg (delete db (fun r => S.contains r.pk)) = _
      rw [hf]
      simp only [Tree.step]
      rw [ha.forest]
      congr 1
      funext k
      rw [Bool.eq_iff_iff, hD, decide_eq_true_eq, ha.ids, ha.forest]
    · have h1 : (delete db (fun r => S.contains r.pk)).rows.map Row.pk = (db.rows.map Row.pk).filter (fun k => !D k) := by
        have := congrArg (List.map Prod.fst) hd
        simp only [data, List.map_map, Function.comp_def] at this
        rw [this, List.filter_map, List.map_map, List.filter_map]
        rfl
      show k ∈ (delete db (fun r => S.contains r.pk)).rows.map Row.pk ↔ _
      rw [h1]
      simp only [Tree.step, List.mem_filter, ha.ids]
      refine and_congr_right (fun hk => ?_)
      rw [Bool.not_eq_true', Bool.not_eq_true', Bool.eq_false_iff, decide_eq_false_iff_not, Ne, hD, ha.ids, ha.forest]
      simp [hk]


/-! ### With `node_order_by` -/

/-- what the steps of a sorted history do: the table stays well formed -/
theorem step_wf_ordered (ho : cfg.ordered = true) (h : Wf cfg db) (op : Op) : Wf cfg (step cfg db op) := by
  cases op with
  | addRoot k v =>
    simp only [step, exec]
    cases e : db.get? k with
    | some r => exact h
    | none =>
      obtain ⟨db', obj, e, ha⟩ := C16_al_add_root_partial ho h (fresh_of e (v := v)) rfl
      rw [e]; exact ha.wf
  | addChild t k v =>
    simp only [step, exec]
    cases e1 : db.get? t with
    | none => cases db.get? k <;> exact h
    | some target =>
      cases e : db.get? k with
      | some r => exact h
      | none =>
        obtain ⟨ht, htk⟩ := row_of h e1
        obtain ⟨db', obj, c, e, ha⟩ := C16_al_add_child_partial ho h ht rfl (cached := none) (fresh_of e (v := v))
        dsimp only
        rw [e]; exact ha.wf
  | addSibling t pos k v =>
    simp only [step, exec]
    cases e1 : db.get? t with
    | none => cases db.get? k <;> exact h
    | some target =>
      cases e : db.get? k with
      | some r => exact h
      | none =>
        obtain ⟨ht, htk⟩ := row_of h e1
        dsimp only
        cases hp : preparePosForAddSibling true pos with
        | error er =>
          have : addSibling cfg db target pos ⟨k, none, 0, v⟩ = .error er := by
            unfold addSibling; rw [ho, hp]
          rw [this]; exact h
        | ok q =>
          obtain ⟨p, _, db', obj, e, ha⟩ := C16_al_add_sibling_partial ho h ht hp (fresh_of e (v := v))
          rw [e]; exact ha.wf
  | move x t pos =>
    simp only [step, exec]
    cases e1 : db.get? t with
    | none => cases db.get? x <;> exact h
    | some target =>
      cases e : db.get? x with
      | none => exact h
      | some node =>
        dsimp only
        obtain ⟨ht, htk⟩ := row_of h e1
        obtain ⟨hx, hxk⟩ := row_of h e
        cases hp : preparePosForMove true pos with
        | error er =>
          have : move cfg db node target none pos = .error er := by
            unfold move; rw [ho, hp]
          rw [this]; exact h
        | ok q =>
          by_cases hr : (forest cfg db).MoveRefused node.pk target.pk q
          · rw [C08_al h hx (cached := none) (by rw [ho]; exact hp) hr]
            exact h
          · obtain ⟨p, _, db', obj, e, hm⟩ := C16_al_move_partial ho h hx ht (cached := none) hp hr
            rw [e]; exact hm.wf
  | delete S => exact wf_of_ai (ai_delete h.ai _)

theorem empty_inv : AInv cfg (DB.mk []).rows :=
  ⟨⟨by simp, by simp, fun _ => 0, by simp⟩, fun _ => by simp, by simp⟩

end Verif.AL
