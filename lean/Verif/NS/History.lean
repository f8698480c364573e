/-
Histories of operations on the nested sets backend.
-/
import Verif.Props.NSTree
import Verif.TreeLemmas

namespace Verif.NS

/-- One operation on freshly fetched nodes.  A missing node or target raises when it is fetched, a used key when the
row is inserted. -/
def exec (cfg : Cfg) (db : DB) : Op → Except Err DB
  | .addRoot k v => match db.get? k with
    | some _ => .error .integrity
    | none => (addRoot cfg db ⟨k, 0, 0, 0, 0, v⟩).map (·.1)
  | .addChild t k v => match db.get? k, db.get? t with
    | _, none => .error .doesNotExist
    | some _, _ => .error .integrity
    | none, some target => (addChild cfg db target ⟨k, 0, 0, 0, 0, v⟩).map (·.1)
  | .addSibling t pos k v => match db.get? k, db.get? t with
    | _, none => .error .doesNotExist
    | some _, _ => .error .integrity
    | none, some target => (addSibling cfg db target none pos ⟨k, 0, 0, 0, 0, v⟩).map (·.1)
  | .move x t pos => match db.get? x, db.get? t with
    | some node, some target => (move cfg db node target none pos).map (·.db)
    | _, _ => .error .doesNotExist
  | .delete S => .ok (delete db (fun r => S.contains r.pk))

/-- A call that raises leaves the table as it was (the operations run in `transaction.atomic`). -/
def step (cfg : Cfg) (db : DB) (op : Op) : DB :=
  match exec cfg db op with
  | .ok db' => db'
  | .error _ => db

/-- a whole history -/
def runOps (cfg : Cfg) (db : DB) (ops : List Op) : DB := ops.foldl (step cfg) db

/-- the table shows the abstract tree -/
def Abs (db : DB) (s : Tree) : Prop := ShowsTree (forest db) (db.rows.map Row.pk) s

variable {cfg : Cfg} {db : DB} {s : Tree}

theorem row_of (h : Consistent db) {k : Nat} {r : Row} (e : db.get? k = some r) : r ∈ db.rows ∧ r.pk = k :=
  (get?_eq_some h.toNI).1 e

theorem fresh_of {k : Nat} {v : Vals} (e : db.get? k = none) : Fresh db ⟨k, 0, 0, 0, 0, v⟩ := get?_eq_none.1 e

theorem Abs.mem (ha : Abs db s) (h : Consistent db) (k : Nat) : k ∈ s.ids ↔ ∃ r, db.get? k = some r := by
  rw [← ha.ids]
  constructor
  · intro hm
    obtain ⟨r, hr, rfl⟩ := List.mem_map.1 hm
    exact ⟨r, (get?_eq_some h.toNI).2 ⟨hr, rfl⟩⟩
  · rintro ⟨r, e⟩
    obtain ⟨hr, rfl⟩ := (get?_eq_some h.toNI).1 e
    exact List.mem_map_of_mem hr

theorem Abs.parent (ha : Abs db s) (h : Consistent db) {p : Option Nat} {t : Nat} (ht : t ∈ forest db p) : s.parent t = p := by
  refine Tree.parent_eq (F := forest db) (ids := db.rows.map Row.pk) (fun p q k h1 h2 => parent_unique h h1 h2) ?_ ha.forest ha.ids ht
  intro q k hk
  unfold forest at hk
  simp only at hk
  split at hk
  · simp at hk
  · rename_i r e
    obtain ⟨hr, rfl⟩ := row_of h e
    exact List.mem_map_of_mem hr

theorem abs_added (ha : Abs db s) {db' : DB} {obj new : Row} {p : Option Nat} {sl : Slot} (h : AddedAt db db' obj new p sl) :
    Abs db' ⟨new.pk :: s.ids, s.F.put p sl new.pk⟩ := by
  refine ⟨by rw [h.forest, ha.forest], fun k => ?_⟩
  have : db'.rows.map Row.pk = db.rows.map Row.pk ++ [new.pk] := by
    have := congrArg (List.map Prod.fst) h.data
    simpa [data, Function.comp_def] using this
  rw [this, List.mem_append, ha.ids, List.mem_singleton, or_comm]
  exact List.mem_cons.symm

/-- One operation without `node_order_by`: the table shows what the operation asked for. -/
theorem step_sim (ho : cfg.ordered = false) (h : Consistent db) (op : Op) (ha : Abs db s) :
    Consistent (step cfg db op) ∧ Abs (step cfg db op) (s.step op) := by
  cases op with
  | addRoot k v =>
    simp only [step, exec, Tree.step]
    cases e : db.get? k with
    | some r => rw [if_pos ((ha.mem h k).2 ⟨r, e⟩)]; exact ⟨h, ha⟩
    | none =>
      rw [if_neg (fun hk => by obtain ⟨r, e'⟩ := (ha.mem h k).1 hk; rw [e] at e'; cases e')]
      obtain ⟨db', obj, e, hadd⟩ := C22_add_root h ho (fresh_of e (v := v))
      rw [e]; exact ⟨hadd.consistent, abs_added ha hadd⟩
  | addChild t k v =>
    simp only [step, exec, Tree.step]
    cases e1 : db.get? t with
    | none =>
      rw [if_pos (Or.inr (fun hk => by obtain ⟨r, e'⟩ := (ha.mem h t).1 hk; rw [e1] at e'; cases e'))]
      cases db.get? k <;> exact ⟨h, ha⟩
    | some target =>
      cases e : db.get? k with
      | some r => rw [if_pos (Or.inl ((ha.mem h k).2 ⟨r, e⟩))]; exact ⟨h, ha⟩
      | none =>
        rw [if_neg (by
          rintro (hk | hk)
          · obtain ⟨r, e'⟩ := (ha.mem h k).1 hk; rw [e] at e'; cases e'
          · exact hk ((ha.mem h t).2 ⟨target, e1⟩))]
        dsimp only
        obtain ⟨ht, htk⟩ := row_of h e1
        obtain ⟨db', obj, t', e, hadd⟩ := C22_add_child h ho ht rfl (fresh_of e (v := v))
        rw [e]
        rw [htk] at hadd
        exact ⟨hadd.consistent, abs_added ha hadd⟩
  | addSibling t pos k v =>
    simp only [step, exec, Tree.step]
    cases e1 : db.get? t with
    | none =>
      rw [if_pos (Or.inr (fun hk => by obtain ⟨r, e'⟩ := (ha.mem h t).1 hk; rw [e1] at e'; cases e'))]
      cases db.get? k <;> exact ⟨h, ha⟩
    | some target =>
      cases e : db.get? k with
      | some r => rw [if_pos (Or.inl ((ha.mem h k).2 ⟨r, e⟩))]; exact ⟨h, ha⟩
      | none =>
        rw [if_neg (by
          rintro (hk | hk)
          · obtain ⟨r, e'⟩ := (ha.mem h k).1 hk; rw [e] at e'; cases e'
          · exact hk ((ha.mem h t).2 ⟨target, e1⟩))]
        dsimp only
        obtain ⟨ht, htk⟩ := row_of h e1
        cases hp : preparePosForAddSibling false pos with
        | error er =>
          have : addSibling cfg db target none pos ⟨k, 0, 0, 0, 0, v⟩ = .error er := by
            unfold addSibling; rw [ho, hp]
          rw [this]; exact ⟨h, ha⟩
        | ok q =>
          obtain ⟨p, hmem, db', obj, e, hadd⟩ := C22_add_sibling h ho ht (cached := none) (by intro p e; cases e) hp (fresh_of e (v := v))
          rw [e]
          rw [htk] at hadd hmem
          simp only
          rw [ha.parent h hmem]
          exact ⟨hadd.consistent, abs_added ha hadd⟩
  | move x t pos =>
    simp only [step, exec, Tree.step]
    cases e1 : db.get? t with
    | none =>
      rw [if_pos (Or.inr (fun hk => by obtain ⟨r, e'⟩ := (ha.mem h t).1 hk; rw [e1] at e'; cases e'))]
      cases db.get? x <;> exact ⟨h, ha⟩
    | some target =>
      cases e : db.get? x with
      | none =>
        rw [if_pos (Or.inl (fun hk => by obtain ⟨r, e'⟩ := (ha.mem h x).1 hk; rw [e] at e'; cases e'))]
        exact ⟨h, ha⟩
      | some node =>
        rw [if_neg (by
          rintro (hk | hk)
          · exact hk ((ha.mem h x).2 ⟨node, e⟩)
          · exact hk ((ha.mem h t).2 ⟨target, e1⟩))]
        dsimp only
        obtain ⟨ht, htk⟩ := row_of h e1
        obtain ⟨hx, hxk⟩ := row_of h e
        cases hp : preparePosForMove false pos with
        | error er =>
          have : move cfg db node target none pos = .error er := by
            unfold move; rw [ho, hp]
          rw [this]; exact ⟨h, ha⟩
        | ok q =>
          simp only
          by_cases hr : (forest db).MoveRefused node.pk target.pk q
          · rw [C08_ns h hx ht (cached := none) (by rw [ho]; exact hp) hr]
            rw [hxk, htk, ha.forest] at hr
            rw [if_pos hr]
            exact ⟨h, ha⟩
          · obtain ⟨p, hmem, res, e, hm⟩ := C23_move h ho hx ht (cached := none) (by intro p e; cases e) hp hr
            rw [hxk, htk, ha.forest] at hr
            rw [if_neg hr]
            rw [htk] at hmem
            rw [ha.parent h hmem]
            rw [e]
            refine ⟨hm.consistent, ?_, fun k => ?_⟩
            · refine hm.forest.trans ?_
              rw [hxk, htk, ha.forest]
            · have : res.db.rows.map Row.pk = db.rows.map Row.pk := by
                have := congrArg (List.map Prod.fst) hm.data
                simpa [data, Function.comp_def] using this
              rw [show (Except.map (fun x => x.db) (Except.ok res : Except Err MoveResult)) = .ok res.db from rfl]
              simp only
              rw [this]
              exact ha.ids k
  | delete S =>
    classical
    obtain ⟨D, hD, hc, hf, hd⟩ := C24_delete h S.contains
    refine ⟨hc, ?_, fun k => ?_⟩
    · show forest (delete db (fun r => S.contains r.pk)) = _
      rw [hf]
      simp only [Tree.step]
      rw [ha.forest]
      congr 1
      funext k
      rw [Bool.eq_iff_iff, hD, decide_eq_true_eq, ha.ids, ha.forest]
    · have h1 : (delete db (fun r => S.contains r.pk)).rows.map Row.pk = (db.rows.map Row.pk).filter (fun k => !D k) := by
        have := congrArg (List.map Prod.fst) hd
        simp only [data, List.map_map, Function.comp_def] at this
        rw [this, List.filter_map, List.map_map, List.filter_map]
        rfl
      show k ∈ (delete db (fun r => S.contains r.pk)).rows.map Row.pk ↔ _
      rw [h1]
      simp only [Tree.step, List.mem_filter, ha.ids]
      refine and_congr_right (fun hk => ?_)
      rw [Bool.not_eq_true', Bool.not_eq_true', Bool.eq_false_iff, decide_eq_false_iff_not, Ne, hD, ha.ids, ha.forest]
      simp [hk]

/-- One operation with `node_order_by` keeps the table consistent, whatever the values (null ones included). -/
theorem step_ordered (ho : cfg.ordered = true) (h : Consistent db) (op : Op) : Consistent (step cfg db op) := by
  cases op with
  | addRoot k v =>
    simp only [step, exec]
    cases e : db.get? k with
    | some r => exact h
    | none =>
      obtain ⟨db', obj, s, e, ha, _⟩ := addRoot_sorted h ho (fresh_of e (v := v))
      rw [e]; exact (AddedAt.of h ha).consistent
  | addChild t k v =>
    simp only [step, exec]
    cases e1 : db.get? t with
    | none => cases db.get? k <;> exact h
    | some target =>
      cases e : db.get? k with
      | some r => exact h
      | none =>
        obtain ⟨ht, htk⟩ := row_of h e1
        obtain ⟨db', obj, t', s, e, ha, _⟩ := addChild_sorted h ho ht rfl (fresh_of e (v := v))
        dsimp only
        rw [e]; exact (AddedAt.of h ha).consistent
  | addSibling t pos k v =>
    simp only [step, exec]
    cases e1 : db.get? t with
    | none => cases db.get? k <;> exact h
    | some target =>
      cases e : db.get? k with
      | some r => exact h
      | none =>
        obtain ⟨ht, htk⟩ := row_of h e1
        dsimp only
        cases hp : preparePosForAddSibling true pos with
        | error er =>
          have : addSibling cfg db target none pos ⟨k, 0, 0, 0, 0, v⟩ = .error er := by
            unfold addSibling; rw [ho, hp]
          rw [this]; exact h
        | ok q =>
          obtain rfl := (prepAddSorted_arg hp).1
          obtain ⟨l, db', obj, s, _, e, ha, _⟩ := addSibling_sorted h ho ht (cached := none) hp (fresh_of e (v := v))
          rw [e]; exact (AddedAt.of h ha).consistent
  | move x t pos =>
    simp only [step, exec]
    cases e1 : db.get? t with
    | none => cases db.get? x <;> exact h
    | some target =>
      cases e : db.get? x with
      | none => exact h
      | some node =>
        dsimp only
        obtain ⟨ht, htk⟩ := row_of h e1
        obtain ⟨hx, hxk⟩ := row_of h e
        cases hp : preparePosForMove true pos with
        | error er =>
          have : move cfg db node target none pos = .error er := by
            unfold move; rw [ho, hp]
          rw [this]; exact h
        | ok q =>
          by_cases hr : (forest db).MoveRefused node.pk target.pk q
          · rw [C08_ns h hx ht (cached := none) (by rw [ho]; exact hp) hr]
            exact h
          · obtain ⟨res, s, l, e, hm, _⟩ := move_sorted h ho hx ht (cached := none) hp (fun hr' => hr ((refused_iff h hx ht q).1 hr'))
            rw [e]; exact hm.inv
  | delete S => exact (C24_delete h S.contains).choose_spec.2.1

theorem step_consistent (h : Consistent db) (op : Op) : Consistent (step cfg db op) := by
  cases ho : cfg.ordered with
  | true => exact step_ordered ho h op
  | false => exact (step_sim ho h op (s := ⟨db.rows.map Row.pk, forest db⟩) ⟨rfl, fun _ => Iff.rfl⟩).1

theorem runOps_consistent (ops : List Op) : ∀ {db : DB}, Consistent db → Consistent (runOps cfg db ops) := by
  induction ops with
  | nil => intro db h; exact h
  | cons op ops ih => intro db h; exact ih (step_consistent h op)

theorem empty_consistent : Consistent { rows := [] } :=
  ⟨⟨by simp, by simp, by simp, by simp, by simp, by simp, by simp, by simp⟩, by simp⟩

end Verif.NS
