/-
C17: the signals of the materialized path backend are enough to mirror the tree.
-/
import Verif.MP.Mirror

namespace Verif.MP

variable {cfg : Cfg} {db db' : DB} {w : Bool}

/-- The call of `exec`, with the object it saved (for which Django sends `post_save`).  `move` and `delete` save no object: they
update and delete by query. -/
def call (cfg : Cfg) (db : DB) : Op → Except Err (DB × Option Row)
  | .addRoot k v => match db.get? k with
    | some _ => .error .integrity
    | none => (addRoot cfg db ⟨k, [], 0, 0, v⟩).map (fun r => (r.1, some r.2))
  | .addChild t k v => match db.get? k, db.get? t with
    | _, none => .error .doesNotExist
    | some _, _ => .error .integrity
    | none, some target => (addChild cfg db target ⟨k, [], 0, 0, v⟩).map (fun r => (r.1, some r.2.1))
  | .addSibling t pos k v => match db.get? k, db.get? t with
    | _, none => .error .doesNotExist
    | some _, _ => .error .integrity
    | none, some target => (addSibling cfg db target pos ⟨k, [], 0, 0, v⟩).map (fun r => (r.1, some r.2))
  | .move x t pos => match db.get? x, db.get? t with
    | some node, some target => (move cfg db node target pos).map (fun r => (r.db, none))
    | _, _ => .error .doesNotExist
  | .delete S => .ok (delete cfg db (fun r => S.contains r.pk), none)

theorem exec_eq_call (op : Op) : exec cfg db op = (call cfg db op).map (·.1) := by
  cases op with
  | addRoot k v =>
    simp only [exec, call]
    cases db.get? k with
    | some _ => rfl
    | none => cases addRoot cfg db ⟨k, [], 0, 0, v⟩ <;> simp [Except.map]
  | addChild t k v =>
    simp only [exec, call]
    cases db.get? k <;> cases db.get? t <;> try rfl
    rename_i target
    cases e : addChild cfg db target ⟨k, [], 0, 0, v⟩ <;> simp [e, Except.map]
  | addSibling t pos k v =>
    simp only [exec, call]
    cases db.get? k <;> cases db.get? t <;> try rfl
    rename_i target
    cases e : addSibling cfg db target pos ⟨k, [], 0, 0, v⟩ <;> simp [e, Except.map]
  | move x t pos =>
    simp only [exec, call]
    cases db.get? x <;> cases db.get? t <;> try rfl
    rename_i node target
    cases e : move cfg db node target pos <;> simp [e, Except.map]
  | delete S => rfl

/-- What a listener is told of one call: the signals it sent, in their order, then the saved object.  A call that raises is rolled
back; a listener is taken to follow the transaction. -/
def events (cfg : Cfg) (db : DB) (op : Op) : List (Event Sig Entry) :=
  match call cfg db op with
  | .error _ => []
  | .ok (db', obj) => (db'.sigs.drop db.sigs.length).map .sig ++ (obj.map (fun r => Event.saved r.entry)).toList

/-- What a listener is told of a history. -/
def feed (cfg : Cfg) : DB → List Op → List (Event Sig Entry)
  | _, [] => []
  | db, op :: ops => events cfg db op ++ feed cfg (step cfg db op) ops

theorem foldl_sigs (s : List Sig) (l : List Entry) :
    (s.map Event.sig).foldl (listen cfg.steplen w) l = s.foldl (listenSig cfg.steplen w) l := by
  rw [List.foldl_map]; rfl

theorem listen_feeds (h : Feeds cfg w db db') :
    entries db' = ((db'.sigs.drop db.sigs.length).map Event.sig).foldl (listen cfg.steplen w) (entries db) := by
  obtain ⟨s, e1, e2⟩ := h
  rw [e1, List.drop_left, foldl_sigs, e2]

theorem listen_saved {obj : Row} (h : FeedsSaved cfg w db db' obj) :
    entries db' = ((db'.sigs.drop db.sigs.length).map Event.sig ++ [Event.saved obj.entry]).foldl (listen cfg.steplen w) (entries db) := by
  obtain ⟨s, e1, e2⟩ := h
  rw [e1, List.drop_left, List.foldl_append, foldl_sigs, e2]
  rfl

/-- **C17**, one call on any table whatever: the store, told of the call, holds the paths and depths of the table. -/
theorem C17_call (h : w = true → ∀ r ∈ db.rows, r.depth = r.path.length / cfg.steplen) (op : Op) :
    (step cfg db op).rows.map Row.entry = (events cfg db op).foldl (listen cfg.steplen w) (db.rows.map Row.entry) := by
  have h : DepthsOk cfg w db := h
  change entries (step cfg db op) = _ at *
  have key : ∀ db' obj, call cfg db op = .ok (db', obj) →
      entries db' = ((db'.sigs.drop db.sigs.length).map Event.sig ++ (obj.map (fun r : Row => Event.saved r.entry)).toList).foldl
        (listen cfg.steplen w) (entries db) := by
    intro db' obj e
    cases op with
    | addRoot k v =>
      simp only [call] at e
      split at e
      · cases e
      · cases e1 : addRoot cfg db ⟨k, [], 0, 0, v⟩ with
        | error er => rw [e1] at e; cases e
        | ok res => rw [e1] at e; cases e; exact listen_saved (addRoot_feeds h e1)
    | addChild t k v =>
      simp only [call] at e
      split at e
      · cases e
      · cases e
      · rename_i target _ _
        cases e1 : addChild cfg db target ⟨k, [], 0, 0, v⟩ with
        | error er => rw [e1] at e; cases e
        | ok res => rw [e1] at e; cases e; exact listen_saved (addChild_feeds h e1)
    | addSibling t pos k v =>
      simp only [call] at e
      split at e
      · cases e
      · cases e
      · rename_i target _ _
        cases e1 : addSibling cfg db target pos ⟨k, [], 0, 0, v⟩ with
        | error er => rw [e1] at e; cases e
        | ok res => rw [e1] at e; cases e; exact listen_saved (addSibling_feeds h e1)
    | move x t pos =>
      simp only [call] at e
      split at e
      · rename_i node target _ _
        cases e1 : move cfg db node target pos with
        | error er => rw [e1] at e; cases e
        | ok res =>
          rw [e1] at e; cases e
          simp only [Option.map_none, Option.toList_none, List.append_nil]
          exact listen_feeds (move_feeds h e1)
      · cases e
    | delete S =>
      simp only [call] at e
      cases e
      simp only [Option.map_none, Option.toList_none, List.append_nil]
      exact listen_feeds (delete_feeds _)
  unfold step events
  rw [exec_eq_call]
  cases e : call cfg db op with
  | error er => rfl
  | ok res => exact key res.1 res.2 e

/-- **C17.** A store that starts with the entries of the table and is told of every call of a history holds, after every history,
the paths and depths of the table: whatever the table, the operations and their values, with or without `node_order_by`.  The store
follows the documentation: it computes the depth when the two paths of the signal have different lengths. -/
theorem C17_history (ops : List Op) : ∀ (db : DB),
    (runOps cfg db ops).rows.map Row.entry = (feed cfg db ops).foldl (listen cfg.steplen false) (db.rows.map Row.entry) := by
  induction ops with
  | nil => intro db; rfl
  | cons op ops ih =>
    intro db
    have h1 : runOps cfg db (op :: ops) = runOps cfg (step cfg db op) ops := rfl
    rw [h1, ih, feed, List.foldl_append, C17_call (w := false) (by simp) op]

/-- **C17**, for a store that computes the depth from the path every time: it agrees, too, as long as the history meets its guards
(see `C04_history_partial`). -/
theorem C17_history_depths (hok : cfg.Ok) {ops : List Op} : ∀ {db : DB}, HInv cfg db → Guarded cfg db ops →
    (runOps cfg db ops).rows.map Row.entry = (feed cfg db ops).foldl (listen cfg.steplen true) (db.rows.map Row.entry) := by
  induction ops with
  | nil => intro db _ _; rfl
  | cons op ops ih =>
    intro db h hg
    have h1 : runOps cfg db (op :: ops) = runOps cfg (step cfg db op) ops := rfl
    rw [h1, ih (Verif.HInv.step hok h hg.1) hg.2, feed, List.foldl_append,
      C17_call (w := true) (DepthsOk.of_consistent hok h.consistent) op]

/-- The history of C04 from the empty table sends signals of both kinds, and the store holds what the table holds. -/
example : (feed MP.exCfg { rows := [] } exOps).countP (fun e => match e with | .sig (.pathUpdated ..) => true | _ => false) ≥ 2 ∧
    (feed MP.exCfg { rows := [] } exOps).any (fun e => match e with | .sig (.nodesDeleted ..) => true | _ => false) = true ∧
    (feed MP.exCfg { rows := [] } exOps).foldl (listen MP.exCfg.steplen false) [] =
      (runOps MP.exCfg { rows := [] } exOps).rows.map Row.entry ∧
    (runOps MP.exCfg { rows := [] } exOps).rows.length ≥ 2 := by decide

example : Guarded MP.exCfg { rows := [] } exOps := exOps_guarded

end Verif.MP
