/-
C29: the signals of the nested sets backend are enough to mirror the tree.
-/
import Verif.NS.Mirror
import Verif.Props.NSHistory

namespace Verif.NS

variable {cfg : Cfg} {db db' : DB}

/-- The call of `exec`, with the object it saved (for which Django sends `post_save`).  `move` and `delete` save no object: they
update and delete by query. -/
def call (cfg : Cfg) (db : DB) : Op → Except Err (DB × Option Row)
  | .addRoot k v => match db.get? k with
    | some _ => .error .integrity
    | none => (addRoot cfg db ⟨k, 0, 0, 0, 0, v⟩).map (fun r => (r.1, some r.2))
  | .addChild t k v => match db.get? k, db.get? t with
    | _, none => .error .doesNotExist
    | some _, _ => .error .integrity
    | none, some target => (addChild cfg db target ⟨k, 0, 0, 0, 0, v⟩).map (fun r => (r.1, some r.2.1))
  | .addSibling t pos k v => match db.get? k, db.get? t with
    | _, none => .error .doesNotExist
    | some _, _ => .error .integrity
    | none, some target => (addSibling cfg db target none pos ⟨k, 0, 0, 0, 0, v⟩).map (fun r => (r.1, some r.2))
  | .move x t pos => match db.get? x, db.get? t with
    | some node, some target => (move cfg db node target none pos).map (fun r => (r.db, none))
    | _, _ => .error .doesNotExist
  | .delete S => .ok (delete db (fun r => S.contains r.pk), none)

theorem exec_eq_call (op : Op) : exec cfg db op = (call cfg db op).map (·.1) := by
  cases op with
  | addRoot k v =>
    simp only [exec, call]
    cases db.get? k with
    | some _ => rfl
    | none => cases addRoot cfg db ⟨k, 0, 0, 0, 0, v⟩ <;> simp [Except.map]
  | addChild t k v =>
    simp only [exec, call]
    cases db.get? k <;> cases db.get? t <;> try rfl
    rename_i target
    cases e : addChild cfg db target ⟨k, 0, 0, 0, 0, v⟩ <;> simp [e, Except.map]
  | addSibling t pos k v =>
    simp only [exec, call]
    cases db.get? k <;> cases db.get? t <;> try rfl
    rename_i target
    cases e : addSibling cfg db target none pos ⟨k, 0, 0, 0, 0, v⟩ <;> simp [e, Except.map]
  | move x t pos =>
    simp only [exec, call]
    cases db.get? x <;> cases db.get? t <;> try rfl
    rename_i node target
    cases e : move cfg db node target none pos <;> simp [e, Except.map]
  | delete S => rfl

/-- What a listener is told of one call: the signals it sent, in their order, then the saved object.  A call that raises is rolled
back; a listener is taken to follow the transaction. -/
def events (cfg : Cfg) (db : DB) (op : Op) : List (Event Sig Entry) :=
  match call cfg db op with
  | .error _ => []
  | .ok (db', obj) => (db'.sigs.drop db.sigs.length).map .sig ++ (obj.map (fun r => Event.saved r.entry)).toList

/-- What a listener is told of a history. -/
def feed (cfg : Cfg) : DB → List Op → List (Event Sig Entry)
  | _, [] => []
  | db, op :: ops => events cfg db op ++ feed cfg (step cfg db op) ops

theorem foldl_sigs (s : List Sig) (l : List Entry) :
    (s.map Event.sig).foldl listen l = s.foldl listenSig l := by
  rw [List.foldl_map]; rfl

theorem listen_feeds (h : Feeds db db') :
    entries db' = ((db'.sigs.drop db.sigs.length).map Event.sig).foldl listen (entries db) := by
  obtain ⟨s, e1, e2⟩ := h
  rw [e1, List.drop_left, foldl_sigs, e2]

theorem listen_saved {obj : Row} (h : FeedsSaved db db' obj) :
    entries db' = ((db'.sigs.drop db.sigs.length).map Event.sig ++ [Event.saved obj.entry]).foldl listen (entries db) := by
  obtain ⟨s, e1, e2⟩ := h
  rw [e1, List.drop_left, List.foldl_append, foldl_sigs, e2]
  rfl

/-- **C29**, one call on a consistent table: the store, told of the call, holds the intervals and depths of the table. -/
theorem C29_call (h : Consistent db) (op : Op) :
    (step cfg db op).rows.map Row.entry = (events cfg db op).foldl listen (db.rows.map Row.entry) := by
  change entries (step cfg db op) = _
  have hlr : Lr db := h.lr
  have key : ∀ db' obj, call cfg db op = .ok (db', obj) →
      entries db' = ((db'.sigs.drop db.sigs.length).map Event.sig ++ (obj.map (fun r : Row => Event.saved r.entry)).toList).foldl
        listen (entries db) := by
    intro db' obj e
    cases op with
    | addRoot k v =>
      simp only [call] at e
      split at e
      · cases e
      · cases e1 : addRoot cfg db ⟨k, 0, 0, 0, 0, v⟩ with
        | error er => rw [e1] at e; cases e
        | ok res => rw [e1] at e; cases e; exact listen_saved (addRoot_feeds hlr e1)
    | addChild t k v =>
      simp only [call] at e
      split at e
      · cases e
      · cases e
      · rename_i target _ _
        cases e1 : addChild cfg db target ⟨k, 0, 0, 0, 0, v⟩ with
        | error er => rw [e1] at e; cases e
        | ok res => rw [e1] at e; cases e; exact listen_saved (addChild_feeds hlr e1)
    | addSibling t pos k v =>
      simp only [call] at e
      split at e
      · cases e
      · cases e
      · rename_i target _ _
        cases e1 : addSibling cfg db target none pos ⟨k, 0, 0, 0, 0, v⟩ with
        | error er => rw [e1] at e; cases e
        | ok res => rw [e1] at e; cases e; exact listen_saved (addSibling_feeds hlr e1)
    | move x t pos =>
      simp only [call] at e
      split at e
      · rename_i node target hx ht
        cases e1 : move cfg db node target none pos with
        | error er => rw [e1] at e; cases e
        | ok res =>
          rw [e1] at e; cases e
          simp only [Option.map_none, Option.toList_none, List.append_nil]
          exact listen_feeds (move_feeds h.toNI (row_of h hx).1 (row_of h ht).1 (by simp) e1)
      · cases e
    | delete S =>
      simp only [call] at e
      cases e
      simp only [Option.map_none, Option.toList_none, List.append_nil]
      exact listen_feeds (delete_feeds h _)
  unfold step events
  rw [exec_eq_call]
  cases e : call cfg db op with
  | error er => rfl
  | ok res => exact key res.1 res.2 e

/-- **C29.** A store that starts with the entries of a consistent table and is told of every call of a history holds, after every
history, the tree numbers, intervals and depths of the table: whatever the operations and their values, with or without
`node_order_by`. -/
theorem C29_history (ops : List Op) : ∀ {db : DB}, Consistent db →
    (runOps cfg db ops).rows.map Row.entry = (feed cfg db ops).foldl listen (db.rows.map Row.entry) := by
  induction ops with
  | nil => intro db _; rfl
  | cons op ops ih =>
    intro db h
    have h1 : runOps cfg db (op :: ops) = runOps cfg (step cfg db op) ops := rfl
    rw [h1, ih (step_consistent h op), feed, List.foldl_append, C29_call h op]

/-- From the empty table, with a store that knows nothing. -/
theorem C29_history_empty (ops : List Op) :
    (runOps cfg { rows := [] } ops).rows.map Row.entry = (feed cfg { rows := [] } ops).foldl listen [] :=
  C29_history ops empty_consistent

/-- The history of C21 sends signals of all four kinds, and the store holds what the table holds. -/
example : (feed ⟨[]⟩ { rows := [] } exOps).any (fun e => match e with | .sig (.gapAltered ..) => true | _ => false) = true ∧
    (feed ⟨[]⟩ { rows := [] } exOps).any (fun e => match e with | .sig (.treeIdsIncremented ..) => true | _ => false) = true ∧
    (feed ⟨[]⟩ { rows := [] } exOps).any (fun e => match e with | .sig (.subtreeMoved ..) => true | _ => false) = true ∧
    (feed ⟨[]⟩ { rows := [] } exOps).any (fun e => match e with | .sig (.nodesDeleted ..) => true | _ => false) = true ∧
    (feed ⟨[]⟩ { rows := [] } exOps).foldl listen [] = [⟨1, 2, 1, 2, 1⟩, ⟨2, 1, 1, 4, 1⟩, ⟨4, 1, 2, 3, 2⟩] := by decide

end Verif.NS
