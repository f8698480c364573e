/-
C50: the signals of the ltree backend are enough to mirror the tree.
-/
import Verif.LT.Mirror
import Verif.Props.LTHistory

namespace Verif.LT

variable {cfg : Cfg} {db db' : DB}

/-- The call of `exec`, with the object it saved (for which Django sends `post_save`). -/
def call (cfg : Cfg) (db : DB) : Op → Except Err (DB × Option Row)
  | .addRoot k v => match db.get? k with
    | some _ => .error .integrity
    | none => (addRoot cfg db ⟨k, [], v⟩).map (fun r => (r.1, some r.2))
  | .addChild t k v => match db.get? k, db.get? t with
    | _, none => .error .doesNotExist
    | some _, _ => .error .integrity
    | none, some target => (addChild cfg db target ⟨k, [], v⟩).map (fun r => (r.1, some r.2))
  | .addSibling t pos k v => match db.get? k, db.get? t with
    | _, none => .error .doesNotExist
    | some _, _ => .error .integrity
    | none, some target => (addSibling cfg db target pos ⟨k, [], v⟩).map (fun r => (r.1, some r.2))
  | .move x t pos => match db.get? x, db.get? t with
    | some node, some target => (move cfg db node target pos).map (fun r => (r.1, some r.2))
    | _, _ => .error .doesNotExist
  | .delete S => .ok (delete db (fun r => S.contains r.pk), none)

theorem exec_eq_call (op : Op) : exec cfg db op = (call cfg db op).map (·.1) := by
  cases op with
  | addRoot k v =>
    simp only [exec, call]
    cases db.get? k with
    | some _ => rfl
    | none => cases addRoot cfg db ⟨k, [], v⟩ <;> simp [Except.map]
  | addChild t k v =>
    simp only [exec, call]
    cases db.get? k <;> cases db.get? t <;> try rfl
    rename_i target
    cases e : addChild cfg db target ⟨k, [], v⟩ <;> simp [e, Except.map]
  | addSibling t pos k v =>
    simp only [exec, call]
    cases db.get? k <;> cases db.get? t <;> try rfl
    rename_i target
    cases e : addSibling cfg db target pos ⟨k, [], v⟩ <;> simp [e, Except.map]
  | move x t pos =>
    simp only [exec, call]
    cases db.get? x <;> cases db.get? t <;> try rfl
    rename_i node target
    cases e : move cfg db node target pos <;> simp [e, Except.map]
  | delete S => rfl

/-- the last signal of a move, `subtree_moved`, is sent after the node is saved (ltree/__init__.py:327-334), all others before -/
def sentAfterSave : Op → Nat
  | .move .. => 1
  | _ => 0

/-- What a listener is told of one call: the signals it sent and the saved object, in the order they happen.  A call that raises is
rolled back; a listener is taken to follow the transaction. -/
def events (cfg : Cfg) (db : DB) (op : Op) : List (Event Sig Entry) :=
  match call cfg db op with
  | .error _ => []
  | .ok (db', obj) =>
    let s := db'.sigs.drop db.sigs.length
    (s.take (s.length - sentAfterSave op)).map .sig ++ (obj.map (fun r => Event.saved r.entry)).toList ++
      (s.drop (s.length - sentAfterSave op)).map .sig

/-- What a listener is told of a history. -/
def feed (cfg : Cfg) : DB → List Op → List (Event Sig Entry)
  | _, [] => []
  | db, op :: ops => events cfg db op ++ feed cfg (step cfg db op) ops

theorem foldl_sigs (s : List Sig) (l : List Entry) : (s.map Event.sig).foldl listen l = s.foldl listenSig l := by
  rw [List.foldl_map]; rfl

/-- the events, given the parts -/
def told (db db' : DB) (obj : Option Row) (n : Nat) : List (Event Sig Entry) :=
  let s := db'.sigs.drop db.sigs.length
  (s.take (s.length - n)).map .sig ++ (obj.map (fun r => Event.saved r.entry)).toList ++ (s.drop (s.length - n)).map .sig

theorem told_zero (obj : Option Row) : told db db' obj 0 =
    (db'.sigs.drop db.sigs.length).map .sig ++ (obj.map (fun r => Event.saved r.entry)).toList := by
  unfold told
  simp only [Nat.sub_zero, List.take_length, List.drop_length, List.map_nil, List.append_nil]

theorem listen_feeds (h : Feeds db db') : entries db' = (told db db' none 0).foldl listen (entries db) := by
  obtain ⟨s, e1, e2⟩ := h
  rw [told_zero, e1, List.drop_left, List.foldl_append, foldl_sigs, e2]
  rfl

theorem listen_saved {obj : Row} (h : FeedsSaved db db' obj) : entries db' = (told db db' (some obj) 0).foldl listen (entries db) := by
  obtain ⟨s, e1, e2⟩ := h
  rw [told_zero, e1, List.drop_left, List.foldl_append, foldl_sigs, e2]
  rfl

theorem listen_move {obj : Row} (h : FeedsMove db db' obj) : entries db' = (told db db' (some obj) 1).foldl listen (entries db) := by
  obtain ⟨s, old, e1, e2⟩ := h
  unfold told
  have hl : (s ++ [Sig.moved old obj.path]).length - 1 = s.length := by simp
  simp only [e1, List.append_assoc, List.drop_left, hl, List.take_left, List.foldl_append, foldl_sigs]
  rw [e2]
  rfl

/-- **C50**, one call on a consistent table: the store, told of the call, holds the paths of the table. -/
theorem C50_call (h : Consistent db) (op : Op) :
    (step cfg db op).rows.map Row.entry = (events cfg db op).foldl listen (db.rows.map Row.entry) := by
  change entries (step cfg db op) = _
  have hi := h.inv
  have key : ∀ db' obj, call cfg db op = .ok (db', obj) →
      entries db' = (told db db' obj (sentAfterSave op)).foldl listen (entries db) := by
    intro db' obj e
    cases op with
    | addRoot k v =>
      simp only [call] at e
      split at e
      · cases e
      · cases e1 : addRoot cfg db ⟨k, [], v⟩ with
        | error er => rw [e1] at e; cases e
        | ok res => rw [e1] at e; cases e; exact listen_saved (addRoot_feeds hi.inv e1)
    | addChild t k v =>
      simp only [call] at e
      split at e
      · cases e
      · cases e
      · rename_i target _ _
        cases e1 : addChild cfg db target ⟨k, [], v⟩ with
        | error er => rw [e1] at e; cases e
        | ok res => rw [e1] at e; cases e; exact listen_saved (addChild_feeds hi.inv e1)
    | addSibling t pos k v =>
      simp only [call] at e
      split at e
      · cases e
      · cases e
      · rename_i target _ ht
        cases e1 : addSibling cfg db target pos ⟨k, [], v⟩ with
        | error er => rw [e1] at e; cases e
        | ok res => rw [e1] at e; cases e; exact listen_saved (addSibling_feeds hi.inv (row_of h ht).1 e1)
    | move x t pos =>
      simp only [call] at e
      split at e
      · rename_i node target hx ht
        cases e1 : move cfg db node target pos with
        | error er => rw [e1] at e; cases e
        | ok res =>
          rw [e1] at e; cases e
          exact listen_move (move_feeds hi (row_of h hx).1 (row_of h ht).1 e1)
      · cases e
    | delete S =>
      simp only [call] at e
      cases e
      exact listen_feeds (delete_feeds _)
  unfold step events
  rw [exec_eq_call]
  cases e : call cfg db op with
  | error er => rfl
  | ok res => exact key res.1 res.2 e

/-- **C50.** A store that starts with the paths of a consistent table and is told of every call of a history holds, after every
history, the paths of the table: whatever the operations and their values, with or without `node_order_by`. -/
theorem C50_history (ops : List Op) : ∀ {db : DB}, Consistent db →
    (runOps cfg db ops).rows.map Row.entry = (feed cfg db ops).foldl listen (db.rows.map Row.entry) := by
  induction ops with
  | nil => intro db _; rfl
  | cons op ops ih =>
    intro db h
    have h1 : runOps cfg db (op :: ops) = runOps cfg (step cfg db op) ops := rfl
    rw [h1, ih (step_consistent h op), feed, List.foldl_append, C50_call h op]

/-- From the empty table, with a store that knows nothing. -/
theorem C50_history_empty (ops : List Op) :
    (runOps cfg { rows := [] } ops).rows.map Row.entry = (feed cfg { rows := [] } ops).foldl listen [] :=
  C50_history ops empty_consistent

/-- The history of C35 sends signals of all three kinds, and the store holds what the table holds. -/
example : (feed ⟨[]⟩ { rows := [] } exOps).any (fun e => match e with | .sig (.movedRight ..) => true | _ => false) = true ∧
    (feed ⟨[]⟩ { rows := [] } exOps).any (fun e => match e with | .sig (.moved ..) => true | _ => false) = true ∧
    (feed ⟨[]⟩ { rows := [] } exOps).any (fun e => match e with | .sig (.nodesDeleted ..) => true | _ => false) = true ∧
    (feed ⟨[]⟩ { rows := [] } exOps).foldl listen [] =
      [⟨1, [[65, 65]]⟩, ⟨2, [[65, 48, 65], [65], [65]]⟩, ⟨3, [[65, 48, 65]]⟩, ⟨4, [[48, 65]]⟩, ⟨5, [[65, 48, 65], [65]]⟩] := by decide

end Verif.LT
