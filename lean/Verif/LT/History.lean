/-
Histories of operations on the ltree backend.
-/
import Verif.Props.LTTree
import Verif.NearForest
import Verif.SpecSortedHistory
import Mathlib.Data.List.Perm.Subperm
import Mathlib.Data.List.Dedup

namespace Verif.LT

/-- One operation on freshly fetched nodes.  A missing node or target raises when it is fetched, a used key when the
row is inserted. -/
def exec (cfg : Cfg) (db : DB) : Op → Except Err DB
  | .addRoot k v => match db.get? k with
    | some _ => .error .integrity
    | none => (addRoot cfg db ⟨k, [], v⟩).map (·.1)
  | .addChild t k v => match db.get? k, db.get? t with
    | _, none => .error .doesNotExist
    | some _, _ => .error .integrity
    | none, some target => (addChild cfg db target ⟨k, [], v⟩).map (·.1)
  | .addSibling t pos k v => match db.get? k, db.get? t with
    | _, none => .error .doesNotExist
    | some _, _ => .error .integrity
    | none, some target => (addSibling cfg db target pos ⟨k, [], v⟩).map (·.1)
  | .move x t pos => match db.get? x, db.get? t with
    | some node, some target => (move cfg db node target pos).map (·.1)
    | _, _ => .error .doesNotExist
  | .delete S => .ok (delete db (fun r => S.contains r.pk))

/-- A call that raises leaves the table as it was (the operations run in `transaction.atomic`). -/
def step (cfg : Cfg) (db : DB) (op : Op) : DB :=
  match exec cfg db op with
  | .ok db' => db'
  | .error _ => db

/-- a whole history -/
def runOps (cfg : Cfg) (db : DB) (ops : List Op) : DB := ops.foldl (step cfg) db

variable {cfg : Cfg} {db : DB}

theorem row_of (h : Consistent db) {k : Nat} {r : Row} (e : db.get? k = some r) : r ∈ db.rows ∧ r.pk = k :=
  (get?_eq_some h.inv.inv).1 e

theorem fresh_of {k : Nat} {v : Vals} (e : db.get? k = none) : Fresh db ⟨k, [], v⟩ := get?_eq_none.1 e

/-! ### Full groups of siblings -/

/-- the labels of one or two letters -/
def shortLabels : List Label := upper.map (fun c => [c]) ++ upper.flatMap (fun c => upper.map (fun d => [c, d]))

theorem shortLabels_nodup : shortLabels.Nodup := by
  have hu : upper.Nodup := by decide
  unfold shortLabels
  rw [List.nodup_append]
  refine ⟨?_, ?_, ?_⟩
  · rw [List.nodup_iff_pairwise_ne, List.pairwise_map]
    exact hu.imp (fun h e => h (by simpa using e))
  · rw [List.nodup_iff_pairwise_ne, List.pairwise_flatMap]
    refine ⟨fun c _ => ?_, ?_⟩
    · rw [List.pairwise_map]
      exact hu.imp (fun h e => h (by simpa using e))
    · refine hu.imp (fun h x hx y hy e => h ?_)
      obtain ⟨d, _, rfl⟩ := List.mem_map.1 hx
      obtain ⟨d', _, rfl⟩ := List.mem_map.1 hy
      simp only [List.cons.injEq] at e
      exact e.1
  · intro x hx y hy e
    obtain ⟨c, _, rfl⟩ := List.mem_map.1 hx
    obtain ⟨c', _, hy⟩ := List.mem_flatMap.1 hy
    obtain ⟨d', _, rfl⟩ := List.mem_map.1 hy
    simp at e

theorem shortLabels_length : shortLabels.length = 702 := by
  have hu : upper.length = 26 := rfl
  simp [shortLabels, List.length_flatMap, hu]

/-- a full group has at least 702 members -/
theorem full_length (h : Consistent db) {p : Option Nat} (hf : Full db p) : 702 ≤ (forest db p).length := by
  have hb : ∀ c ∈ upper, 65 ≤ c ∧ c ≤ 90 := by decide
  let label : Nat → Label := fun k => match db.get? k with | some r => lastLabel r.path | none => []
  have hl : ∀ r ∈ db.rows, label r.pk = lastLabel r.path := by
    intro r hr
    show (match db.get? r.pk with | some r => lastLabel r.path | none => []) = _
    rw [(get?_eq_some h.inv.inv).2 ⟨hr, rfl⟩]
  have hsub : shortLabels ⊆ (forest db p).map label := by
    intro l hl'
    rcases List.mem_append.1 hl' with hl' | hl'
    · obtain ⟨c, hc, rfl⟩ := List.mem_map.1 hl'
      obtain ⟨⟨r, hr, hm, e⟩, _⟩ := hf c (hb c hc).1 (hb c hc).2
      exact List.mem_map.2 ⟨r.pk, hm, by rw [hl r hr, e]⟩
    · obtain ⟨c, hc, hl'⟩ := List.mem_flatMap.1 hl'
      obtain ⟨d, hd, rfl⟩ := List.mem_map.1 hl'
      obtain ⟨r, hr, hm, e⟩ := (hf c (hb c hc).1 (hb c hc).2).2 d (hb d hd).1 (hb d hd).2
      exact List.mem_map.2 ⟨r.pk, hm, by rw [hl r hr, e]⟩
  have := (List.subperm_of_subset shortLabels_nodup hsub).length_le
  rwa [shortLabels_length, List.length_map] at this

/-! ### Consistency -/

theorem addition_consistent {S : List Row} {pre : Path} {new : Row} {p : Option Nat} {out : Except Err (DB × Row)}
    (ha : SortedAddition cfg db S pre new p out) : ∃ r : Except Err DB, out.map (·.1) = r ∧ ∀ db', r = .ok db' → Consistent db' := by
  refine ⟨_, rfl, ?_⟩
  rcases ha with ⟨b, _, db', obj, e, ha⟩ | ⟨_, ⟨db', l, s, e, ha, _⟩ | ⟨e, _⟩⟩
  · rw [e]; rintro _ ⟨⟩; exact consistent_iff.2 ha.inv
  · rw [e]; rintro _ ⟨⟩; exact consistent_iff.2 ha.inv
  · rw [e]; rintro _ ⟨⟩

/-- a refused position raises -/
theorem addSibling_error {t new : Row} {posArg : Option Pos} {er : Err} (hp : preparePosForAddSibling cfg.ordered posArg = .error er) :
    addSibling cfg db t posArg new = .error er := by
  unfold addSibling addSiblingIn; rw [hp]; rfl

theorem move_error {x t : Row} {posArg : Option Pos} {er : Err} (hp : preparePosForMove cfg.ordered posArg = .error er) :
    move cfg db x t posArg = .error er := by
  unfold move; rw [hp]; rfl

/-- Every operation, with and without `node_order_by`, whatever the values, keeps the table consistent. -/
theorem exec_consistent (h : Consistent db) (op : Op) {db' : DB} (e : exec cfg db op = .ok db') : Consistent db' := by
  cases op with
  | addRoot k v =>
    simp only [exec] at e
    cases e0 : db.get? k with
    | some r => rw [e0] at e; cases e
    | none =>
      rw [e0] at e
      dsimp only at e
      cases ho : cfg.ordered with
      | false =>
        rcases C36_add_root_partial ho h (fresh_of e0 (v := v)) with ⟨db1, obj, s, e1, ha, _⟩ | ⟨e1, _⟩
        · rw [e1] at e; cases e; exact ha.consistent
        · rw [e1] at e; cases e
      | true =>
        obtain ⟨r, e1, hr⟩ := addition_consistent (addRoot_sorted ho h.inv (fresh_of e0 (v := v)))
        exact hr db' (by rw [← e1]; exact e)
  | addChild t k v =>
    simp only [exec] at e
    cases e1 : db.get? t with
    | none => rw [e1] at e; cases e2 : db.get? k <;> rw [e2] at e <;> cases e
    | some target =>
      cases e0 : db.get? k with
      | some r => rw [e0, e1] at e; cases e
      | none =>
        rw [e0, e1] at e
        dsimp only at e
        obtain ⟨ht, htk⟩ := row_of h e1
        cases ho : cfg.ordered with
        | false =>
          obtain ⟨db1, obj, e2, ha⟩ := C36_add_child ho h ht (fresh_of e0 (v := v))
          rw [e2] at e; cases e; exact ha.consistent
        | true =>
          obtain ⟨r, e2, hr⟩ := addition_consistent (addChild_sorted ho h.inv ht (fresh_of e0 (v := v)))
          exact hr db' (by rw [← e2]; exact e)
  | addSibling t pos k v =>
    simp only [exec] at e
    cases e1 : db.get? t with
    | none => rw [e1] at e; cases e2 : db.get? k <;> rw [e2] at e <;> cases e
    | some target =>
      cases e0 : db.get? k with
      | some r => rw [e0, e1] at e; cases e
      | none =>
        rw [e0, e1] at e
        dsimp only at e
        obtain ⟨ht, htk⟩ := row_of h e1
        cases hp : preparePosForAddSibling cfg.ordered pos with
        | error er => rw [addSibling_error hp] at e; cases e
        | ok q =>
          cases ho : cfg.ordered with
          | false =>
            rw [ho] at hp
            obtain ⟨p, _, db1, obj, e2, ha, _⟩ := C36_add_sibling_partial ho h ht hp (fresh_of e0 (v := v))
            rw [e2] at e; cases e; exact ha.consistent
          | true =>
            rw [ho] at hp
            obtain ⟨rfl, _⟩ := prepAddSorted_arg hp
            obtain ⟨r, e2, hr⟩ := addition_consistent (addSiblingIn_sorted ho h.inv ht hp (fresh_of e0 (v := v)))
            exact hr db' (by rw [← e2]; exact e)
  | move x t pos =>
    simp only [exec] at e
    cases e1 : db.get? t with
    | none => rw [e1] at e; cases e2 : db.get? x <;> rw [e2] at e <;> cases e
    | some target =>
      cases e0 : db.get? x with
      | none => rw [e0, e1] at e; cases e
      | some node =>
        rw [e0, e1] at e
        dsimp only at e
        obtain ⟨ht, htk⟩ := row_of h e1
        obtain ⟨hx, hxk⟩ := row_of h e0
        cases hp : preparePosForMove cfg.ordered pos with
        | error er => rw [move_error hp] at e; cases e
        | ok q =>
          by_cases hr : (forest db).MoveRefused node.pk target.pk q
          · rw [C08_lt h hx ht hp hr] at e; cases e
          · cases ho : cfg.ordered with
            | false =>
              rw [ho] at hp
              obtain ⟨p, _, db1, obj, e2, hm, _⟩ := C36_move_partial ho h hx ht hp hr
              rw [e2] at e; cases e; exact hm.consistent
            | true =>
              rw [ho] at hp
              rw [forest_eq h.inv.inv] at hr
              rcases move_sorted ho h.inv hx ht hp hr with ⟨b, _, s, db1, obj, e2, hm, _⟩ | ⟨_, ⟨db1, l, s, e2, hm, _⟩ | ⟨e2, _⟩⟩
              · rw [e2] at e; cases e; exact consistent_iff.2 hm.inv
              · rw [e2] at e; cases e; exact consistent_iff.2 hm.inv
              · rw [e2] at e; cases e
  | delete S =>
    simp only [exec] at e
    cases e
    obtain ⟨D, _, hc, _⟩ := C37_delete h S.contains
    exact hc

theorem step_consistent (h : Consistent db) (op : Op) : Consistent (step cfg db op) := by
  unfold step
  cases e : exec cfg db op with
  | ok db' => exact exec_consistent h op e
  | error er => exact h

/-! ### Parents -/

/-- the table shows the nodes and the parents of the abstract tree, siblings in any order -/
structure AbsNear (db : DB) (ids : List Nat) (F : Forest) : Prop where
  forest : F.Near (forest db)
  ids : ∀ k, k ∈ db.rows.map Row.pk ↔ k ∈ ids

/-- the table shows the abstract tree -/
def Abs (db : DB) (s : Tree) : Prop := ShowsTree (forest db) (db.rows.map Row.pk) s

theorem Abs.near {s : Tree} (h : Abs db s) : AbsNear db s.ids s.F := ⟨by rw [h.forest]; exact .refl _, h.ids⟩

variable {ids : List Nat} {F : Forest}

theorem AbsNear.mem (ha : AbsNear db ids F) (h : Consistent db) (k : Nat) : k ∈ ids ↔ ∃ r, db.get? k = some r := by
  rw [← ha.ids]
  constructor
  · intro hm
    obtain ⟨r, hr, rfl⟩ := List.mem_map.1 hm
    exact ⟨r, (get?_eq_some h.inv.inv).2 ⟨hr, rfl⟩⟩
  · rintro ⟨r, e⟩
    obtain ⟨hr, rfl⟩ := (get?_eq_some h.inv.inv).1 e
    exact List.mem_map_of_mem hr

theorem mem_keys (h : Consistent db) {p : Option Nat} {k : Nat} (hk : k ∈ forest db p) : k ∈ db.rows.map Row.pk := by
  have := forest_keys h.inv.inv hk
  rwa [keys_eq] at this

theorem parent_unique (h : Consistent db) {p q : Option Nat} {k : Nat} (h1 : k ∈ forest db p) (h2 : k ∈ forest db q) : p = q := by
  obtain ⟨r, hr, rfl⟩ := List.mem_map.1 (mem_keys h h1)
  rw [← (mem_forest h.inv.inv hr).1 h1, ← (mem_forest h.inv.inv hr).1 h2]

theorem AbsNear.parent (ha : AbsNear db ids F) (h : Consistent db) {p : Option Nat} {t : Nat} (ht : t ∈ LT.forest db p) :
    Tree.parent ⟨ids, F⟩ t = p := by
  refine Tree.parent_near (s := ⟨ids, F⟩) (F := LT.forest db) (ids := db.rows.map Row.pk) ?_ ?_ ha.forest ha.ids ht
  · intro p q k h1 h2; exact parent_unique h h1 h2
  · intro q k hk
    obtain ⟨r, hr, rfl⟩ := List.mem_map.1 (mem_keys h hk)
    have hp := (mem_forest h.inv.inv hr).1 hk
    obtain ⟨p, hm, e⟩ := Option.map_eq_some_iff.1 hp
    rw [← e]
    exact List.mem_map_of_mem (List.mem_of_find?_eq_some hm)

theorem AddedNear.keys {db' : DB} {obj new : Row} {p : Option Nat} {sl : Slot} (h : AddedNear db db' obj new p sl) :
    db'.rows.map Row.pk = db.rows.map Row.pk ++ [new.pk] := by
  rw [← keys_eq, h.data, List.map_append, keys_eq]; rfl

theorem absNear_added (ha : AbsNear db ids F) (h : Consistent db) {db' : DB} {obj new : Row} (hf : Fresh db new) {p : Option Nat}
    {sl sl' : Slot} (hadd : AddedNear db db' obj new p sl) (hs : sl'.In (F p)) {ids' : List Nat} (hi : ∀ k, k ∈ ids' ↔ k = new.pk ∨ k ∈ ids) :
    AbsNear db' ids' (F.put p sl' new.pk) := by
  refine ⟨ha.forest.added (fun hm => ?_) hadd.near hs, fun k => ?_⟩
  · obtain ⟨r, hr, e⟩ := List.mem_map.1 (mem_keys h hm)
    exact hf r hr e
  · rw [hadd.keys, List.mem_append, ha.ids, List.mem_singleton, or_comm]
    exact (hi k).symm

/-- what `delete` does to the nodes and the parents -/
theorem absNear_delete (ha : AbsNear db ids F) (h : Consistent db) (S : List Nat) {ids' : List Nat} {D : Nat → Bool}
    (hD : ∀ k, D k = true ↔ k ∈ ids ∧ Tree.Doomed F S.contains k) (hi : ∀ k, k ∈ ids' ↔ k ∈ ids ∧ ¬ Tree.Doomed F S.contains k) :
    AbsNear (delete db (fun r => S.contains r.pk)) ids' (F.prune D) := by
  obtain ⟨D', hD', _, hf, hrows⟩ := C37_delete h S.contains
  have : D' = D := by
    funext k
    rw [Bool.eq_iff_iff, hD', hD, ha.ids, ha.forest.doomed]
  subst this
  refine ⟨by rw [hf]; exact ha.forest.prune _, fun k => ?_⟩
  have h1 : (delete db (fun r => S.contains r.pk)).rows.map Row.pk = (db.rows.map Row.pk).filter (fun k => !D' k) := by
    rw [hrows, List.filter_map]; rfl
  rw [h1, List.mem_filter, ha.ids, hi]
  refine and_congr_right (fun hk => ?_)
  rw [Bool.not_eq_true', Bool.eq_false_iff, Ne, hD]
  simp [hk]

/-- One operation without `node_order_by`: the nodes and parents are those asked for, if `add_root` finds a label. -/
theorem step_near (ho : cfg.ordered = false) (h : Consistent db) (op : Op) {s : Tree} (ha : AbsNear db s.ids s.F)
    (hg : (s.F none).length < 702) : AbsNear (step cfg db op) (s.step op).ids (s.step op).F := by
  have hmem := ha.mem h
  cases op with
  | addRoot k v =>
    simp only [step, exec, Tree.step]
    cases e : db.get? k with
    | some r => rw [if_pos ((hmem k).2 ⟨r, e⟩)]; exact ha
    | none =>
      rw [if_neg (fun hk => by obtain ⟨r, e'⟩ := (hmem k).1 hk; rw [e] at e'; cases e')]
      rcases addRoot_unsorted ho h.inv (fresh_of e (v := v)) with ⟨db', l, sl, e', hadd, _⟩ | ⟨e', _⟩
      · rw [e']
        exact absNear_added ha h (fresh_of e (v := v)) (.of h.inv hadd) (sl' := .last) trivial (fun _ => List.mem_cons)
      · rcases C36_add_root_partial ho h (fresh_of e (v := v)) with ⟨db', obj, sl, e'', _⟩ | ⟨_, hfull⟩
        · rw [e'] at e''; cases e''
        · have := full_length h hfull
          rw [(ha.forest none).length_eq] at this
          omega
  | addChild t k v =>
    simp only [step, exec, Tree.step]
    cases e1 : db.get? t with
    | none =>
      rw [if_pos (Or.inr (fun hk => by obtain ⟨r, e'⟩ := (hmem t).1 hk; rw [e1] at e'; cases e'))]
      cases db.get? k <;> exact ha
    | some target =>
      cases e : db.get? k with
      | some r => rw [if_pos (Or.inl ((hmem k).2 ⟨r, e⟩))]; exact ha
      | none =>
        rw [if_neg (by
          rintro (hk | hk)
          · obtain ⟨r, e'⟩ := (hmem k).1 hk; rw [e] at e'; cases e'
          · exact hk ((hmem t).2 ⟨target, e1⟩))]
        dsimp only
        obtain ⟨ht, htk⟩ := row_of h e1
        obtain ⟨db', obj, e', hadd⟩ := addChild_unsorted ho h.inv ht (fresh_of e (v := v))
        rw [e']
        rw [htk] at hadd
        exact absNear_added ha h (fresh_of e (v := v)) (.of h.inv hadd) (sl' := .last) trivial (fun _ => List.mem_cons)
  | addSibling t pos k v =>
    simp only [step, exec, Tree.step]
    cases e1 : db.get? t with
    | none =>
      rw [if_pos (Or.inr (fun hk => by obtain ⟨r, e'⟩ := (hmem t).1 hk; rw [e1] at e'; cases e'))]
      cases db.get? k <;> exact ha
    | some target =>
      cases e : db.get? k with
      | some r => rw [if_pos (Or.inl ((hmem k).2 ⟨r, e⟩))]; exact ha
      | none =>
        rw [if_neg (by
          rintro (hk | hk)
          · obtain ⟨r, e'⟩ := (hmem k).1 hk; rw [e] at e'; cases e'
          · exact hk ((hmem t).2 ⟨target, e1⟩))]
        dsimp only
        obtain ⟨ht, htk⟩ := row_of h e1
        cases hp : preparePosForAddSibling false pos with
        | error er =>
          rw [addSibling_error (by rw [ho]; exact hp)]; exact ha
        | ok q =>
          obtain ⟨p, hm, db', obj, e', hadd, _⟩ := C36_add_sibling_partial ho h ht hp (fresh_of e (v := v))
          rw [e']
          rw [htk] at hadd hm
          simp only
          rw [show s.parent t = p from ha.parent h hm]
          refine absNear_added ha h (fresh_of e (v := v)) hadd ?_ (fun _ => List.mem_cons)
          have hm' := ha.forest.mem.1 hm
          cases q <;> trivial
  | move x t pos =>
    simp only [step, exec, Tree.step]
    cases e1 : db.get? t with
    | none =>
      rw [if_pos (Or.inr (fun hk => by obtain ⟨r, e'⟩ := (hmem t).1 hk; rw [e1] at e'; cases e'))]
      cases db.get? x <;> exact ha
    | some target =>
      cases e : db.get? x with
      | none =>
        rw [if_pos (Or.inl (fun hk => by obtain ⟨r, e'⟩ := (hmem x).1 hk; rw [e] at e'; cases e'))]
        exact ha
      | some node =>
        rw [if_neg (by
          rintro (hk | hk)
          · exact hk ((hmem x).2 ⟨node, e⟩)
          · exact hk ((hmem t).2 ⟨target, e1⟩))]
        dsimp only
        obtain ⟨ht, htk⟩ := row_of h e1
        obtain ⟨hx, hxk⟩ := row_of h e
        cases hp : preparePosForMove false pos with
        | error er => rw [move_error (by rw [ho]; exact hp)]; exact ha
        | ok q =>
          simp only
          by_cases hr : (forest db).MoveRefused node.pk target.pk q
          · rw [C08_lt h hx ht (by rw [ho]; exact hp) hr]
            rw [hxk, htk, ha.forest.moveRefused] at hr
            rw [if_pos hr]
            exact ha
          · obtain ⟨p, hm, db', obj, e', hmv, _⟩ := C36_move_partial ho h hx ht hp hr
            rw [hxk, htk, ha.forest.moveRefused] at hr
            rw [if_neg hr]
            rw [htk] at hm hmv
            rw [hxk] at hmv
            rw [show s.parent t = p from ha.parent h hm]
            rw [e']
            exact ⟨(ha.forest.moveAsked (ha.forest.mem.1 hm)).trans hmv.near.near, fun k => by rw [← ha.ids, ← keys_eq, ← keys_eq]; exact Iff.of_eq (congrArg (fun d => k ∈ d.map Prod.fst) hmv.data)⟩
  | delete S =>
    classical
    refine absNear_delete ha h S ?_ ?_
    · intro k; simp
    · intro k; simp [Tree.step]

/-! ### Exact histories -/

/-- The operation is one that LT carries out exactly: `add_root` finds a label that comes after those of the other roots, and a place that
is not the last one is among tidy labels. -/
def Smooth (cfg : Cfg) (db : DB) : Op → Prop
  | .addRoot k v => ∃ db' obj, addRoot cfg db ⟨k, [], v⟩ = .ok (db', obj) ∧ ∀ r ∈ db.rows, r.pk ∈ forest db none → r.path < obj.path
  | .addSibling t pos _ _ => pos = some .lastSibling ∨ ∀ p, t ∈ forest db p → TidyLabels db p
  | .move _ t pos => pos = some .lastSibling ∨ pos = some .lastChild ∨
    ∀ p q, t ∈ forest db p → preparePosForMove false pos = .ok q → TidyLabels db (q.dest p t)
  | _ => True

theorem abs_added {s : Tree} (ha : Abs db s) {db' : DB} {obj new : Row} {p : Option Nat} {sl : Slot} (h : AddedAt db db' obj new p sl) :
    Abs db' ⟨new.pk :: s.ids, s.F.put p sl new.pk⟩ := by
  refine ⟨by rw [h.forest, ha.forest], fun k => ?_⟩
  have : db'.rows.map Row.pk = db.rows.map Row.pk ++ [new.pk] := by
    rw [← keys_eq, h.data, List.map_append, keys_eq]; rfl
  rw [this, List.mem_append, ha.ids, List.mem_singleton, or_comm]
  exact List.mem_cons.symm

/-- One smooth operation without `node_order_by`: the table shows what the operation asked for. -/
theorem step_exact (ho : cfg.ordered = false) (h : Consistent db) (op : Op) {s : Tree} (ha : Abs db s) (hg : Smooth cfg db op) :
    Abs (step cfg db op) (s.step op) := by
  have hn := ha.near
  have hmem := hn.mem h
  cases op with
  | addRoot k v =>
    simp only [step, exec, Tree.step]
    cases e : db.get? k with
    | some r => rw [if_pos ((hmem k).2 ⟨r, e⟩)]; exact ha
    | none =>
      rw [if_neg (fun hk => by obtain ⟨r, e'⟩ := (hmem k).1 hk; rw [e] at e'; cases e')]
      obtain ⟨db1, obj1, e1, hlt⟩ := hg
      rcases C36_add_root_partial ho h (fresh_of e (v := v)) with ⟨db', obj, sl, e', hadd, hl⟩ | ⟨e', _⟩
      · rw [e1] at e'
        cases e'
        rw [e1]
        have := hl hlt
        subst this
        exact abs_added ha hadd
      · rw [e1] at e'; cases e'
  | addChild t k v =>
    simp only [step, exec, Tree.step]
    cases e1 : db.get? t with
    | none =>
      rw [if_pos (Or.inr (fun hk => by obtain ⟨r, e'⟩ := (hmem t).1 hk; rw [e1] at e'; cases e'))]
      cases db.get? k <;> exact ha
    | some target =>
      cases e : db.get? k with
      | some r => rw [if_pos (Or.inl ((hmem k).2 ⟨r, e⟩))]; exact ha
      | none =>
        rw [if_neg (by
          rintro (hk | hk)
          · obtain ⟨r, e'⟩ := (hmem k).1 hk; rw [e] at e'; cases e'
          · exact hk ((hmem t).2 ⟨target, e1⟩))]
        dsimp only
        obtain ⟨ht, htk⟩ := row_of h e1
        obtain ⟨db', obj, e', hadd⟩ := C36_add_child ho h ht (fresh_of e (v := v))
        rw [e']
        rw [htk] at hadd
        exact abs_added ha hadd
  | addSibling t pos k v =>
    simp only [step, exec, Tree.step]
    cases e1 : db.get? t with
    | none =>
      rw [if_pos (Or.inr (fun hk => by obtain ⟨r, e'⟩ := (hmem t).1 hk; rw [e1] at e'; cases e'))]
      cases db.get? k <;> exact ha
    | some target =>
      cases e : db.get? k with
      | some r => rw [if_pos (Or.inl ((hmem k).2 ⟨r, e⟩))]; exact ha
      | none =>
        rw [if_neg (by
          rintro (hk | hk)
          · obtain ⟨r, e'⟩ := (hmem k).1 hk; rw [e] at e'; cases e'
          · exact hk ((hmem t).2 ⟨target, e1⟩))]
        dsimp only
        obtain ⟨ht, htk⟩ := row_of h e1
        cases hp : preparePosForAddSibling false pos with
        | error er =>
          rw [addSibling_error (by rw [ho]; exact hp)]; exact ha
        | ok q =>
          obtain ⟨p, hm, db', obj, e', _, hadd⟩ := C36_add_sibling_partial ho h ht hp (fresh_of e (v := v))
          rw [e']
          rw [htk] at hadd hm
          simp only
          rw [show s.parent t = p from hn.parent h hm]
          refine abs_added ha (hadd ?_)
          rcases hg with rfl | hg
          · left; cases hp; rfl
          · exact Or.inr (hg p hm)
  | move x t pos =>
    simp only [step, exec, Tree.step]
    cases e1 : db.get? t with
    | none =>
      rw [if_pos (Or.inr (fun hk => by obtain ⟨r, e'⟩ := (hmem t).1 hk; rw [e1] at e'; cases e'))]
      cases db.get? x <;> exact ha
    | some target =>
      cases e : db.get? x with
      | none =>
        rw [if_pos (Or.inl (fun hk => by obtain ⟨r, e'⟩ := (hmem x).1 hk; rw [e] at e'; cases e'))]
        exact ha
      | some node =>
        rw [if_neg (by
          rintro (hk | hk)
          · exact hk ((hmem x).2 ⟨node, e⟩)
          · exact hk ((hmem t).2 ⟨target, e1⟩))]
        dsimp only
        obtain ⟨ht, htk⟩ := row_of h e1
        obtain ⟨hx, hxk⟩ := row_of h e
        cases hp : preparePosForMove false pos with
        | error er => rw [move_error (by rw [ho]; exact hp)]; exact ha
        | ok q =>
          simp only
          by_cases hr : (forest db).MoveRefused node.pk target.pk q
          · rw [C08_lt h hx ht (by rw [ho]; exact hp) hr]
            rw [hxk, htk, ha.forest] at hr
            rw [if_pos hr]
            exact ha
          · obtain ⟨p, hm, db', obj, e', _, hmv⟩ := C36_move_partial ho h hx ht hp hr
            rw [hxk, htk, ha.forest] at hr
            rw [if_neg hr]
            rw [htk] at hm hmv
            have hmv := hmv (by
              rcases hg with rfl | rfl | hg
              · left; cases hp; rfl
              · right; left; cases hp; rfl
              · exact Or.inr (Or.inr (hg p q hm hp)))
            rw [show s.parent t = p from hn.parent h hm]
            rw [e']
            refine ⟨?_, fun k => ?_⟩
            · refine hmv.forest.trans ?_
              rw [hxk, ha.forest]
            · rw [← ha.ids, ← keys_eq, ← keys_eq]
              exact Iff.of_eq (congrArg (fun d => k ∈ d.map Prod.fst) hmv.data)
  | delete S =>
    classical
    obtain ⟨D, hD, hc, hf, hrows⟩ := C37_delete h S.contains
    refine ⟨?_, ?_⟩
    · show forest (delete db (fun r => S.contains r.pk)) = _
      rw [hf]
      simp only [Tree.step]
      rw [ha.forest]
      congr 1
      funext k
      rw [Bool.eq_iff_iff, hD, decide_eq_true_eq, ha.ids, ha.forest]
    · exact (absNear_delete hn h S (ids' := (s.step (.delete S)).ids) (D := fun k => decide (k ∈ s.ids ∧ Tree.Doomed s.F S.contains k))
        (fun k => by simp) (fun k => by simp [Tree.step])).ids

/-! ### Parents with `node_order_by` -/

theorem sortedSlot_in {ob : List (Nat × Bool)} {v : Nat → Vals} {vx : Vals} {l : List Nat} : (sortedSlot ob v vx l).In l := by
  unfold sortedSlot
  split
  · rename_i a e
    exact List.mem_of_find?_eq_some e
  · trivial

/-- a sorted addition, seen from the abstract tree -/
theorem absNear_addedS {s : STree} (ha : AbsNear db s.ids s.F) (h : Consistent db) {new : Row} (hf : Fresh db new) {p : Option Nat}
    {S : List Row} {pre : Path} (hpar : IsPar db.rows pre) (hp : at? db.rows pre = p) {out : Except Err (DB × Row)} {ob : List (Nat × Bool)}
    (hsa : SortedAddition cfg db S pre new p out) (hg : (s.F p).length < 702) :
    ∃ db' obj, out = .ok (db', obj) ∧ AbsNear db' (s.add ob p new.pk new.vals).ids (s.add ob p new.pk new.vals).F := by
  have key : ∀ {db' : DB} {obj : Row} {sl : Slot}, AddedNear db db' obj new p sl →
      AbsNear db' (s.add ob p new.pk new.vals).ids (s.add ob p new.pk new.vals).F := by
    intro db' obj sl hadd
    refine absNear_added ha h hf hadd sortedSlot_in (fun k => ?_)
    show k ∈ (s.data ++ [(new.pk, new.vals)]).map Prod.fst ↔ _
    rw [List.map_append, List.mem_append, List.map_singleton, List.mem_singleton, or_comm]
    rfl
  rcases hsa with ⟨b, _, db', obj, e, hadd⟩ | ⟨_, ⟨db', l, sl, e, hadd, _⟩ | ⟨_, hu⟩⟩
  · exact ⟨db', obj, e, key (.of h.inv hadd)⟩
  · exact ⟨db', _, e, key (.of h.inv hadd)⟩
  · have := full_length h (full_of h.inv.inv hpar hu)
    rw [hp, (ha.forest p).length_eq] at this
    omega

/-- One operation with `node_order_by`, whatever the values: the nodes and parents are those asked for, if labels are left. -/
theorem step_nearS (ho : cfg.ordered = true) (h : Consistent db) (op : Op) {s : STree} (ha : AbsNear db s.ids s.F)
    (hg : ∀ p, (s.F p).length < 702) :
    AbsNear (step cfg db op) (s.step cfg.orderBy op).ids (s.step cfg.orderBy op).F := by
  have hmem := ha.mem h
  have hi := h.inv.inv
  cases op with
  | addRoot k v =>
    simp only [step, exec, STree.step]
    cases e : db.get? k with
    | some r => rw [if_pos ((hmem k).2 ⟨r, e⟩)]; exact ha
    | none =>
      rw [if_neg (fun hk => by obtain ⟨r, e'⟩ := (hmem k).1 hk; rw [e] at e'; cases e')]
      obtain ⟨db', obj, e', hadd⟩ := absNear_addedS (ob := cfg.orderBy) ha h (fresh_of e (v := v)) (Or.inl rfl) (at_nil hi) (addRoot_sorted ho h.inv (fresh_of e (v := v))) (hg _)
      rw [e']
      exact hadd
  | addChild t k v =>
    simp only [step, exec, STree.step]
    cases e1 : db.get? t with
    | none =>
      rw [if_pos (Or.inr (fun hk => by obtain ⟨r, e'⟩ := (hmem t).1 hk; rw [e1] at e'; cases e'))]
      cases db.get? k <;> exact ha
    | some target =>
      cases e : db.get? k with
      | some r => rw [if_pos (Or.inl ((hmem k).2 ⟨r, e⟩))]; exact ha
      | none =>
        rw [if_neg (by
          rintro (hk | hk)
          · obtain ⟨r, e'⟩ := (hmem k).1 hk; rw [e] at e'; cases e'
          · exact hk ((hmem t).2 ⟨target, e1⟩))]
        dsimp only
        obtain ⟨ht, htk⟩ := row_of h e1
        obtain ⟨db', obj, e', hadd⟩ := absNear_addedS (ob := cfg.orderBy) ha h (fresh_of e (v := v)) (Or.inr ⟨target, ht, rfl⟩) (at_of hi ht)
          (addChild_sorted ho h.inv ht (fresh_of e (v := v))) (hg _)
        rw [e']
        rw [htk] at hadd
        exact hadd
  | addSibling t pos k v =>
    simp only [step, exec, STree.step]
    cases e1 : db.get? t with
    | none =>
      rw [if_pos (Or.inr (fun hk => by obtain ⟨r, e'⟩ := (hmem t).1 hk; rw [e1] at e'; cases e'))]
      cases db.get? k <;> exact ha
    | some target =>
      cases e : db.get? k with
      | some r => rw [if_pos (Or.inl ((hmem k).2 ⟨r, e⟩))]; exact ha
      | none =>
        rw [if_neg (by
          rintro (hk | hk)
          · obtain ⟨r, e'⟩ := (hmem k).1 hk; rw [e] at e'; cases e'
          · exact hk ((hmem t).2 ⟨target, e1⟩))]
        dsimp only
        obtain ⟨ht, htk⟩ := row_of h e1
        cases hp : preparePosForAddSibling true pos with
        | error er =>
          rw [addSibling_error (by rw [ho]; exact hp)]; exact ha
        | ok q =>
          obtain ⟨rfl, _⟩ := prepAddSorted_arg hp
          have hpar := IsPar.drop hi ht
          have hpt := (par_iff hi hpar ht).2 rfl
          obtain ⟨db', obj, e', hadd⟩ := absNear_addedS (ob := cfg.orderBy) ha h (fresh_of e (v := v)) hpar hpt.symm
            (addSiblingIn_sorted ho h.inv ht hp (fresh_of e (v := v))) (hg _)
          rw [show addSibling cfg db target pos ⟨k, [], v⟩ = _ from e']
          simp only
          rw [show s.parent t = par db.rows target from ha.parent h (by rw [← htk]; exact (mem_forest hi ht).2 rfl)]
          exact hadd
  | move x t pos =>
    simp only [step, exec, STree.step]
    cases e1 : db.get? t with
    | none =>
      rw [if_pos (Or.inr (fun hk => by obtain ⟨r, e'⟩ := (hmem t).1 hk; rw [e1] at e'; cases e'))]
      cases db.get? x <;> exact ha
    | some target =>
      cases e : db.get? x with
      | none =>
        rw [if_pos (Or.inl (fun hk => by obtain ⟨r, e'⟩ := (hmem x).1 hk; rw [e] at e'; cases e'))]
        exact ha
      | some node =>
        rw [if_neg (by
          rintro (hk | hk)
          · exact hk ((hmem x).2 ⟨node, e⟩)
          · exact hk ((hmem t).2 ⟨target, e1⟩))]
        dsimp only
        obtain ⟨ht, htk⟩ := row_of h e1
        obtain ⟨hx, hxk⟩ := row_of h e
        cases hp : preparePosForMove true pos with
        | error er => rw [move_error (by rw [ho]; exact hp)]; exact ha
        | ok q =>
          simp only
          by_cases hr : (forest db).MoveRefused node.pk target.pk q
          · rw [C08_lt h hx ht (by rw [ho]; exact hp) hr]
            rw [hxk, htk, ha.forest.moveRefused] at hr
            rw [if_pos hr]
            exact ha
          · have hr' := hr
            rw [forest_eq hi] at hr'
            have hm := move_sorted ho h.inv hx ht hp hr'
            rw [hxk, htk, ha.forest.moveRefused] at hr
            rw [if_neg hr]
            rw [show s.parent t = par db.rows target from ha.parent h (by rw [← htk]; exact (mem_forest hi ht).2 rfl)]
            have hpar : IsPar db.rows (if isChildPos q then target.path else target.path.dropLast) := by
              split
              · exact Or.inr ⟨target, ht, rfl⟩
              · exact IsPar.drop hi ht
            have hd := dest_eq hi ht q
            have key : ∀ {db' : DB} {obj : Row} {sl : Slot} {C : Prop},
                Moved db db' obj node ((PF db.rows).move node.pk (q.dest (par db.rows target) target.pk) sl) (q.dest (par db.rows target) target.pk) C →
                AbsNear db' s.ids (s.F.move x (q.dest (par db.rows target) t)
                  (sortedSlot cfg.orderBy (valsIn s.data) (valsIn s.data x) (s.F.remove x (q.dest (par db.rows target) t)))) := by
              intro db' obj sl C hmv
              have hmv := MovedNear.of hmv
              rw [← forest_eq hi, hxk, htk] at hmv
              have hnear := hmv.near
              rw [hxk] at hnear
              refine ⟨ha.forest.moved hnear sortedSlot_in, fun k => ?_⟩
              rw [← ha.ids, ← keys_eq, ← keys_eq]
              exact Iff.of_eq (congrArg (fun d => k ∈ d.map Prod.fst) hmv.data)
            rcases hm with ⟨b, _, sl, db', obj, e', hmv, _⟩ | ⟨_, ⟨db', l, sl, e', hmv, _⟩ | ⟨_, hu⟩⟩
            · rw [e']; exact key hmv
            · rw [e']; exact key hmv
            · have := full_length h (full_of hi hpar hu)
              rw [(ha.forest _).length_eq] at this
              exact absurd this (Nat.not_le.2 (hg _))
  | delete S =>
    classical
    refine absNear_delete ha h S ?_ ?_
    · intro k; simp
    · intro k
      simp only [STree.step, STree.ids, List.mem_map, List.mem_filter]
      constructor
      · rintro ⟨e, ⟨he, hd⟩, rfl⟩
        exact ⟨⟨e, he, rfl⟩, by simpa using hd⟩
      · rintro ⟨⟨e, he, rfl⟩, hd⟩
        exact ⟨e, ⟨he, by simpa using hd⟩, rfl⟩

theorem empty_consistent {sigs : List Sig} : Consistent ⟨[], sigs⟩ := ⟨by simp, by simp, by simp, by simp⟩

end Verif.LT
