/-
C31, and the AL parts of C08 and C16: the operations of the adjacency list backend.
-/
import Verif.AL.Example

namespace Verif.AL

variable {cfg : Cfg} {db : DB}

/-! ### Vocabulary -/

/-- A well-formed table: keys are unique, every parent exists, and following the parents ends at a root (every node is at
some level). -/
structure Wf (cfg : Cfg) (db : DB) : Prop where
  pks : (db.rows.map Row.pk).Nodup
  exist : ∀ r ∈ db.rows, ∀ p, r.parent = some p → ∃ q ∈ db.rows, q.pk = p
  ends : ∀ r ∈ db.rows, ∃ n, (forest cfg db).Level r.pk n

/-- A consistent table without `node_order_by`: well formed, positions start at 1 and no two siblings have the same
position. -/
structure Consistent (cfg : Cfg) (db : DB) : Prop extends Wf cfg db where
  sib : ∀ r ∈ db.rows, 1 ≤ r.sib
  clash : ∀ a ∈ db.rows, ∀ b ∈ db.rows, a ≠ b → a.parent = b.parent → a.sib ≠ b.sib

theorem wf_of_ai (h : AI db.rows) : Wf cfg db := by
  refine ⟨h.pks, h.exist, ?_⟩
  intro r hr
  obtain ⟨l, hc⟩ := chain_exists h hr
  exact ⟨_, by rw [forest_eq h]; exact hc.level⟩

/-- levels are unique as soon as parents are -/
theorem Level.uniq {F : Forest} (hu : ∀ p q k, k ∈ F p → k ∈ F q → p = q) {k n m : Nat} (h1 : F.Level k n) (h2 : F.Level k m) : n = m := by
  induction h1 generalizing m with
  | root hr =>
    cases h2 with
    | root => rfl
    | child _ hm => cases hu _ _ _ hr hm
  | child _ hm ih =>
    cases h2 with
    | root hr => cases hu _ _ _ hr hm
    | child hl hm' =>
      have := hu _ _ _ hm hm'
      cases this
      rw [ih hl]

theorem Wf.ai (h : Wf cfg db) : AI db.rows := by
  classical
  have hinj : ∀ a ∈ db.rows, ∀ b ∈ db.rows, a.pk = b.pk → a = b := fun a ha b hb e => List.inj_on_of_nodup_map h.pks ha hb e
  have hget : ∀ {k r}, db.get? k = some r → r ∈ db.rows ∧ r.pk = k := by
    intro k r e
    exact ⟨List.mem_of_find?_eq_some e, by simpa using List.find?_some e⟩
  have hmem : ∀ p k, k ∈ forest cfg db p → ∃ r ∈ db.rows, r.parent = p ∧ r.pk = k := by
    intro p k hk
    cases p with
    | none => exact mem_PF.1 hk
    | some p =>
      unfold forest at hk
      simp only at hk
      split at hk
      · cases hk
      · rename_i r e
        obtain ⟨_, rfl⟩ := hget e
        exact mem_PF.1 hk
  have hu : ∀ p q k, k ∈ forest cfg db p → k ∈ forest cfg db q → p = q := by
    intro p q k h1 h2
    obtain ⟨r, hr, e1, e2⟩ := hmem p k h1
    obtain ⟨r', hr', e1', e2'⟩ := hmem q k h2
    have := hinj r hr r' hr' (e2.trans e2'.symm)
    subst this
    exact e1.symm.trans e1'
  refine ⟨h.pks, h.exist, fun k => if e : ∃ n, (forest cfg db).Level k n then e.choose else 0, ?_⟩
  intro r hr p e
  obtain ⟨q, hq, rfl⟩ := h.exist r hr p e
  have e1 := h.ends r hr
  have e2 := h.ends q hq
  simp only [dif_pos e1, dif_pos e2]
  have hm : r.pk ∈ forest cfg db (some q.pk) := by
    unfold forest
    have : db.get? q.pk = some q := by
      unfold DB.get?
      cases e : db.rows.find? (fun x => x.pk == q.pk) with
      | none =>
        rw [List.find?_eq_none] at e
        exact absurd (by simp) (e q hq)
      | some q' =>
        have h1 := hget e
        rw [hinj q' h1.1 q hq h1.2]
    simp only [this]
    exact mem_PF.2 ⟨r, hr, e, rfl⟩
  have := Level.uniq hu e1.choose_spec (.child e2.choose_spec hm)
  omega

theorem Wf.iff : Wf cfg db ↔ AI db.rows := ⟨Wf.ai, wf_of_ai⟩

theorem Consistent.inv (ho : cfg.ordered = false) (h : Consistent cfg db) : AInv cfg db.rows := by
  refine ⟨h.toWf.ai, fun _ => h.sib, ?_⟩
  intro a ha b hb hne hp
  have := h.clash a ha b hb hne hp
  rw [lt_plain ho, lt_plain ho]
  omega

theorem consistent_of_inv (ho : cfg.ordered = false) (h : AInv cfg db.rows) : Consistent cfg db := by
  refine ⟨wf_of_ai h.toAI, h.sib ho, ?_⟩
  intro a ha b hb hne hp e
  rcases h.comp a ha b hb hne hp with hlt | hlt <;> rw [lt_plain ho] at hlt <;> omega

/-- The new node stands at slot `s` below `p` and nothing else changed: `db'` is consistent, its forest is the old one with
the new key put at this place, the stored data are the old ones and the new one, and the returned object is the stored
row. -/
structure AddedAt (cfg : Cfg) (db db' : DB) (obj new : Row) (p : Option Nat) (s : Slot) : Prop where
  consistent : Consistent cfg db'
  forest : forest cfg db' = (forest cfg db).put p s new.pk
  data : data db'.rows = data db.rows ++ [(new.pk, new.vals)]
  obj : obj ∈ db'.rows ∧ obj.pk = new.pk

theorem AddedAt.of (ho : cfg.ordered = false) (h : AI db.rows) {db' : DB} {obj new : Row} {p : Option Nat} {s : Slot}
    (ha : Added cfg db db' obj new p s) : AddedAt cfg db db' obj new p s :=
  ⟨consistent_of_inv ho ha.inv, by rw [forest_eq ha.inv.toAI, forest_eq h]; exact ha.forest, ha.data, ha.obj⟩

/-- A new object: its primary key is not in use (the database chooses it). -/
def Fresh (db : DB) (new : Row) : Prop := ∀ r ∈ db.rows, r.pk ≠ new.pk

/-- The node `x` was moved: the new forest is `F`, no data changed, and the object `obj` is the stored row. -/
structure MovedTo (cfg : Cfg) (db db' : DB) (obj x : Row) (F : Forest) : Prop where
  consistent : Consistent cfg db'
  forest : forest cfg db' = F
  data : data db'.rows = data db.rows
  obj : obj ∈ db'.rows ∧ obj.pk = x.pk

theorem mem_forest (h : AI db.rows) {p : Option Nat} {r : Row} (hr : r ∈ db.rows) : r.pk ∈ forest cfg db p ↔ r.parent = p := by
  rw [forest_eq h]; exact key_iff h hr

/-! ### C31 -/

/-- **C31 `add_root`** (the new object has no parent): the new node becomes the last root. -/
theorem C31_add_root (ho : cfg.ordered = false) (h : Consistent cfg db) {new : Row} (hf : Fresh db new) (hn : new.parent = none) :
    ∃ db' obj, addRoot cfg db new = .ok (db', obj) ∧ AddedAt cfg db db' obj new none .last := by
  obtain ⟨db', obj, e, ha⟩ := addRoot_unsorted ho (h.inv ho) hf hn
  exact ⟨db', obj, e, .of ho (h.inv ho).toAI ha⟩

/-- **C31 `add_child`**: the new node becomes the last child.  The target object is used by its primary key only, so it may be
stale. -/
theorem C31_add_child (ho : cfg.ordered = false) (h : Consistent cfg db) {t target : Row} (ht : t ∈ db.rows) (hk : target.pk = t.pk)
    {cached : Option Int} {new : Row} (hf : Fresh db new) :
    ∃ db' obj c, addChild cfg db target cached new = .ok (db', obj, c) ∧ AddedAt cfg db db' obj new (some t.pk) .last := by
  obtain ⟨db', obj, c, e, ha⟩ := addChild_unsorted ho (h.inv ho) ht hk (cached := cached) hf
  exact ⟨db', obj, c, e, .of ho (h.inv ho).toAI ha⟩

/-- **C31 `add_sibling`**: the new node stands at the place asked for among the target's siblings. -/
theorem C31_add_sibling (ho : cfg.ordered = false) (h : Consistent cfg db) {t : Row} (ht : t ∈ db.rows) {posArg : Option Pos} {pos : Pos}
    (hpos : preparePosForAddSibling false posArg = .ok pos) {new : Row} (hf : Fresh db new) :
    ∃ p, t.pk ∈ forest cfg db p ∧ ∃ db' obj, addSibling cfg db t posArg new = .ok (db', obj) ∧
      AddedAt cfg db db' obj new p (sibAsked t.pk pos) := by
  obtain ⟨db', obj, e, ha⟩ := addSibling_unsorted ho (h.inv ho) ht hpos hf
  exact ⟨_, (mem_forest (h.inv ho).toAI ht).2 rfl, db', obj, e, .of ho (h.inv ho).toAI ha⟩

/-- **C31 `move`**: every move that is not refused succeeds and gives the forest asked for. -/
theorem C31_move (ho : cfg.ordered = false) (h : Consistent cfg db) {x t : Row} (hx : x ∈ db.rows) (ht : t ∈ db.rows) {cached : Option Int}
    {posArg : Option Pos} {pos : Pos} (hpos : preparePosForMove false posArg = .ok pos)
    (hr : ¬ (forest cfg db).MoveRefused x.pk t.pk pos) :
    ∃ p, t.pk ∈ forest cfg db p ∧ ∃ db' obj, move cfg db x t cached posArg = .ok (db', obj) ∧
      MovedTo cfg db db' obj x ((forest cfg db).moveAsked x.pk p t.pk pos) := by
  have hi := h.inv ho
  rw [forest_eq hi.toAI] at hr
  obtain ⟨db', obj, e, hm⟩ := move_unsorted ho hi hx ht (cached := cached) hpos hr
  refine ⟨_, (mem_forest hi.toAI ht).2 rfl, db', obj, e, consistent_of_inv ho hm.inv, ?_, hm.data, hm.obj⟩
  rw [forest_eq hm.inv.toAI, forest_eq hi.toAI]
  exact hm.forest

/-- **C31 for deletion**: what goes is what was chosen and everything below it; the rest stays as it was. -/
theorem C31_delete (ho : cfg.ordered = false) (h : Consistent cfg db) (S : Nat → Bool) :
    ∃ D : Nat → Bool, (∀ k, D k = true ↔ k ∈ db.rows.map Row.pk ∧ Tree.Doomed (forest cfg db) S k) ∧
      Consistent cfg (delete db (fun r => S r.pk)) ∧ forest cfg (delete db (fun r => S r.pk)) = (forest cfg db).prune D ∧
      data (delete db (fun r => S r.pk)).rows = (data db.rows).filter (fun e => !D e.1) := by
  have hi := h.inv ho
  obtain ⟨h1, h2⟩ := delete_spec hi S
  refine ⟨gone db (fun r => S r.pk), ?_, consistent_of_inv ho h1, ?_, data_delete _⟩
  · intro k
    rw [forest_eq hi.toAI]
    exact gone_iff hi.toAI S
  · rw [forest_eq h1.toAI, forest_eq hi.toAI]; exact h2

/-- positions with gaps, a sibling on both sides, roots, a move to another branch, next to itself, and before itself -/
example : Consistent exPlain exDB ∧ forest exPlain exDB none = [1, 5] ∧ forest exPlain exDB (some 1) = [2, 3] ∧
    ((addSibling exPlain exDB ⟨3, some 1, 4, []⟩ (some .left) ⟨9, none, 0, []⟩).toOption.map (fun x => forest exPlain x.1 (some 1))) = some [2, 9, 3] ∧
    ((addSibling exPlain exDB ⟨1, none, 2, []⟩ (some .right) ⟨9, none, 0, []⟩).toOption.map (fun x => forest exPlain x.1 none)) = some [1, 9, 5] ∧
    ((addChild exPlain exDB ⟨1, none, 0, []⟩ none ⟨9, none, 0, []⟩).toOption.map (fun x => forest exPlain x.1 (some 1))) = some [2, 3, 9] ∧
    ((move exPlain exDB ⟨5, none, 3, []⟩ ⟨1, none, 2, []⟩ none (some .firstChild)).toOption.map (fun x => (forest exPlain x.1 none, forest exPlain x.1 (some 1)))) = some ([1], [5, 2, 3]) ∧
    ((move exPlain exDB ⟨2, some 1, 1, []⟩ ⟨2, some 1, 1, []⟩ none (some .right)).toOption.map (fun x => forest exPlain x.1 (some 1))) = some [2, 3] ∧
    ((move exPlain exDB ⟨3, some 1, 4, []⟩ ⟨2, some 1, 1, []⟩ none (some .left)).toOption.map (fun x => forest exPlain x.1 (some 1))) = some [3, 2] ∧
    (delete exDB (fun r => [3].contains r.pk)).rows.map Row.pk = [1, 2, 5] :=
  ⟨consistent_of_inv rfl exDB_inv, by decide, by decide, by decide, by decide, by decide, by decide, by decide, by decide, by decide⟩

/-! ### C08 -/

/-- **C08 for AL**, with or without `node_order_by`; `cached` is whatever `_cached_depth` the object has. -/
theorem C08_al (h : Wf cfg db) {x t : Row} (hx : x ∈ db.rows) {cached : Option Int} {posArg : Option Pos} {pos : Pos}
    (hpos : preparePosForMove cfg.ordered posArg = .ok pos) (hr : (forest cfg db).MoveRefused x.pk t.pk pos) :
    move cfg db x t cached posArg = .error .invalidMoveToDescendant := by
  rw [forest_eq h.ai] at hr
  exact move_refused h.ai hx hpos hr

example : Wf exPlain exDB ∧ (forest exPlain exDB).MoveRefused 1 4 .left ∧ (forest exPlain exDB).MoveRefused 1 1 .firstChild :=
  ⟨wf_of_ai exDB_inv.toAI, Or.inl (.step (.child (d := 3) (by decide)) (by decide)), Or.inr ⟨rfl, rfl⟩⟩

/-! ### C16 for AL -/

/-- no two siblings with equal values: any two can be told apart by the order fields -/
def NoTies (cfg : Cfg) (db : DB) : Prop :=
  ∀ a ∈ db.rows, ∀ b ∈ db.rows, a ≠ b → a.parent = b.parent → keyLt cfg.orderBy a.vals b.vals ∨ keyLt cfg.orderBy b.vals a.vals

theorem inv_of_noTies (ho : cfg.ordered = true) (h : Wf cfg db) (hn : NoTies cfg db) : AInv cfg db.rows := by
  refine ⟨h.ai, (fun ho' => by rw [ho] at ho'; cases ho'), ?_⟩
  intro a ha b hb hne hp
  rw [lt_ordered ho, lt_ordered ho]
  exact hn a ha b hb hne hp

theorem noTies_of_inv (ho : cfg.ordered = true) (h : AInv cfg db.rows) : NoTies cfg db := by
  intro a ha b hb hne hp
  rw [← lt_ordered ho, ← lt_ordered ho]
  exact h.comp a ha b hb hne hp

/-- **C16 for AL, every table.** With `node_order_by` and no nulls in the order fields every group of siblings is always sorted: the
order is not stored but computed by every query. -/
theorem C16_al_sorted (ho : cfg.ordered = true) (h : Wf cfg db) (hn : ∀ r ∈ db.rows, NonNull cfg.orderBy r.vals) :
    (forest cfg db).SortedBy cfg.orderBy (valsIn (data db.rows)) := by
  rw [forest_eq h.ai]
  exact sortedBy_nonNull h.ai ho hn

/-- A new row below `p` with its values; all the other rows are as before, and the table is well formed. -/
structure SortedAdded (cfg : Cfg) (db db' : DB) (obj new : Row) (p : Option Nat) : Prop where
  wf : Wf cfg db'
  rows : db'.rows = db.rows ++ [obj]
  obj : obj.pk = new.pk ∧ obj.vals = new.vals ∧ obj.parent = p
  /-- if the new node can be told from its siblings, it stands at its sorted place and the others are as before -/
  place : NoTies cfg db →
    (∀ r ∈ db.rows, r.parent = p → keyLt cfg.orderBy r.vals new.vals ∨ keyLt cfg.orderBy new.vals r.vals) →
    NoTies cfg db' ∧ (∃ s, forest cfg db' = (forest cfg db).put p s new.pk) ∧
      (forest cfg db').SortedAt cfg.orderBy (valsIn (data db'.rows)) p new.pk

theorem SortedAdded.of (ho : cfg.ordered = true) (h : Wf cfg db) {db' : DB} {obj new : Row} {p : Option Nat} (hf : Fresh db new)
    (ha : AddedRow db db' obj new p) : SortedAdded cfg db db' obj new p := by
  refine ⟨wf_of_ai ha.inv, ha.rows, ha.obj, ?_⟩
  intro hn hc
  obtain ⟨hi, s, hs⟩ := ha.place ho (inv_of_noTies ho h hn) hf hc
  refine ⟨noTies_of_inv ho hi, ⟨s, by rw [forest_eq hi.toAI, forest_eq h.ai]; exact hs⟩, ?_⟩
  rw [forest_eq hi.toAI]
  have := sortedAt_inv hi ho (x := obj) (by rw [ha.rows]; simp)
  rwa [ha.obj.1, ha.obj.2.2] at this

/-- **C16 for AL, additions** (partial: without equal siblings; with them the place among the equal ones is the database's choice, see
`C16_al_ties`). -/
theorem C16_al_add_root_partial (ho : cfg.ordered = true) (h : Wf cfg db) {new : Row} (hf : Fresh db new) (hn : new.parent = none) :
    ∃ db' obj, addRoot cfg db new = .ok (db', obj) ∧ SortedAdded cfg db db' obj new none := by
  obtain ⟨db', obj, e, ha⟩ := addRoot_sorted ho h.ai hf hn
  exact ⟨db', obj, e, .of ho h hf ha⟩

theorem C16_al_add_child_partial (ho : cfg.ordered = true) (h : Wf cfg db) {t target : Row} (ht : t ∈ db.rows) (hk : target.pk = t.pk)
    {cached : Option Int} {new : Row} (hf : Fresh db new) :
    ∃ db' obj c, addChild cfg db target cached new = .ok (db', obj, c) ∧ SortedAdded cfg db db' obj new (some t.pk) := by
  obtain ⟨db', obj, c, e, ha⟩ := addChild_sorted ho h.ai ht hk (cached := cached) hf
  exact ⟨db', obj, c, e, .of ho h hf ha⟩

theorem C16_al_add_sibling_partial (ho : cfg.ordered = true) (h : Wf cfg db) {t : Row} (ht : t ∈ db.rows) {posArg : Option Pos} {pos : Pos}
    (hpos : preparePosForAddSibling true posArg = .ok pos) {new : Row} (hf : Fresh db new) :
    ∃ p, t.pk ∈ forest cfg db p ∧ ∃ db' obj, addSibling cfg db t posArg new = .ok (db', obj) ∧ SortedAdded cfg db db' obj new p := by
  obtain ⟨db', obj, e, ha⟩ := addSibling_sorted ho h.ai ht hpos hf
  exact ⟨_, (mem_forest h.ai ht).2 rfl, db', obj, e, .of ho h hf ha⟩

/-- The row `x` has the parent `p`; all the other rows and all data are as before, and the table is well formed. -/
structure SortedMoved (cfg : Cfg) (db db' : DB) (obj x : Row) (p : Option Nat) : Prop where
  wf : Wf cfg db'
  rows : db'.rows = db.rows.map (fun r => if r.pk = x.pk then { x with parent := p } else r)
  data : data db'.rows = data db.rows
  obj : obj = { x with parent := p } ∧ obj ∈ db'.rows
  /-- if the moved node can be told from its new siblings, it stands at its sorted place and the others are as before -/
  place : NoTies cfg db →
    (∀ r ∈ db.rows, r ≠ x → r.parent = p → keyLt cfg.orderBy r.vals x.vals ∨ keyLt cfg.orderBy x.vals r.vals) →
    NoTies cfg db' ∧ (∃ s, forest cfg db' = (forest cfg db).move x.pk p s) ∧
      (forest cfg db').SortedAt cfg.orderBy (valsIn (AL.data db'.rows)) p x.pk

/-- **C16 for AL, `move`** (partial: the place among equal siblings is the database's choice, see `C16_al_ties`). -/
theorem C16_al_move_partial (ho : cfg.ordered = true) (h : Wf cfg db) {x t : Row} (hx : x ∈ db.rows) (ht : t ∈ db.rows)
    {cached : Option Int} {posArg : Option Pos} {pos : Pos} (hpos : preparePosForMove true posArg = .ok pos)
    (hr : ¬ (forest cfg db).MoveRefused x.pk t.pk pos) :
    ∃ p, t.pk ∈ forest cfg db p ∧ ∃ db' obj, move cfg db x t cached posArg = .ok (db', obj) ∧
      SortedMoved cfg db db' obj x (pos.dest p t.pk) := by
  have hai := h.ai
  rw [forest_eq hai] at hr
  obtain ⟨db', obj, e, hm⟩ := move_sorted ho hai hx ht (cached := cached) hpos hr
  refine ⟨_, (mem_forest hai ht).2 rfl, db', obj, e, wf_of_ai hm.inv, hm.rows, hm.data hai hx, ⟨hm.obj, hm.mem hx⟩, ?_⟩
  intro hn hc
  have hp : ∀ k, pos.dest t.parent t.pk = some k → (∃ q ∈ db.rows, q.pk = k) ∧ k ≠ x.pk ∧ ¬ (PF cfg db.rows).Desc x.pk k := by
    unfold Pos.dest
    split
    · rename_i hc
      intro k ek
      cases ek
      exact ⟨⟨t, ht, rfl⟩, fun e => hr (Or.inr ⟨hc, e⟩), fun hd => hr (Or.inl hd)⟩
    · exact parent_ok hai ht (fun hd => hr (Or.inl hd))
  obtain ⟨hi, s, hs⟩ := hm.place ho (inv_of_noTies ho h hn) hx hp hc
  refine ⟨noTies_of_inv ho hi, ⟨s, by rw [forest_eq hi.toAI, forest_eq hai]; exact hs⟩, ?_⟩
  rw [forest_eq hi.toAI]
  have := sortedAt_inv hi ho (hm.mem hx)
  rw [hm.obj] at this
  exact this

example : Wf exSorted exSDB ∧ NoTies exSorted exSDB ∧ forest exSorted exSDB (some 1) = [2, 3, 4] ∧
    ((addChild exSorted exSDB ⟨1, none, 0, []⟩ none ⟨9, none, 0, [some 6]⟩).toOption.map (fun x => forest exSorted x.1 (some 1))) = some [2, 3, 9, 4] ∧
    ((move exSorted exSDB ⟨5, none, 0, [some 3]⟩ ⟨1, none, 0, [some 5]⟩ none (some .sortedChild)).toOption.map (fun x => forest exSorted x.1 (some 1))) = some [2, 5, 3, 4] :=
  ⟨wf_of_ai exSDB_inv.toAI, noTies_of_inv rfl exSDB_inv, by decide, by decide, by decide⟩

/-- **C16 fails for AL with equal siblings**: the moved node is not after the sibling with the same value.  Here the database returns
equal rows in the order of the table, as databases usually do. -/
theorem C16_al_ties : ∃ db : DB, ∃ x t : Row, Wf exSorted db ∧ x ∈ db.rows ∧ t ∈ db.rows ∧
    (forest exSorted db).SortedBy exSorted.orderBy (valsIn (data db.rows)) ∧
    ¬ (forest exSorted db).MoveRefused x.pk t.pk .sortedChild ∧
    ∃ db' obj, move exSorted db x t none (some .sortedChild) = .ok (db', obj) ∧
      ¬ (forest exSorted db').SortedAt exSorted.orderBy (valsIn (data db'.rows)) (some t.pk) x.pk := by
  let db : DB := ⟨[⟨1, none, 0, [some 7]⟩, ⟨2, none, 0, [some 5]⟩, ⟨3, some 2, 0, [some 7]⟩]⟩
  have hai : AI db.rows := by
    refine ai_example id (by decide) ?_
    intro r hr p e
    simp only [db, List.mem_cons, List.not_mem_nil, or_false] at hr
    rcases hr with rfl | rfl | rfl <;> simp at e; subst e; decide
  refine ⟨db, ⟨1, none, 0, [some 7]⟩, ⟨2, none, 0, [some 5]⟩, wf_of_ai hai, by decide, by decide, ?_, ?_, _, _, rfl, ?_⟩
  · refine C16_al_sorted rfl (wf_of_ai hai) ?_
    intro r hr e he
    simp only [exSorted, List.mem_cons, List.not_mem_nil, or_false] at he
    subst he
    simp only [db, List.mem_cons, List.not_mem_nil, or_false] at hr
    rcases hr with rfl | rfl | rfl <;> exact ⟨_, rfl⟩
  · rw [forest_eq hai]
    rintro (hd | ⟨_, e⟩)
    · obtain ⟨c, hc, _⟩ := hd.cases_head
      revert hc
      rw [show PF exSorted db.rows (some 1) = [] from by decide]
      simp
    · cases e
  · rintro ⟨l₁, l₂, e, _, h2⟩
    have e' : [1, 3] = l₁ ++ 1 :: l₂ := e
    have h3 : 3 ∈ l₂ := by
      cases l₁ with
      | nil => simp at e'; rw [← e']; simp
      | cons a l₁ =>
        simp at e'
        obtain ⟨rfl, e'⟩ := e'
        cases l₁ with
        | nil => simp at e'
        | cons b l₁ => simp at e'
    have := h2 3 h3
    revert this
    rw [← keyLtB_iff]
    decide

end Verif.AL
