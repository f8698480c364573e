/-
C22, C23, C24, C28, and the NS parts of C08, C16 and C27: the operations of the nested sets backend.
-/
import Verif.NS.Example
import Verif.SpecHistory
import Verif.PosLemmas

namespace Verif.NS

variable {cfg : Cfg} {db : DB}

/-! ### Vocabulary -/

/-- A consistent table.  Unfolded (`NInv`): keys are unique; `1 ≤ lft < rgt` and `1 ≤ tree_id`; within a tree no endpoint is
shared and two intervals are nested or disjoint; every interval lies within one that starts at 1; every depth is one more
than the number of enclosing intervals; no number is left out. -/
abbrev Consistent (db : DB) : Prop := NInv db.rows

/-- The new node stands at slot `s` below `p` and nothing else changed: `db'` is consistent, its forest is the old one with
the new key put at this place, the stored data are the old ones and the new one, and the returned object is the stored
row. -/
structure AddedAt (db db' : DB) (obj new : Row) (p : Option Nat) (s : Slot) : Prop where
  consistent : Consistent db'
  forest : forest db' = (forest db).put p s new.pk
  data : data db'.rows = data db.rows ++ [(new.pk, new.vals)]
  obj : obj ∈ db'.rows ∧ obj.pk = new.pk

/-- A new object: its primary key is not in use (the database chooses it). -/
def Fresh (db : DB) (new : Row) : Prop := ∀ r ∈ db.rows, r.pk ≠ new.pk

/-- The node `x` was moved: the new forest is `F`, no data changed, and both objects are up to date. -/
structure MovedTo (db : DB) (res : MoveResult) (x t : Row) (F : Forest) : Prop where
  consistent : Consistent res.db
  forest : forest res.db = F
  data : data res.db.rows = data db.rows
  node : res.node ∈ res.db.rows ∧ res.node.pk = x.pk
  target : res.target ∈ res.db.rows ∧ res.target.pk = t.pk

/-- What `_cached_parent_obj` of the object `t` may be: nothing, or the stored parent of `t`. -/
def CacheOk (db : DB) (t : Row) (cached : Option Row) : Prop := ∀ p, cached = some p → p ∈ db.rows ∧ t.pk ∈ forest db (some p.pk)

theorem AddedAt.of (h : NInv db.rows) {db' : DB} {obj new : Row} {p : Option Nat} {s : Slot} (ha : Added db db' obj new p s) :
    AddedAt db db' obj new p s :=
  ⟨ha.inv, by rw [forest_eq ha.inv.toNI, forest_eq h.toNI]; exact ha.forest, ha.data, ha.mem, ha.pk⟩

theorem MovedTo.of {res : MoveResult} {x t : Row} {F : Forest} (hm : MoveGood db res x t F) : MovedTo db res x t F :=
  ⟨hm.inv, by rw [forest_eq hm.inv.toNI]; exact hm.forest, hm.data, hm.node, hm.target⟩

theorem mem_forest (h : Consistent db) {p : Option Nat} {r : Row} (hr : r ∈ db.rows) : r.pk ∈ forest db p ↔ par db.rows r = p := by
  rw [forest_eq h.toNI, mem_PF h.toNI]
  constructor
  · rintro ⟨q, hq, e, hk⟩; rwa [← h.pk_inj hq hr hk]
  · intro e; exact ⟨r, hr, e, rfl⟩

theorem forest_keys (h : Consistent db) {p : Option Nat} {k : Nat} (hk : k ∈ forest db p) : k ∈ (data db.rows).map Prod.fst := by
  rw [forest_eq h.toNI, mem_PF h.toNI] at hk
  obtain ⟨r, hr, _, rfl⟩ := hk
  exact List.mem_map.2 ⟨(r.pk, r.vals), List.mem_map.2 ⟨r, hr, rfl⟩, rfl⟩

theorem keys_eq (rows : List Row) : (data rows).map Prod.fst = rows.map Row.pk := by
  unfold data; rw [List.map_map]; rfl

theorem keys_nodup (h : Consistent db) : ((data db.rows).map Prod.fst).Nodup := by rw [keys_eq]; exact h.pks

theorem fresh_keys {new : Row} (hf : Fresh db new) : new.pk ∉ (data db.rows).map Prod.fst := by
  rw [keys_eq]
  intro hm
  obtain ⟨r, hr, e⟩ := List.mem_map.1 hm
  exact hf r hr e

theorem cacheOk_par (h : Consistent db) {t : Row} (ht : t ∈ db.rows) {cached : Option Row} (hc : CacheOk db t cached) :
    ∀ p, cached = some p → p ∈ db.rows ∧ par db.rows t = some p.pk := by
  intro p e
  obtain ⟨h1, h2⟩ := hc p e
  exact ⟨h1, (mem_forest h ht).1 h2⟩

/-- every node has one parent -/
theorem parent_unique (h : Consistent db) {p q : Option Nat} {k : Nat} (hp : k ∈ forest db p) (hq : k ∈ forest db q) : p = q := by
  rw [forest_eq h.toNI, mem_PF h.toNI] at hp
  obtain ⟨r, hr, e, rfl⟩ := hp
  rw [← e, (mem_forest h hr).1 hq]

theorem forest_nodup (h : Consistent db) (p : Option Nat) : (forest db p).Nodup := by
  rw [forest_eq h.toNI]
  obtain ⟨l, e, hs, hm⟩ := (shows_PF h.toNI).lists p
  rw [e, List.nodup_iff_pairwise_ne, List.pairwise_map]
  refine hs.imp_of_mem ?_
  intro a b ha hb hlt e
  rw [h.pk_inj ((hm a).1 ha).1 ((hm b).1 hb).1 e] at hlt
  exact lt_irrefl _ hlt

/-! ### C22 -/

/-- **C22 `add_root`**: the new node becomes the last root. -/
theorem C22_add_root (h : Consistent db) (ho : cfg.ordered = false) {new : Row} (hf : Fresh db new) :
    ∃ db' obj, addRoot cfg db new = .ok (db', obj) ∧ AddedAt db db' obj new none .last := by
  obtain ⟨db', obj, e, ha⟩ := addRoot_unsorted h ho hf
  exact ⟨db', obj, e, .of h ha⟩

/-- **C22 `add_child`**: the new node becomes the last child.  The target object is used by its primary key only, so it may be
stale. -/
theorem C22_add_child (h : Consistent db) (ho : cfg.ordered = false) {t target : Row} (ht : t ∈ db.rows) (hk : target.pk = t.pk)
    {new : Row} (hf : Fresh db new) :
    ∃ db' obj target', addChild cfg db target new = .ok (db', obj, target') ∧ AddedAt db db' obj new (some t.pk) .last := by
  obtain ⟨db', obj, t', e, ha⟩ := addChild_unsorted h ho ht hk hf
  exact ⟨db', obj, t', e, .of h ha⟩

/-- **C22 `add_sibling`**: the new node stands at the place asked for among the target's siblings. -/
theorem C22_add_sibling (h : Consistent db) (ho : cfg.ordered = false) {t : Row} (ht : t ∈ db.rows) {cached : Option Row}
    (hc : CacheOk db t cached) {posArg : Option Pos} {pos : Pos} (hpos : preparePosForAddSibling false posArg = .ok pos) {new : Row}
    (hf : Fresh db new) :
    ∃ p, t.pk ∈ forest db p ∧ ∃ db' obj, addSibling cfg db t cached posArg new = .ok (db', obj) ∧
      AddedAt db db' obj new p (sibAsked t.pk pos) := by
  obtain ⟨db', obj, e, ha⟩ := addSibling_unsorted h ho ht (cacheOk_par h ht hc) hpos hf
  exact ⟨_, (mem_forest h ht).2 rfl, db', obj, e, .of h ha⟩

example : Consistent exDB ∧ forest exDB none = [1, 5] ∧ forest exDB (some 1) = [2, 3] ∧
    ((addSibling ⟨[]⟩ exDB ⟨3, 1, 4, 7, 2, []⟩ none (some .left) ⟨9, 0, 0, 0, 0, []⟩).toOption.map (fun x => forest x.1 (some 1))) = some [2, 9, 3] ∧
    ((addSibling ⟨[]⟩ exDB ⟨1, 1, 1, 8, 1, []⟩ none (some .right) ⟨9, 0, 0, 0, 0, []⟩).toOption.map (fun x => forest x.1 none)) = some [1, 9, 5] ∧
    ((addChild ⟨[]⟩ exDB ⟨1, 0, 0, 0, 0, []⟩ ⟨9, 0, 0, 0, 0, []⟩).toOption.map (fun x => forest x.1 (some 1))) = some [2, 3, 9] :=
  ⟨exDB_inv, by decide, by decide, by decide, by decide, by decide⟩

/-! ### C16 for NS, additions -/

theorem ordered_ne (ho : cfg.ordered = true) : cfg.orderBy ≠ [] := by
  intro e; simp [Cfg.ordered, e] at ho

/-- every group of siblings sorted, no nulls -/
abbrev SortedTree (cfg : Cfg) (db : DB) : Prop := SortedData cfg.orderBy (forest db) (data db.rows)

/-- the new node stands at its sorted place below `p`, after the equal ones, nothing else changed, and the tree is sorted -/
structure AddedSorted (cfg : Cfg) (db db' : DB) (obj new : Row) (p : Option Nat) : Prop where
  added : ∃ s, AddedAt db db' obj new p s
  sorted : SortedTree cfg db'
  place : (forest db').SortedAt cfg.orderBy (valsIn (data db'.rows)) p new.pk

theorem addedSorted_of (h : Consistent db) (ho : cfg.ordered = true) (hs : SortedTree cfg db) {new : Row} (hf : Fresh db new)
    (hn : NonNull cfg.orderBy new.vals) {db' : DB} {obj : Row} {p : Option Nat} {s : Slot} (ha : Added db db' obj new p s) {l : List Row}
    (hl : ∀ r ∈ l, r ∈ db.rows) (hp : l.map Row.pk = PF db.rows p)
    (hh : HeadSlot cfg.orderBy Row.vals Row.pk l new.vals s) : AddedSorted cfg db db' obj new p := by
  have had := AddedAt.of h ha
  obtain ⟨h1, h2⟩ := SortedData.add (ordered_ne ho) hs (keys_nodup h) (fun q a hm => forest_keys h hm) (fresh_keys hf) hn
    (hp.trans (by rw [forest_eq h.toNI])) (forest_nodup h p) (fun r hr => List.mem_map.2 ⟨r, hl r hr, rfl⟩) hh
  refine ⟨⟨s, had⟩, ?_, ?_⟩
  · show SortedData _ _ _
    rw [had.forest, had.data]; exact h1
  · rw [had.forest, had.data]; exact h2

theorem C16_ns_add_root (h : Consistent db) (ho : cfg.ordered = true) (hs : SortedTree cfg db) {new : Row} (hf : Fresh db new)
    (hn : NonNull cfg.orderBy new.vals) :
    ∃ db' obj, addRoot cfg db new = .ok (db', obj) ∧ AddedSorted cfg db db' obj new none := by
  obtain ⟨db', obj, s, e, ha, hc⟩ := addRoot_sorted h ho hf
  refine ⟨db', obj, e, addedSorted_of h ho hs hf hn ha (fun r hr => (mem_rootNodes.1 hr).1) (rootNodes_PF h.toNI) ?_⟩
  rcases hc with ⟨z, _, h1, h2⟩ | h1
  · exact Or.inl ⟨z, h1, h2⟩
  · exact Or.inr h1

theorem C16_ns_add_child (h : Consistent db) (ho : cfg.ordered = true) (hs : SortedTree cfg db) {t target : Row} (ht : t ∈ db.rows)
    (hk : target.pk = t.pk) {new : Row} (hf : Fresh db new) (hn : NonNull cfg.orderBy new.vals) :
    ∃ db' obj target', addChild cfg db target new = .ok (db', obj, target') ∧ AddedSorted cfg db db' obj new (some t.pk) := by
  obtain ⟨db', obj, t', s, e, ha, hc⟩ := addChild_sorted h ho ht hk hf
  refine ⟨db', obj, t', e, addedSorted_of h ho hs hf hn ha (fun r hr => ((mem_children h.toNI ht).1 hr).1) (children_PF h.toNI ht) ?_⟩
  rcases hc with ⟨z, _, h1, h2⟩ | h1
  · exact Or.inl ⟨z, h1, h2⟩
  · exact Or.inr h1

theorem C16_ns_add_sibling (h : Consistent db) (ho : cfg.ordered = true) (hs : SortedTree cfg db) {t : Row} (ht : t ∈ db.rows)
    {cached : Option Row} {posArg : Option Pos} (hpos : posArg = none ∨ posArg = some .sortedSibling) {new : Row} (hf : Fresh db new)
    (hn : NonNull cfg.orderBy new.vals) :
    ∃ p, t.pk ∈ forest db p ∧ ∃ db' obj, addSibling cfg db t cached posArg new = .ok (db', obj) ∧ AddedSorted cfg db db' obj new p := by
  obtain ⟨l, db', obj, s, hl, e, ha, hc⟩ := addSibling_sorted h ho ht (cached := cached) (posArg := posArg)
    (by rcases hpos with rfl | rfl <;> decide) hf
  obtain ⟨l', hl', _, hm, hp⟩ := siblings_spec h.toNI ht
  rw [hl] at hl'
  cases hl'
  refine ⟨_, (mem_forest h ht).2 rfl, db', obj, e, addedSorted_of h ho hs hf hn ha (fun r hr => ((hm r).1 hr).1) hp ?_⟩
  rcases hc with ⟨z, _, h1, h2⟩ | h1
  · exact Or.inl ⟨z, h1, h2⟩
  · exact Or.inr h1

example : Consistent exSDB ∧ SortedTree exSorted exSDB ∧ NonNull exSorted.orderBy [some 3] ∧
    ((addChild exSorted exSDB ⟨1, 0, 0, 0, 0, []⟩ ⟨9, 0, 0, 0, 0, [some 1]⟩).toOption.map (fun x => forest x.1 (some 1))) = some [2, 9, 3, 4] ∧
    ((addChild exSorted exSDB ⟨1, 0, 0, 0, 0, []⟩ ⟨9, 0, 0, 0, 0, [some 3]⟩).toOption.map (fun x => forest x.1 (some 1))) = some [2, 3, 4, 9] := by
  refine ⟨exSDB_inv, exSDB_sorted, ?_, by decide, by decide⟩
  intro f hf
  simp only [exSorted, List.mem_cons, List.not_mem_nil, or_false] at hf
  subst hf; exact ⟨_, rfl⟩

/-! ### C08 and C23: moves -/

/-- the model's refusals are those of the specification -/
theorem refused_iff (h : Consistent db) {x t : Row} (hx : x ∈ db.rows) (ht : t ∈ db.rows) (pos : Pos) :
    Refused x t pos ↔ (forest db).MoveRefused x.pk t.pk pos := by
  unfold Refused Forest.MoveRefused
  rw [forest_eq h.toNI, desc_PF h.toNI hx ht]
  constructor
  · rintro (h1 | ⟨h1, rfl⟩)
    · exact Or.inl h1
    · exact Or.inr ⟨h1, rfl⟩
  · rintro (h1 | ⟨h1, h2⟩)
    · exact Or.inl h1
    · exact Or.inr ⟨h1, h.pk_inj ht hx h2⟩

/-- **C08 for NS.** -/
theorem C08_ns (h : Consistent db) {x t : Row} (hx : x ∈ db.rows) (ht : t ∈ db.rows) {cached : Option Row} {posArg : Option Pos} {pos : Pos}
    (hpos : preparePosForMove cfg.ordered posArg = .ok pos) (hr : (forest db).MoveRefused x.pk t.pk pos) :
    move cfg db x t cached posArg = .error .invalidMoveToDescendant :=
  move_refused h hx ht hpos ((refused_iff h hx ht pos).2 hr)

/-- **C23.** Every move that is not refused succeeds and gives the forest asked for, whatever the trees of node and target. -/
theorem C23_move (h : Consistent db) (ho : cfg.ordered = false) {x t : Row} (hx : x ∈ db.rows) (ht : t ∈ db.rows) {cached : Option Row}
    (hc : CacheOk db t cached) {posArg : Option Pos} {pos : Pos} (hpos : preparePosForMove false posArg = .ok pos)
    (hr : ¬ (forest db).MoveRefused x.pk t.pk pos) :
    ∃ p, t.pk ∈ forest db p ∧ ∃ res, move cfg db x t cached posArg = .ok res ∧
      MovedTo db res x t ((forest db).moveAsked x.pk p t.pk pos) := by
  obtain ⟨res, e, hm⟩ := move_unsorted h ho hx ht (cacheOk_par h ht hc) hpos (fun hr' => hr ((refused_iff h hx ht pos).1 hr'))
  refine ⟨_, (mem_forest h ht).2 rfl, res, e, ?_⟩
  rw [forest_eq h.toNI]
  exact .of hm

/-- to another tree, to root level, from root level, and a refused one -/
example : Consistent exDB ∧
    ((move ⟨[]⟩ exDB ⟨3, 1, 4, 7, 2, []⟩ ⟨5, 2, 1, 2, 1, []⟩ none (some .firstChild)).toOption.map (fun x => (forest x.db (some 5), forest x.db (some 3), forest x.db (some 1)))) = some ([3], [4], [2]) ∧
    ((move ⟨[]⟩ exDB ⟨3, 1, 4, 7, 2, []⟩ ⟨5, 2, 1, 2, 1, []⟩ none (some .left)).toOption.map (fun x => (forest x.db none, forest x.db (some 3)))) = some ([1, 3, 5], [4]) ∧
    ((move ⟨[]⟩ exDB ⟨5, 2, 1, 2, 1, []⟩ ⟨4, 1, 5, 6, 3, []⟩ none (some .right)).toOption.map (fun x => (forest x.db none, forest x.db (some 3)))) = some ([1], [4, 5]) ∧
    (forest exDB).MoveRefused 3 4 .left :=
  ⟨exDB_inv, by decide, by decide, by decide, Or.inl (.child (by decide))⟩

/-- **C16 for NS, `move`**: the node goes to its sorted place, even if it was itself out of order before (its fields may have been
edited), and the tree is sorted afterwards. -/
theorem C16_ns_move (h : Consistent db) (ho : cfg.ordered = true) {x t : Row} (hx : x ∈ db.rows) (ht : t ∈ db.rows)
    (hnn : ∀ e ∈ data db.rows, NonNull cfg.orderBy e.2) (hs : ((forest db).remove x.pk).SortedBy cfg.orderBy (valsIn (data db.rows)))
    {cached : Option Row} {posArg : Option Pos} {pos : Pos} (hpos : preparePosForMove true posArg = .ok pos)
    (hr : ¬ (forest db).MoveRefused x.pk t.pk pos) :
    ∃ p, t.pk ∈ forest db p ∧ ∃ res s, move cfg db x t cached posArg = .ok res ∧
      MovedTo db res x t ((forest db).move x.pk (pos.dest p t.pk) s) ∧ SortedTree cfg res.db ∧
      (forest res.db).SortedAt cfg.orderBy (valsIn (data res.db.rows)) (pos.dest p t.pk) x.pk := by
  obtain ⟨res, s, l, e, hm, hlt, hml, hc⟩ := move_sorted h ho hx ht (cached := cached) hpos (fun hr' => hr ((refused_iff h hx ht pos).1 hr'))
  have hp : l.map Row.pk = PF db.rows (pos.dest (par db.rows t) t.pk) := list_PF h.toNI hlt hml
  have hmv : MovedTo db res x t ((forest db).move x.pk (pos.dest (par db.rows t) t.pk) s) := by
    rw [forest_eq h.toNI]; exact .of hm
  obtain ⟨h1, h2⟩ := SortedData.move (ordered_ne ho) (x := x.pk) (vx := x.vals) (pk := Row.pk) (vals := Row.vals) (s := s) hnn hs (keys_nodup h)
    (List.mem_map.2 ⟨x, hx, rfl⟩) (hp.trans (by rw [forest_eq h.toNI])) (forest_nodup h _)
    (fun r hr => List.mem_map.2 ⟨r, ((hml r).1 hr).1, rfl⟩)
    (by
      intro z hz hne
      rcases hc with ⟨z', _, h1, h2⟩ | ⟨h1, _⟩
      · rw [hz] at h1
        cases h1
        exact h2.1 (fun e => hne (by rw [e]))
      · rw [hz] at h1; cases h1)
    (by
      intro hz
      rcases hc with ⟨z', _, h1, _⟩ | ⟨_, h2⟩
      · rw [hz] at h1; cases h1
      · exact h2)
  refine ⟨_, (mem_forest h ht).2 rfl, res, s, e, hmv, ?_, ?_⟩
  · show SortedData _ _ _
    rw [hmv.forest, hmv.data]; exact h1
  · rw [hmv.forest, hmv.data]; exact h2

/-! ### C24 and C28: deletion -/

theorem doomed_spec (h : NI db.rows) (S : Nat → Bool) (k : Nat) :
    doomedPk db.rows (fun r => S r.pk) k = true ↔ k ∈ db.rows.map Row.pk ∧ Tree.Doomed (forest db) S k := by
  rw [forest_eq h]
  unfold Tree.Doomed doomedPk
  rw [List.any_eq_true]
  constructor
  · rintro ⟨r, hr, hd⟩
    rw [Bool.and_eq_true, beq_iff_eq] at hd
    obtain ⟨rfl, hd⟩ := hd
    obtain ⟨q, hq, hs, hi⟩ := doomed_iff.1 hd
    refine ⟨List.mem_map_of_mem hr, ?_⟩
    rcases hi with rfl | he
    · exact Or.inl hs
    · exact Or.inr ⟨q.pk, hs, (desc_PF h hq hr).2 he⟩
  · rintro ⟨hk, hS⟩
    obtain ⟨r, hr, rfl⟩ := List.mem_map.1 hk
    refine ⟨r, hr, ?_⟩
    simp only [beq_self_eq_true, Bool.true_and]
    apply doomed_iff.2
    rcases hS with hS | ⟨k', hS, hd⟩
    · exact ⟨r, hr, hS, Or.inl rfl⟩
    · obtain ⟨q, hq, rfl⟩ := desc_stored h hd
      exact ⟨q, hq, hS, Or.inr ((desc_PF h hq hr).1 hd)⟩

/-- **C24.** For every consistent table and every set `S` of nodes — overlapping or not — `delete` leaves a consistent table
(so without gaps), whose forest and data are the old ones without the chosen nodes and their descendants. -/
theorem C24_delete (h : Consistent db) (S : Nat → Bool) :
    ∃ D : Nat → Bool, (∀ k, D k = true ↔ k ∈ db.rows.map Row.pk ∧ Tree.Doomed (forest db) S k) ∧
      Consistent (delete db (fun r => S r.pk)) ∧ forest (delete db (fun r => S r.pk)) = (forest db).prune D ∧
      data (delete db (fun r => S r.pk)).rows = (data db.rows).filter (fun e => !D e.1) := by
  obtain ⟨h1, h2, h3⟩ := delete_spec h (fun r => S r.pk)
  exact ⟨_, doomed_spec h.toNI S, h1, by rw [forest_eq h1.toNI, forest_eq h.toNI]; exact h2, h3⟩

/-- ancestor and descendant both chosen, in two trees -/
example : Consistent exDB ∧ (delete exDB (fun r => [3, 4, 5].contains r.pk)).rows = [⟨1, 1, 1, 4, 1, []⟩, ⟨2, 1, 2, 3, 2, []⟩] :=
  ⟨exDB_inv, by decide⟩

/-- The table when the process dies after `n` statements of `delete` (in autocommit mode every statement is committed at once;
ns_tree.py:30-73 opens no transaction). -/
def crashed (db : DB) (sel : Row → Bool) (n : Nat) : DB := ((deleteStmts db sel).take n).foldl execDel db

/-- **C28.** At every crash point: nothing has happened yet, or the forest and the data are already those of the finished
deletion.  In both cases the intervals are properly nested with right depths (`NI`: as `Consistent`, but numbers may be
missing), so every query answers as on the finished table. -/
theorem C28_crash (h : Consistent db) (S : Nat → Bool) (n : Nat) :
    crashed db (fun r => S r.pk) n = db ∨
    (NI (crashed db (fun r => S r.pk) n).rows ∧
      forest (crashed db (fun r => S r.pk) n) = forest (delete db (fun r => S r.pk)) ∧
      data (crashed db (fun r => S r.pk) n).rows = data (delete db (fun r => S r.pk)).rows) := by
  by_cases hn : n = 0
  · left; subst hn; rfl
  · right
    obtain ⟨h1, h2, h3, _⟩ := delete_prefix h (fun r => S r.pk) n hn
    obtain ⟨g1, g2, g3⟩ := delete_spec h (fun r => S r.pk)
    exact ⟨h1, (forest_eq (db := crashed db (fun r => S r.pk) n) h1).trans ((h2.trans g2.symm).trans (forest_eq g1.toNI).symm), h3.trans g3.symm⟩

/-! ### C27 for NS -/

/-- **C27 for NS** (partial: targets without children).  After `add_child(target)` on an up-to-date leaf the caller's object is the
stored row.  Missing: targets with children, for which the claim is false (`C27_ns_stale`). -/
theorem C27_ns_leaf_partial (h : Consistent db) {t : Row} (ht : t ∈ db.rows) (hl : forest db (some t.pk) = []) {new : Row} (hf : Fresh db new) :
    ∃ db' obj target', addChild cfg db t new = .ok (db', obj, target') ∧ target' ∈ db'.rows ∧ target'.pk = t.pk := by
  have hleaf : t.isLeaf = true := by
    cases e : t.isLeaf with
    | true => rfl
    | false =>
      obtain ⟨c, hc, hp⟩ := exists_child h ht e
      have := (mem_forest h hc).2 hp
      rw [hl] at this; cases this
  obtain ⟨db', obj, e, ha, hrows⟩ := addChild_leaf (cfg := cfg) h ht rfl hleaf hf .last (Or.inr rfl)
  refine ⟨db', obj, _, e, ?_, rfl⟩
  rw [hrows]
  refine List.mem_append.2 (Or.inl (List.mem_map.2 ⟨t, ht, ?_⟩))
  have := h.lr t ht
  unfold gapRow
  rw [if_pos ⟨by omega, rfl⟩, if_neg (by omega)]

/-- node 2 of `exC27` has a child and a following sibling -/
def exC27 : DB := { rows := [⟨1, 1, 1, 8, 1, []⟩, ⟨2, 1, 2, 5, 2, []⟩, ⟨4, 1, 3, 4, 3, []⟩, ⟨3, 1, 6, 7, 2, []⟩] }

theorem exC27_inv : NInv exC27.rows := by
  refine ⟨by decide, ?_⟩
  intro r hr
  refine full_of_range 8 ?_ ?_
  · revert r; decide
  · revert r; decide

/-- **C27 fails for NS when the target has children**: ns_tree.py:158-159 adds 2 to `node.rgt`, and then `target.rgt = node.rgt + 2`
adds 2 more.  The caller's object then disagrees with its row, and its `get_descendants()` contains node 3, which is not a
descendant. -/
theorem C27_ns_stale : Consistent exC27 ∧
    ∃ db' obj target', addChild ⟨[]⟩ exC27 ⟨2, 1, 2, 5, 2, []⟩ ⟨9, 0, 0, 0, 0, []⟩ = .ok (db', obj, target') ∧
      (⟨2, 1, 2, 7, 2, []⟩ : Row) ∈ db'.rows ∧ target' = ⟨2, 1, 2, 9, 2, []⟩ ∧
      3 ∈ (descendants db' target' false none).map Row.pk ∧ ¬ (forest db').Desc 2 3 ∧ 3 ∈ forest db' (some 1) := by
  obtain ⟨db', hdb, e⟩ : ∃ db' : DB, db'.rows = [⟨1, 1, 1, 10, 1, []⟩, ⟨2, 1, 2, 7, 2, []⟩, ⟨4, 1, 3, 4, 3, []⟩, ⟨3, 1, 8, 9, 2, []⟩, ⟨9, 1, 5, 6, 3, []⟩] ∧
      addChild ⟨[]⟩ exC27 ⟨2, 1, 2, 5, 2, []⟩ ⟨9, 0, 0, 0, 0, []⟩ = .ok (db', ⟨9, 1, 5, 6, 3, []⟩, ⟨2, 1, 2, 9, 2, []⟩) :=
    ⟨⟨_, _⟩, rfl, rfl⟩
  have hi : NI db'.rows := by rw [hdb]; decide
  have h2 : (⟨2, 1, 2, 7, 2, []⟩ : Row) ∈ db'.rows := by rw [hdb]; decide
  have h3 : (⟨3, 1, 8, 9, 2, []⟩ : Row) ∈ db'.rows := by rw [hdb]; decide
  refine ⟨exC27_inv, db', _, _, e, h2, rfl, ?_, ?_, ?_⟩
  · unfold descendants getTree
    rw [hdb]; decide
  · rw [forest_eq hi]
    intro hd
    exact absurd ((desc_PF hi h2 h3).1 hd) (by decide)
  · rw [forest_eq hi]
    unfold PF
    rw [hdb]; decide

end Verif.NS
