/-
C19 for AL: `dump_bulk` and `load_bulk`.
-/
import Verif.AL.Dump

namespace Verif.AL

variable {cfg : Cfg} {db : DB}

/-- C19: `dump_bulk(parent, keep_ids)` on a well-formed table returns the nested structure of the whole forest, or of the branch of `parent`, with the
data of the nodes and, with `keep_ids`, their primary keys.  A wrong `_cached_depth` of `parent` does no harm. -/
theorem C19_al_dump (h : Wf cfg db) {parent : Option (Row × Option Int)} (hp : ∀ p, parent = some p → p.1 ∈ db.rows) (keep : Bool) :
    ∃ d, dumpBulk cfg db parent keep = .ok d ∧
      Dumps (forest cfg db) (valsIn (data db.rows)) keep ((forest cfg db).dumpTops (parent.map (fun p => p.1.pk))) d :=
  dump_shows h.ai hp keep

theorem load_holds {parent : Option (Row × Option Int)} (hp : ∀ p, parent = some p → p.1.pk ∈ db.rows.map Row.pk) {n : Nest Nat}
    (hnd : n.labels.Nodup) (hfresh : ∀ k ∈ n.labels, ∀ r ∈ db.rows, r.pk ≠ k) {V : Nat → Vals} {T : Forest}
    (hT : Grafted (forest cfg db) T (parent.map (fun p => p.1.pk)) n) (h : Holds cfg T V db) :
    ∃ db', load cfg db parent (n.map (fun k => (k, V k))) = .ok (db', n.labels) ∧ Holds cfg T V db' ∧ forest cfg db' = T ∧
      data db'.rows = data db.rows ++ n.labels.map (fun k => (k, V k)) := by
  have hTg := hT.eq hnd
  subst hTg
  obtain ⟨db', e, hi, hg, hd⟩ := (loads (cfg := cfg)).grafted (s := db) (h := parent) h
    ⟨rfl, by
      intro k hk
      cases parent with
      | none => cases hk
      | some p => cases hk; exact hp p rfl⟩ hnd
    (by
      intro k hk hm
      rw [data_keys] at hm
      obtain ⟨r, hr, e⟩ := List.mem_map.1 hm
      exact hfresh k hk r hr e)
    (fun k hk => (isForestOn h.ai).outside k hk)
  exact ⟨db', e, hi, hg.eq hnd, hd⟩

/-- C19: without `node_order_by`, `load_bulk` attaches the structure below `parent`, after its children.  `parent` is any object with the primary key of a
stored node. -/
theorem C19_al_load (ho : cfg.ordered = false) (h : Consistent cfg db) {parent : Option (Row × Option Int)}
    (hp : ∀ p, parent = some p → p.1.pk ∈ db.rows.map Row.pk) {n : Nest Nat}
    (hnd : n.labels.Nodup) (hfresh : ∀ k ∈ n.labels, ∀ r ∈ db.rows, r.pk ≠ k) {V : Nat → Vals} (hV : ∀ r ∈ db.rows, V r.pk = r.vals) {T : Forest}
    (hT : Grafted (forest cfg db) T (parent.map (fun p => p.1.pk)) n) :
    ∃ db', load cfg db parent (n.map (fun k => (k, V k))) = .ok (db', n.labels) ∧ Consistent cfg db' ∧ forest cfg db' = T ∧
      data db'.rows = data db.rows ++ n.labels.map (fun k => (k, V k)) := by
  have hno : ¬ cfg.ordered = true := by rw [ho]; decide
  obtain ⟨db', e, hi, hf, hd⟩ := load_holds hp hnd hfresh hT ⟨h.toWf.ai, hV, Or.inr ⟨h.inv ho, fun e => absurd e hno⟩⟩
  exact ⟨db', e, consistent_of_inv ho (hi.inv.resolve_left (fun e => hno e.1)).1, hf, hd⟩

/-- What makes the order of the siblings certain with `node_order_by`: the database returns rows that are equal for `order_by` in the order of the
table, and there are no nulls in the order fields; or no two siblings are equal. -/
def Certain (cfg : Cfg) (db : DB) : Prop :=
  (cfg.ties = id ∧ ∀ r ∈ db.rows, NonNull cfg.orderBy r.vals) ∨ NoTies cfg db

/-- C19: with `node_order_by`, `load_bulk` attaches the structure below `parent`, if the resulting tree is sorted (partial: the order of equal siblings has
to be certain; see `C19_al_ties`). -/
theorem C19_al_load_sorted_partial (ho : cfg.ordered = true) (h : Wf cfg db) {parent : Option (Row × Option Int)}
    (hp : ∀ p, parent = some p → p.1.pk ∈ db.rows.map Row.pk) {n : Nest Nat}
    (hnd : n.labels.Nodup) (hfresh : ∀ k ∈ n.labels, ∀ r ∈ db.rows, r.pk ≠ k) {V : Nat → Vals} (hV : ∀ r ∈ db.rows, V r.pk = r.vals) {T : Forest}
    (hT : Grafted (forest cfg db) T (parent.map (fun p => p.1.pk)) n)
    (hs : (cfg.ties = id ∧ T.SortedBy cfg.orderBy V) ∨ (NoTies cfg db ∧ ∀ p, (T p).Pairwise (fun a b => keyLt cfg.orderBy (V a) (V b)))) :
    ∃ db', load cfg db parent (n.map (fun k => (k, V k))) = .ok (db', n.labels) ∧ Wf cfg db' ∧ forest cfg db' = T ∧
      data db'.rows = data db.rows ++ n.labels.map (fun k => (k, V k)) := by
  obtain ⟨db', e, hi, hf, hd⟩ := load_holds hp hnd hfresh hT ⟨h.ai, hV, by
    rcases hs with ⟨h1, h2⟩ | ⟨h1, h2⟩
    · exact Or.inl ⟨ho, h1, h2⟩
    · exact Or.inr ⟨inv_of_noTies ho h h1, fun _ => h2⟩⟩
  exact ⟨db', e, wf_of_ai hi.ai, hf, hd⟩

theorem roundtrip_holds (h : Wf cfg db) (keep : Bool) {keys : Nat → Nat} (hkeys : keep = false → ∀ i j, keys i = keys j → i = j)
    (hH : ∀ T V f, (forest cfg db).Renamed T ((data db.rows).map Prod.fst) f → (∀ a ∈ (data db.rows).map Prod.fst, V (f a) = valsIn (data db.rows) a) →
      Holds cfg T V ⟨[]⟩) :
    ∃ d m i db' added T V, dumpBulk cfg db none keep = .ok d ∧ prepare keep keys 0 d = .ok (m, i) ∧ load cfg ⟨[]⟩ none m = .ok (db', added) ∧
      Holds cfg T V db' ∧ (forest cfg db').DFS (forest cfg db' none) added ∧ Restored keep (forest cfg db) (forest cfg db') (data db.rows) (data db'.rows) := by
  have hnd : ((data db.rows).map Prod.fst).Nodup := by rw [data_keys]; exact h.pks
  obtain ⟨d, ed, hd⟩ := C19_al_dump h (parent := none) (by simp) keep
  obtain ⟨m, i, db', added, T, V, ep, el, hi, ha, hr⟩ := roundtrip_loads (isForestOn h.ai) (v := valsIn (data db.rows))
    (fun e he => valsIn_mem hnd he) hd hkeys (s₀ := (⟨[]⟩ : DB)) (forest := forest cfg) (data := fun db => data db.rows)
    (I := Holds cfg) (Handle := Handle)
    (by
      rw [forest_eq (empty_inv (cfg := cfg)).toAI]
      funext p
      rw [List.eq_nil_iff_forall_not_mem]
      intro k hk
      obtain ⟨r, hr, _⟩ := mem_PF.1 hk
      simp at hr) rfl
    ⟨rfl, by simp⟩
    (fun T V f hren hV => ⟨hH T V f hren (by
      intro a ha
      obtain ⟨e, he, rfl⟩ := List.mem_map.1 ha
      rw [hV e he, valsIn_mem hnd he]), loads⟩)
  exact ⟨d, m, i, db', added, T, V, ed, ep, el, hi, ha, hr⟩

/-- C19: without `node_order_by`, dumping a consistent tree and loading the structure into an empty table restores the tree: the same forest in
the same order with the same data; with `keep_ids` also with the same primary keys.  The returned keys are those of all nodes, in the order of the tree.  `keys` are the keys that the database chooses without
`keep_ids`. -/
theorem C19_al (ho : cfg.ordered = false) (h : Consistent cfg db) (keep : Bool) {keys : Nat → Nat}
    (hkeys : keep = false → ∀ i j, keys i = keys j → i = j) :
    ∃ d m i db' added, dumpBulk cfg db none keep = .ok d ∧ prepare keep keys 0 d = .ok (m, i) ∧ load cfg ⟨[]⟩ none m = .ok (db', added) ∧
      Consistent cfg db' ∧ (forest cfg db').DFS (forest cfg db' none) added ∧ Restored keep (forest cfg db) (forest cfg db') (data db.rows) (data db'.rows) := by
  have hno : ¬ cfg.ordered = true := by rw [ho]; decide
  obtain ⟨d, m, i, db', added, T, V, ed, ep, el, hi, ha, hr⟩ := roundtrip_holds h.toWf keep hkeys
    (fun T V f _ _ => ⟨(empty_inv (cfg := cfg)).toAI, by simp, Or.inr ⟨empty_inv, fun e => absurd e hno⟩⟩)
  exact ⟨d, m, i, db', added, ed, ep, el, consistent_of_inv ho (hi.inv.resolve_left (fun e => hno e.1)).1, ha, hr⟩

/-- C19 with `node_order_by` (partial: the order of equal siblings has to be certain; see `C19_al_ties`). -/
theorem C19_al_sorted_partial (ho : cfg.ordered = true) (h : Wf cfg db) (hs : Certain cfg db) (keep : Bool) {keys : Nat → Nat}
    (hkeys : keep = false → ∀ i j, keys i = keys j → i = j) :
    ∃ d m i db' added, dumpBulk cfg db none keep = .ok d ∧ prepare keep keys 0 d = .ok (m, i) ∧ load cfg ⟨[]⟩ none m = .ok (db', added) ∧
      Wf cfg db' ∧ (forest cfg db').DFS (forest cfg db' none) added ∧ Restored keep (forest cfg db) (forest cfg db') (data db.rows) (data db'.rows) := by
  have hmem : ∀ p, ∀ k ∈ forest cfg db p, k ∈ (data db.rows).map Prod.fst := by
    intro p k hk
    rw [forest_eq h.ai] at hk
    obtain ⟨r, hr, _, rfl⟩ := mem_PF.1 hk
    rw [data_keys]; exact List.mem_map_of_mem hr
  obtain ⟨d, m, i, db', added, T, V, ed, ep, el, hi, ha, hr⟩ := roundtrip_holds h keep hkeys
    (fun T V f hren hV => ⟨(empty_inv (cfg := cfg)).toAI, by simp, by
      rcases hs with ⟨h1, h2⟩ | h1
      · exact Or.inl ⟨ho, h1, hren.sorted hmem hV (C16_al_sorted ho h h2)⟩
      · refine Or.inr ⟨empty_inv, fun _ => hren.pairwise hmem hV ?_⟩
        intro p
        rw [forest_eq h.ai]
        unfold PF
        rw [List.pairwise_map]
        refine (order_sorted (db := ⟨db.rows⟩) (inv_of_noTies ho h h1) p).imp_of_mem ?_
        intro a b ha hb hlt
        rw [vals_eq h.ai (mem_withParent.1 (mem_order.1 ha)).1, vals_eq h.ai (mem_withParent.1 (mem_order.1 hb)).1]
        exact (lt_ordered ho).1 hlt⟩)
  exact ⟨d, m, i, db', added, ed, ep, el, wf_of_ai hi.ai, ha, hr⟩

/-- a database that returns equal rows in the opposite order of the table -/
def exReverse : Cfg := { orderBy := [(0, false)], ties := List.reverse, ties_perm := fun l => List.reverse_perm l }

/-- **C19 fails for AL with equal siblings**: nothing tells the order of siblings with equal values, so the restored tree may show them in another
order. -/
theorem C19_al_ties : ∃ (db db' : DB) (d : Nest Item) (m : Nest (Nat × Vals)) (i : Nat) (added : List Nat), Wf exReverse db ∧ dumpBulk exReverse db none true = .ok d ∧
    prepare true id 0 d = .ok (m, i) ∧ load exReverse ⟨[]⟩ none m = .ok (db', added) ∧ forest exReverse db none = [2, 1] ∧ forest exReverse db' none = [1, 2] := by
  refine ⟨⟨[⟨1, none, 0, [some 7]⟩, ⟨2, none, 0, [some 7]⟩]⟩, ⟨[⟨2, none, 0, [some 7]⟩, ⟨1, none, 0, [some 7]⟩]⟩,
    .cons (some 2, [some 7]) .nil (.cons (some 1, [some 7]) .nil .nil), .cons (2, [some 7]) .nil (.cons (1, [some 7]) .nil .nil), 0, [2, 1], ?_, by decide, by decide, ?_, by decide, by decide⟩
  · refine wf_of_ai (ai_example id (by decide) ?_)
    intro r hr p e
    simp only [List.mem_cons, List.not_mem_nil, or_false] at hr
    rcases hr with rfl | rfl <;> simp at e
  · rw [load, loadBulk_eq]; decide

/-! The hypotheses are met by the tables of the examples. -/

example : dumpBulk exPlain exDB none true = .ok (.cons (some 1, []) (.cons (some 2, []) .nil (.cons (some 3, []) (.cons (some 4, []) .nil .nil) .nil))
    (.cons (some 5, []) .nil .nil)) := by decide

/-- with a wrong cached depth -/
example : dumpBulk exPlain exDB (some (⟨3, some 1, 4, []⟩, some 7)) false = .ok (.cons (none, []) (.cons (none, []) .nil .nil) .nil) := by decide

example : ∃ d m i db' added, dumpBulk exPlain exDB none false = .ok d ∧ prepare false (fun i => 100 + i) 0 d = .ok (m, i) ∧
    load exPlain ⟨[]⟩ none m = .ok (db', added) ∧ Consistent exPlain db' ∧
    (forest exPlain db').DFS (forest exPlain db' none) added ∧ Restored false (forest exPlain exDB) (forest exPlain db') (data exDB.rows) (data db'.rows) :=
  C19_al rfl (consistent_of_inv rfl exDB_inv) false (fun _ i j h => by simpa using h)

example : ∃ d m i db' added, dumpBulk exSorted exSDB none true = .ok d ∧ prepare true id 0 d = .ok (m, i) ∧
    load exSorted ⟨[]⟩ none m = .ok (db', added) ∧ Wf exSorted db' ∧
    (forest exSorted db').DFS (forest exSorted db' none) added ∧ Restored true (forest exSorted exSDB) (forest exSorted db') (data exSDB.rows) (data db'.rows) :=
  C19_al_sorted_partial rfl (wf_of_ai exSDB_inv.toAI) (Or.inr (noTies_of_inv rfl exSDB_inv)) true (fun h => absurd h (by decide))

/-- a node 10 with two children, to be loaded below the node 3 -/
def exNest : Nest Nat := .cons 10 (.cons 11 .nil (.cons 12 .nil .nil)) .nil

example : ∃ db', load exPlain exDB (some (⟨3, none, 0, []⟩, none)) (exNest.map (fun k => (k, []))) = .ok (db', [10, 11, 12]) ∧ Consistent exPlain db' ∧
    forest exPlain db' = graft (forest exPlain exDB) (some 3) exNest ∧ data db'.rows = data exDB.rows ++ [(10, []), (11, []), (12, [])] :=
  C19_al_load rfl (consistent_of_inv rfl exDB_inv) (parent := some (⟨3, none, 0, []⟩, none)) (by rintro p ⟨⟩; decide) (n := exNest) (by decide) (by decide)
    (by decide) (graft_grafted (by decide) (by decide))

end Verif.AL
