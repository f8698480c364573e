/-
C19 for NS: `dump_bulk` and `load_bulk`.
-/
import Verif.NS.Dump
import Verif.NS.History

namespace Verif.NS

variable {cfg : Cfg} {db : DB}

/-- C19: `dump_bulk(parent, keep_ids)` on a consistent tree returns the nested structure of the whole forest, or of the branch of `parent`, with the data
of the nodes and, with `keep_ids`, their primary keys. -/
theorem C19_ns_dump (h : Consistent db) {parent : Option Row} (hp : ∀ p, parent = some p → p ∈ db.rows) (keep : Bool) :
    ∃ d, dumpBulk db parent keep = .ok d ∧
      Dumps (forest db) (valsIn (data db.rows)) keep ((forest db).dumpTops (parent.map Row.pk)) d :=
  dump_shows h hp keep

/-- C19: `load_bulk` attaches the structure below `parent`, after its children.  `parent` is any object with the primary key of a stored node.  With
`node_order_by`, the resulting tree has to be sorted. -/
theorem C19_ns_load (h : Consistent db) {parent : Option Row} (hp : ∀ p, parent = some p → p.pk ∈ db.rows.map Row.pk) {n : Nest Nat}
    (hnd : n.labels.Nodup) (hfresh : ∀ k ∈ n.labels, ∀ r ∈ db.rows, r.pk ≠ k) {V : Nat → Vals} (hV : ∀ r ∈ db.rows, V r.pk = r.vals) {T : Forest}
    (hT : Grafted (forest db) T (parent.map Row.pk) n)
    (hsort : cfg.ordered = true → T.SortedBy cfg.orderBy V ∧ ∀ k ∈ n.labels, NonNull cfg.orderBy (V k)) :
    ∃ db', load cfg db parent (n.map (fun k => (k, V k))) = .ok (db', n.labels) ∧ Consistent db' ∧ forest db' = T ∧
      data db'.rows = data db.rows ++ n.labels.map (fun k => (k, V k)) := by
  have hTg := hT.eq hnd
  subst hTg
  have L := loads (cfg := cfg) (T := graft (forest db) (parent.map Row.pk) n) (V := V) (K := db.rows.map Row.pk) (by
    intro ho
    refine ⟨(hsort ho).1, ?_⟩
    intro p k hk hkn
    rcases hT.mem hk with h1 | h1
    · rw [← keys_eq] at hkn
      exact absurd (forest_keys h h1) hkn
    · exact (hsort ho).2 k h1)
  obtain ⟨db', e, ⟨hi, _⟩, hg, hd⟩ := L.grafted (s := db) (h := parent) ⟨⟨h, hV⟩, fun k hk => hk⟩
    ⟨rfl, by
      intro k hk
      cases parent with
      | none => cases hk
      | some p => cases hk; exact hp p rfl⟩ hnd
    (by
      intro k hk hm
      rw [keys_eq] at hm
      obtain ⟨r, hr, e⟩ := List.mem_map.1 hm
      exact hfresh k hk r hr e)
    (by
      intro k hk
      rw [keys_eq] at hk
      exact forest_nil hk)
  exact ⟨db', e, hi.1, hg.eq hnd, hd⟩

/-- C19: dumping a consistent tree (sorted, if it has `node_order_by`) and loading the structure into an empty table restores the tree: the same
forest in the same order with the same data; with `keep_ids` also with the same primary keys.  The returned keys are those of all nodes, in the order of the tree.  `keys` are the keys that the database chooses without
`keep_ids`. -/
theorem C19_ns (h : Consistent db) (hsort : cfg.ordered = true → SortedTree cfg db) (keep : Bool) {keys : Nat → Nat}
    (hkeys : keep = false → ∀ i j, keys i = keys j → i = j) :
    ∃ d m i db' added, dumpBulk db none keep = .ok d ∧ prepare keep keys 0 d = .ok (m, i) ∧ load cfg { rows := [] } none m = .ok (db', added) ∧
      Consistent db' ∧ (forest db').DFS (forest db' none) added ∧ Restored keep (forest db) (forest db') (data db.rows) (data db'.rows) := by
  obtain ⟨d, ed, hd⟩ := C19_ns_dump h (parent := none) (by simp) keep
  obtain ⟨m, i, db', added, T, V, ep, el, hi, ha, hr⟩ := roundtrip_loads (isForestOn h) (v := valsIn (data db.rows))
    (fun e he => valsIn_mem (keys_nodup h) he) hd hkeys (s₀ := ({ rows := [] } : DB)) (forest := forest) (data := fun db => data db.rows)
    (I := fun _ V db => Holds V db ∧ ∀ k ∈ ([] : List Nat), k ∈ db.rows.map Row.pk) (Handle := Handle)
    (by
      funext p
      rw [List.eq_nil_iff_forall_not_mem]
      intro k hk
      have := forest_keys empty_consistent hk
      simp [data] at this) rfl
    ⟨rfl, by simp⟩
    (fun T V f hren hV => ⟨⟨⟨empty_consistent, by simp⟩, by simp⟩, loads (cfg := cfg) (by
      intro ho
      have hs := hsort ho
      have hVv : ∀ a ∈ (data db.rows).map Prod.fst, V (f a) = valsIn (data db.rows) a := by
        intro a ha
        obtain ⟨e, he, rfl⟩ := List.mem_map.1 ha
        rw [hV e he, valsIn_mem (keys_nodup h) he]
      refine ⟨hren.sorted (fun p k hk => forest_keys h hk) hVv hs.sorted, ?_⟩
      intro p k hk _
      obtain ⟨a, ha, rfl⟩ := hren.mem (fun p k hk => forest_keys h hk) hk
      obtain ⟨e, he, rfl⟩ := List.mem_map.1 ha
      rw [hV e he]
      exact hs.nonNull e he)⟩)
  exact ⟨d, m, i, db', added, ed, ep, el, hi.1.1, ha, hr⟩

/-! The hypotheses are met by the tables of the examples. -/

example : dumpBulk exDB none true = .ok (.cons (some 1, []) (.cons (some 2, []) .nil (.cons (some 3, []) (.cons (some 4, []) .nil .nil) .nil))
    (.cons (some 5, []) .nil .nil)) := by decide

example : dumpBulk exDB (some ⟨3, 1, 4, 7, 2, []⟩) false = .ok (.cons (none, []) (.cons (none, []) .nil .nil) .nil) := by decide

example : ∃ d, dumpBulk exDB (some ⟨3, 1, 4, 7, 2, []⟩) true = .ok d ∧ Dumps (forest exDB) (valsIn (data exDB.rows)) true [3] d :=
  C19_ns_dump exDB_inv (by rintro p ⟨⟩; decide) true

example : ∃ d m i db' added, dumpBulk exDB none false = .ok d ∧ prepare false (fun i => 100 + i) 0 d = .ok (m, i) ∧
    load ⟨[]⟩ { rows := [] } none m = .ok (db', added) ∧ Consistent db' ∧ (forest db').DFS (forest db' none) added ∧ Restored false (forest exDB) (forest db') (data exDB.rows) (data db'.rows) :=
  C19_ns exDB_inv (fun h => absurd h (by decide)) false (fun _ i j h => by simpa using h)

example : ∃ d m i db' added, dumpBulk exSDB none true = .ok d ∧ prepare true id 0 d = .ok (m, i) ∧
    load exSorted { rows := [] } none m = .ok (db', added) ∧ Consistent db' ∧ (forest db').DFS (forest db' none) added ∧ Restored true (forest exSDB) (forest db') (data exSDB.rows) (data db'.rows) :=
  C19_ns exSDB_inv (fun _ => exSDB_sorted) true (fun h => absurd h (by decide))

/-- a node 10 with two children, to be loaded below the node 3 -/
def exNest : Nest Nat := .cons 10 (.cons 11 .nil (.cons 12 .nil .nil)) .nil

example : ∃ db', load ⟨[]⟩ exDB (some ⟨3, 0, 0, 0, 0, []⟩) (exNest.map (fun k => (k, []))) = .ok (db', [10, 11, 12]) ∧ Consistent db' ∧
    forest db' = graft (forest exDB) (some 3) exNest ∧ data db'.rows = data exDB.rows ++ [(10, []), (11, []), (12, [])] :=
  C19_ns_load exDB_inv (parent := some ⟨3, 0, 0, 0, 0, []⟩) (by rintro p ⟨⟩; decide) (n := exNest) (by decide) (by decide)
    (by decide) (graft_grafted (by decide) (by decide)) (fun h => absurd h (by decide))

end Verif.NS
