/-
C19 for LT: `dump_bulk` and `load_bulk`.
-/
import Verif.LT.Dump

namespace Verif.LT

variable {cfg : Cfg} {db : DB}

/-- C19: `dump_bulk(parent, keep_ids)` on a consistent tree returns the nested structure of the whole forest, or of the branch of `parent`, with the data
of the nodes and, with `keep_ids`, their primary keys. -/
theorem C19_lt_dump (h : Consistent db) {parent : Option Row} (hp : ∀ p, parent = some p → p ∈ db.rows) (keep : Bool) :
    ∃ d, dumpBulk db parent keep = .ok d ∧
      Dumps (forest db) (valsIn (data db.rows)) keep ((forest db).dumpTops (parent.map Row.pk)) d :=
  dump_shows h hp keep

/-- `load_bulk` for a state that allows it -/
theorem load_holds {parent : Option Row} (hp : ∀ p, parent = some p → p ∈ db.rows) {n : Nest Nat}
    (hnd : n.labels.Nodup) (hfresh : ∀ k ∈ n.labels, ∀ r ∈ db.rows, r.pk ≠ k) {V : Nat → Vals} {T : Forest}
    (hT : Grafted (forest db) T (parent.map Row.pk) n) (h : Holds cfg (db.rows.map Row.pk) T V db)
    (hsort : cfg.ordered = true → T.SortedBy cfg.orderBy V ∧ ∀ k ∈ n.labels, NonNull cfg.orderBy (V k))
    (hsmall : ∀ p, Free cfg p → (∃ k ∈ T p, k ∈ n.labels) → (T p).length ≤ 26) :
    ∃ db', load cfg db parent (n.map (fun k => (k, V k))) = .ok (db', n.labels) ∧ Consistent db' ∧ forest db' = T ∧
      data db'.rows = data db.rows ++ n.labels.map (fun k => (k, V k)) := by
  have hTg := hT.eq hnd
  subst hTg
  have hnew : ∀ {p k}, k ∈ graft (forest db) (parent.map Row.pk) n p → k ∉ db.rows.map Row.pk → k ∈ n.labels := by
    intro p k hk hkn
    rcases hT.mem hk with h1 | h1
    · rw [← keys_eq] at hkn
      exact absurd (forest_keys h.inv.inv h1) hkn
    · exact h1
  have L := loads (cfg := cfg) (T := graft (forest db) (parent.map Row.pk) n) (V := V) (K := db.rows.map Row.pk)
    (fun ho => ⟨(hsort ho).1, fun p k hk hkn => (hsort ho).2 k (hnew hk hkn)⟩)
    (fun p hfree ⟨k, hk, hkn⟩ => hsmall p hfree ⟨k, hk, hnew hk hkn⟩)
  obtain ⟨db', e, hi, hg, hd⟩ := L.grafted (s := db) (h := parent) h ⟨rfl, hp⟩ hnd
    (by
      intro k hk hm
      rw [keys_eq] at hm
      obtain ⟨r, hr, e⟩ := List.mem_map.1 hm
      exact hfresh k hk r hr e)
    (by
      intro k hk
      rw [keys_eq] at hk
      exact forest_nil hk)
  exact ⟨db', e, consistent_iff.2 hi.inv, hg.eq hnd, hd⟩

/-- C19: without `node_order_by`, `load_bulk` attaches the structure below a stored node, after its children. -/
theorem C19_lt_load (ho : cfg.ordered = false) (h : Consistent db) {parent : Row} (hp : parent ∈ db.rows) {n : Nest Nat}
    (hnd : n.labels.Nodup) (hfresh : ∀ k ∈ n.labels, ∀ r ∈ db.rows, r.pk ≠ k) {V : Nat → Vals} (hV : ∀ r ∈ db.rows, V r.pk = r.vals) {T : Forest}
    (hT : Grafted (forest db) T (some parent.pk) n) :
    ∃ db', load cfg db (some parent) (n.map (fun k => (k, V k))) = .ok (db', n.labels) ∧ Consistent db' ∧ forest db' = T ∧
      data db'.rows = data db.rows ++ n.labels.map (fun k => (k, V k)) := by
  have hno : ¬ cfg.ordered = true := by rw [ho]; decide
  have hroots : ∀ k ∈ n.labels, k ∉ T none := by
    intro k hk hkT
    have hTn := hT.others none (by simp) (by simp)
    rw [hTn] at hkT
    have := forest_keys h.inv.inv hkT
    rw [keys_eq] at this
    obtain ⟨r, hr, e⟩ := List.mem_map.1 this
    exact hfresh k hk r hr e
  refine load_holds (parent := some parent) (by rintro p ⟨⟩; exact hp) hnd hfresh hT ⟨h.inv, hV, fun _ hk => hk, ?_⟩ (fun e => absurd e hno) ?_
  · rintro g q hg (rfl | hfree) ⟨k, hk, hkn⟩
    · have hTn := hT.others none (by simp) (by simp)
      rw [hTn] at hk
      have := forest_keys h.inv.inv hk
      rw [keys_eq] at this
      exact absurd this hkn
    · exact absurd hfree hno
  · rintro p (rfl | hfree) ⟨k, hk, hkn⟩
    · exact absurd hk (hroots k hkn)
    · exact absurd hfree hno

/-- the labels of the children of `p`, in the order of the tree, are the letters A, B, … -/
def FirstLetters (db : DB) (p : Option Nat) : Prop :=
  ∀ i, ∀ r ∈ db.rows, (forest db p)[i]? = some r.pk → lastLabel r.path = [65 + i]

theorem neat_of (h : Consistent db) {hd : Option Row} {p : Option Nat} (hh : Handle db hd p) (hfl : FirstLetters db p) : Neat db (pathOf hd) := by
  have hfor := hh.forest h.inv.inv
  unfold Neat sibLabels letters
  rw [List.map_map]
  refine List.ext_getElem? ?_
  intro i
  rw [List.getElem?_map, List.getElem?_map]
  cases hi : (below db (pathOf hd) ((pathOf hd).length + 1))[i]? with
  | none =>
    rw [List.getElem?_eq_none_iff] at hi
    simp [hi]
  | some r =>
    have hlt : i < (below db (pathOf hd) ((pathOf hd).length + 1)).length := by
      rw [List.getElem?_eq_some_iff] at hi
      exact hi.1
    rw [List.getElem?_range hlt]
    have hr := (mem_below h.inv.inv).1 (List.mem_of_getElem? hi)
    simp only [Option.map_some, Function.comp, Option.some.injEq]
    refine hfl i r hr.1 ?_
    rw [hfor, List.getElem?_map, hi]; rfl

/-- C19: `load_bulk` for roots, or with `node_order_by` (partial: where nodes are added without neighbours, the labels so far have to be A, B, … and
there may be 26 siblings at most; see `C19_lt_fails`). -/
theorem C19_lt_load_partial (h : Consistent db) {parent : Option Row} (hp : ∀ p, parent = some p → p ∈ db.rows) {n : Nest Nat}
    (hnd : n.labels.Nodup) (hfresh : ∀ k ∈ n.labels, ∀ r ∈ db.rows, r.pk ≠ k) {V : Nat → Vals} (hV : ∀ r ∈ db.rows, V r.pk = r.vals) {T : Forest}
    (hT : Grafted (forest db) T (parent.map Row.pk) n)
    (hsort : cfg.ordered = true → T.SortedBy cfg.orderBy V ∧ ∀ k ∈ n.labels, NonNull cfg.orderBy (V k))
    (hfl : FirstLetters db (parent.map Row.pk)) (hsmall : ∀ p, p = none ∨ cfg.ordered = true → (∃ k ∈ T p, k ∈ n.labels) → (T p).length ≤ 26) :
    ∃ db', load cfg db parent (n.map (fun k => (k, V k))) = .ok (db', n.labels) ∧ Consistent db' ∧ forest db' = T ∧
      data db'.rows = data db.rows ++ n.labels.map (fun k => (k, V k)) := by
  refine load_holds hp hnd hfresh hT ⟨h.inv, hV, fun _ hk => hk, ?_⟩ hsort hsmall
  rintro g q hg hfree ⟨k, hk, hkn⟩
  by_cases hq : q = parent.map Row.pk
  · subst hq
    exact neat_of h hg hfl
  · have hTq : T q = forest db q := by
      refine hT.others q hq ?_
      intro j hj e
      subst e
      have hgd := hg.1
      cases g with
      | none => cases hgd
      | some t =>
        simp only [Option.map_some, Option.some.injEq] at hgd
        exact hfresh j hj t (hg.2 t rfl) hgd
    rw [hTq] at hk
    have := forest_keys h.inv.inv hk
    rw [keys_eq] at this
    exact absurd this hkn

/-- C19: dumping a consistent tree (sorted, if it has `node_order_by`) and loading the structure into an empty table restores the tree: the same
forest in the same order with the same data; with `keep_ids` also with the same primary keys.  The returned keys are those of all nodes, in the order of the tree.  `keys` are the keys that the database chooses without
`keep_ids`.  Partial: at most 26 roots, and with `node_order_by` at most 26 children of any node; see `C19_lt_fails`. -/
theorem C19_lt_partial (h : Consistent db) (hsort : cfg.ordered = true → SortedData cfg.orderBy (forest db) (data db.rows))
    (hroots : (forest db none).length ≤ 26) (hkids : cfg.ordered = true → ∀ p, (forest db p).length ≤ 26) (keep : Bool) {keys : Nat → Nat}
    (hkeys : keep = false → ∀ i j, keys i = keys j → i = j) :
    ∃ d m i db' added, dumpBulk db none keep = .ok d ∧ prepare keep keys 0 d = .ok (m, i) ∧ load cfg ⟨[], []⟩ none m = .ok (db', added) ∧
      Consistent db' ∧ (forest db').DFS (forest db' none) added ∧ Restored keep (forest db) (forest db') (data db.rows) (data db'.rows) := by
  have hnd : ((data db.rows).map Prod.fst).Nodup := by rw [keys_eq]; exact h.pks
  have hmem : ∀ p, ∀ k ∈ forest db p, k ∈ (data db.rows).map Prod.fst := fun p k hk => forest_keys h.inv.inv hk
  obtain ⟨d, ed, hd⟩ := C19_lt_dump h (parent := none) (by simp) keep
  obtain ⟨m, i, db', added, T, V, ep, el, hi, ha, hr⟩ := roundtrip_loads (isForestOn h) (v := valsIn (data db.rows))
    (fun e he => valsIn_mem hnd he) hd hkeys (s₀ := (⟨[], []⟩ : DB)) (forest := forest) (data := fun db => data db.rows)
    (I := fun T V => Holds cfg [] T V) (Handle := Handle)
    (by
      funext p
      rw [List.eq_nil_iff_forall_not_mem]
      intro k hk
      have := forest_keys (db := ⟨[], []⟩) (empty_consistent (sigs := [])).inv.inv hk
      simp [data] at this) rfl
    ⟨rfl, by simp⟩
    (fun T V f hren hV => by
      have hVv : ∀ a ∈ (data db.rows).map Prod.fst, V (f a) = valsIn (data db.rows) a := by
        intro a ha
        obtain ⟨e, he, rfl⟩ := List.mem_map.1 ha
        rw [hV e he, valsIn_mem hnd he]
      refine ⟨⟨(empty_consistent (sigs := [])).inv, by simp, by simp, ?_⟩, loads (cfg := cfg) ?_ ?_⟩
      · rintro g q hg _ _
        rfl
      · intro ho
        have hs := hsort ho
        refine ⟨hren.sorted hmem hVv hs.sorted, ?_⟩
        intro p k hk _
        obtain ⟨a, ha, rfl⟩ := hren.mem hmem hk
        obtain ⟨e, he, rfl⟩ := List.mem_map.1 ha
        rw [hV e he]
        exact hs.nonNull e he
      · rintro p hfree _
        cases p with
        | none => rw [hren.roots, List.length_map]; exact hroots
        | some k =>
          have ho : cfg.ordered = true := hfree.resolve_left (by simp)
          by_cases hk : k ∈ ((data db.rows).map Prod.fst).map f
          · obtain ⟨a, ha, rfl⟩ := List.mem_map.1 hk
            rw [hren.kids a ha, List.length_map]; exact hkids ho _
          · rw [hren.outside k hk]; simp)
  exact ⟨d, m, i, db', added, ed, ep, el, consistent_iff.2 hi.inv, ha, hr⟩

/-- 27 roots; their labels are A to Z and ZA -/
def exMany : DB := ⟨(List.range 27).map (fun i => ⟨i + 1, [if i < 26 then [65 + i] else [90, 65]], []⟩), []⟩

/-- **C19 fails for LT with 27 roots**: the labels of the loaded roots are A to Z and then AA, which comes between A and B, so the last root of the
dumped tree is the second one of the restored tree. -/
theorem C19_lt_fails : ∃ (db db' : DB) (d : Nest Item) (m : Nest (Nat × Vals)) (i : Nat) (added : List Nat), Consistent db ∧
    dumpBulk db none true = .ok d ∧ prepare true id 0 d = .ok (m, i) ∧ load ⟨[]⟩ ⟨[], []⟩ none m = .ok (db', added) ∧
    forest db none = (List.range 27).map (· + 1) ∧ forest db' none = 1 :: 27 :: (List.range 25).map (· + 2) := by
  refine ⟨exMany, ⟨(List.range 27).map (fun i => ⟨i + 1, [if i < 26 then [65 + i] else [65, 65]], []⟩), []⟩,
    (List.range 27).foldr (fun i n => .cons (some (i + 1), []) .nil n) .nil, (List.range 27).foldr (fun i n => .cons (i + 1, []) .nil n) .nil,
    0, (List.range 27).map (· + 1), consistent_iff.2 (inv_of_check (by decide +kernel)), by decide +kernel, by decide +kernel, ?_, by decide +kernel, by decide +kernel⟩
  rw [load, loadBulk_eq]; decide +kernel

/-! The hypotheses are met by the tables of the examples. -/

example : dumpBulk exDB none true = .ok (.cons (some 1, []) (.cons (some 2, []) .nil (.cons (some 3, []) (.cons (some 4, []) .nil .nil) .nil))
    (.cons (some 5, []) .nil .nil)) := by decide

example : dumpBulk exDB (some ⟨3, [[65], [66]], []⟩) false = .ok (.cons (none, []) (.cons (none, []) .nil .nil) .nil) := by decide

example : ∃ d, dumpBulk exDB (some ⟨3, [[65], [66]], []⟩) true = .ok d ∧ Dumps (forest exDB) (valsIn (data exDB.rows)) true [3] d :=
  C19_lt_dump (consistent_iff.2 exDB_inv) (by rintro p ⟨⟩; decide) true

example : ∃ d m i db' added, dumpBulk exDB none false = .ok d ∧ prepare false (fun i => 100 + i) 0 d = .ok (m, i) ∧
    load ⟨[]⟩ ⟨[], []⟩ none m = .ok (db', added) ∧ Consistent db' ∧ (forest db').DFS (forest db' none) added ∧ Restored false (forest exDB) (forest db') (data exDB.rows) (data db'.rows) :=
  C19_lt_partial (consistent_iff.2 exDB_inv) (fun h => absurd h (by decide)) (by decide) (fun h => absurd h (by decide)) false (fun _ i j h => by simpa using h)

example : ∃ d m i db' added, dumpBulk exSDB none true = .ok d ∧ prepare true id 0 d = .ok (m, i) ∧
    load exSorted ⟨[], []⟩ none m = .ok (db', added) ∧ Consistent db' ∧ (forest db').DFS (forest db' none) added ∧ Restored true (forest exSDB) (forest db') (data exSDB.rows) (data db'.rows) :=
  C19_lt_partial (consistent_iff.2 exSDB_inv) (fun _ => exSDB_sorted) (by decide) (by
    rintro - (_ | k)
    · decide
    · by_cases hk : k ∈ exSDB.rows.map Row.pk
      · revert k; decide
      · rw [forest_nil hk]; simp) true (fun h => absurd h (by decide))

/-- a node 10 with two children, to be loaded below the node 3 -/
def exNest : Nest Nat := .cons 10 (.cons 11 .nil (.cons 12 .nil .nil)) .nil

example : ∃ db', load ⟨[]⟩ exDB (some ⟨3, [[65], [66]], []⟩) (exNest.map (fun k => (k, []))) = .ok (db', [10, 11, 12]) ∧ Consistent db' ∧
    forest db' = graft (forest exDB) (some 3) exNest ∧ data db'.rows = data exDB.rows ++ [(10, []), (11, []), (12, [])] :=
  C19_lt_load rfl (consistent_iff.2 exDB_inv) (parent := ⟨3, [[65], [66]], []⟩) (by decide) (n := exNest) (by decide) (by decide)
    (by decide) (graft_grafted (by decide) (by decide))

example : ∃ db', load ⟨[]⟩ exDB none (exNest.map (fun k => (k, []))) = .ok (db', [10, 11, 12]) ∧ Consistent db' ∧
    forest db' = graft (forest exDB) none exNest ∧ data db'.rows = data exDB.rows ++ [(10, []), (11, []), (12, [])] := by
  refine C19_lt_load_partial (consistent_iff.2 exDB_inv) (parent := none) (by simp) (n := exNest) (by decide) (by decide)
    (by decide) (graft_grafted (by decide) (by decide)) (fun h => absurd h (by decide)) ?_ ?_
  · intro i r hr hi
    have : i < 2 := by
      by_contra hc
      rw [List.getElem?_eq_none (by show 2 ≤ i; omega)] at hi
      cases hi
    have hall : ∀ i < 2, ∀ r ∈ exDB.rows, (forest exDB none)[i]? = some r.pk → lastLabel r.path = [65 + i] := by decide
    exact hall i this r hr hi
  · rintro p (rfl | hf) _
    · decide
    · exact absurd hf (by decide)

end Verif.LT
