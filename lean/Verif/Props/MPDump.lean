/-
C19 for MP: `dump_bulk` and `load_bulk`.
-/
import Verif.MP.Dump
import Verif.RoundTrip
import Verif.Props.MPAdd
import Verif.MP.Example

namespace Verif.MP

variable {cfg : Cfg} {db : DB}

/-- C19: `dump_bulk(parent, keep_ids)` on a consistent tree returns the nested structure of the whole forest, or of the branch of `parent`, with the data
of the nodes and, with `keep_ids`, their primary keys. -/
theorem C19_mp_dump (hok : cfg.Ok) (h : Consistent cfg db) {parent : Option Row} (hp : ∀ p, parent = some p → p ∈ db.rows) (keep : Bool) :
    ∃ d, dumpBulk cfg db parent keep = .ok d ∧
      Dumps (forest cfg db) (valsOf db) keep ((forest cfg db).dumpTops (parent.map Row.pk)) d := by
  have hi := (consistent_iff hok).1 h
  rw [forest_eq hi hok]
  exact dump_shows hok hi.toPInv hp keep

/-- C19: `load_bulk` attaches the structure below `parent`, after its children, as long as there is room for it: positions after the last child of
`parent`, positions below every new node, and path lengths.  With `node_order_by`, the resulting tree has to be sorted. -/
theorem C19_mp_load (hok : cfg.Ok) (h : Consistent cfg db) {parent : Option Row} (hp : ∀ p, parent = some p → p ∈ db.rows) {n : Nest Nat}
    (hnd : n.labels.Nodup) (hfresh : ∀ k ∈ n.labels, ∀ r ∈ db.rows, r.pk ≠ k) {V : Nat → Vals} (hV : ∀ r ∈ db.rows, V r.pk = r.vals) {T : Forest}
    (hT : Grafted (forest cfg db) T (parent.map Row.pk) n)
    (hroom : RoomAfter cfg db.rows ((parent.map Row.path).getD []) n.tops.length) (hwide : ∀ k ∈ n.labels, (T (some k)).length < cfg.cap)
    (hdeep : ∀ k ∈ n.labels, ∀ l, T.Level k l → l = 1 ∨ l * cfg.steplen ≤ cfg.maxLen)
    (hsort : cfg.ordered = true → T.SortedBy cfg.orderBy V ∧ ∀ k ∈ n.labels, NonNull cfg.orderBy (V k)) :
    ∃ db', load cfg db parent (n.map (fun k => (k, V k))) = .ok (db', n.labels) ∧ Consistent cfg db' ∧ forest cfg db' = T ∧
      data db'.rows = data db.rows ++ n.labels.map (fun k => (k, V k)) := by
  have hi := (consistent_iff hok).1 h
  rw [forest_eq hi hok] at hT
  have hh : Handle db parent (parent.map Row.pk) := by
    cases parent with
    | none => rfl
    | some p => exact ⟨rfl, p, hp p rfl, rfl⟩
  have hP : IsPar db.rows ((parent.map Row.path).getD []) ∧ at? db.rows ((parent.map Row.path).getD []) = parent.map Row.pk := by
    cases parent with
    | none => exact ⟨Or.inl rfl, at?_nil hi.toPInv hok⟩
    | some p => exact ⟨Or.inr ⟨p, hp p rfl, rfl⟩, at?_row hi.toPInv (hp p rfl)⟩
  obtain ⟨db', e, hi', hf, hd⟩ := load_grafts hok hi hh hP.1 hP.2 hnd hfresh hV hT hroom hwide hdeep hsort
  exact ⟨db', e, (consistent_iff hok).2 hi', by rw [forest_eq hi' hok, hf], hd⟩

/-- C19: dumping a consistent tree (sorted, if it has `node_order_by`) whose paths fit in the column, and loading the structure into an empty table, restores the tree: the same forest in
the same order with the same data; with `keep_ids` also with the same primary keys.  The returned keys are those of all nodes, in the order of the tree.  `keys` are the keys that the database chooses without
`keep_ids`. -/
theorem C19_mp (hok : cfg.Ok) (h : Consistent cfg db) (hfit : ∀ r ∈ db.rows, r.path.length ≤ cfg.maxLen)
    (hsort : cfg.ordered = true → SortedTree cfg db) (keep : Bool) {keys : Nat → Nat} (hkeys : keep = false → ∀ i j, keys i = keys j → i = j) :
    ∃ d m i db' added, dumpBulk cfg db none keep = .ok d ∧ prepare keep keys 0 d = .ok (m, i) ∧ load cfg { rows := [] } none m = .ok (db', added) ∧
      Consistent cfg db' ∧ (forest cfg db').DFS (forest cfg db' none) added ∧ Restored keep (forest cfg db) (forest cfg db') (data db.rows) (data db'.rows) := by
  have hi := (consistent_iff hok).1 h
  have hcap := cap_gt_one hok
  have hfe := forest_eq hi hok
  obtain ⟨d, ed, hd⟩ := C19_mp_dump hok h (parent := none) (by simp) keep
  have hpks : (data db.rows).map Prod.fst = db.rows.map Row.pk := by simp [data, Function.comp_def]
  have hF : (forest cfg db).IsForestOn ((data db.rows).map Prod.fst) := by
    rw [hpks, hfe]; exact isForestOn hi.inv hok.step
  have hmemF : ∀ p, ∀ k ∈ forest cfg db p, k ∈ (data db.rows).map Prod.fst := by
    intro p k hk
    rw [hfe] at hk
    obtain ⟨r, hr, _, rfl⟩ := (mem_PF hi.toPInv).1 hk
    exact mem_data.2 ⟨r, hr, rfl⟩
  obtain ⟨m, V, i, f, ep, hnd, hlp, hV, hren, _, hrest⟩ := roundtrip hF (v := valsOf db)
    (by
      intro e he
      obtain ⟨r, hr, rfl⟩ := List.mem_map.1 he
      exact valsOf_row hi.inv hr) hd hkeys
  -- the tree to be loaded
  have hT : Grafted (fun _ => []) (graft (fun _ => []) none m) none m := graft_grafted hnd (by simp)
  have hR := hren _ hT
  have hc0 : Consistent cfg { rows := [] } := (consistent_iff hok).2 ⟨⟨⟨List.nodup_nil, List.nodup_nil, by simp, by simp⟩, by simp, by simp, by simp⟩, by intro r hr; simp at hr⟩
  have hf0 : forest cfg { rows := [] } = fun _ => [] := by
    rw [forest_eq ((consistent_iff hok).1 hc0) hok]
    funext p
    rw [List.eq_nil_iff_forall_not_mem]
    intro y hy
    obtain ⟨r, hr, _⟩ := (mem_PF ((consistent_iff hok).1 hc0).toPInv).1 hy
    simp at hr
  have hlen : ∀ k ∈ m.labels, ∃ e ∈ data db.rows, f e.1 = k := by
    intro k hk
    have := hlp.mem_iff.1 hk
    simpa using this
  obtain ⟨db', el, hc', hf', hd'⟩ := C19_mp_load hok hc0 (parent := none) (by simp) (n := m) hnd (by simp) (V := V) (by simp)
    (T := graft (fun _ => []) none m) (by rw [hf0]; exact hT)
    ⟨by
      have := hR.roots
      rw [hT.tops, List.nil_append] at this
      rw [this, List.length_map, hfe]
      exact PF_length_lt hok hi.toPInv none, by simp⟩
    (by
      intro k hk
      obtain ⟨e, he, rfl⟩ := hlen k hk
      rw [hR.kids e.1 (List.mem_map_of_mem he), List.length_map, hfe]
      exact PF_length_lt hok hi.toPInv _)
    (by
      intro k hk l hl
      obtain ⟨e, he, rfl⟩ := hlen k hk
      have := hR.level hmemF (List.mem_map_of_mem he) hl
      obtain ⟨r, hr, rfl⟩ := List.mem_map.1 he
      rw [hfe] at this
      have hd := (level_PF hi.toPInv hok hr).1 this
      have h1 := hi.depth r hr
      rw [hd] at h1
      exact Or.inr (h1 ▸ hfit r hr))
    (by
      intro ho
      obtain ⟨hnn, hso⟩ := hsort ho
      have hVv : ∀ a ∈ (data db.rows).map Prod.fst, V (f a) = valsOf db a := by
        intro a ha
        obtain ⟨e, he, rfl⟩ := List.mem_map.1 ha
        rw [hV e he]
        obtain ⟨r, hr, rfl⟩ := List.mem_map.1 he
        exact (valsOf_row hi.inv hr).symm
      have hlist : ∀ p, ((forest cfg db p).map f).Pairwise (fun a b => ¬ keyLt cfg.orderBy (V b) (V a)) := by
        intro p
        rw [List.pairwise_map]
        refine List.Pairwise.imp_of_mem ?_ (hso p)
        intro a b ha hb hab
        rw [hVv a (hmemF p a ha), hVv b (hmemF p b hb)]
        exact hab
      refine ⟨?_, ?_⟩
      · intro q
        cases q with
        | none => rw [hR.roots]; exact hlist none
        | some k =>
          by_cases hk : k ∈ ((data db.rows).map Prod.fst).map f
          · obtain ⟨a, ha, rfl⟩ := List.mem_map.1 hk
            rw [hR.kids a ha]; exact hlist _
          · rw [hR.outside k hk]; exact List.Pairwise.nil
      · intro k hk
        obtain ⟨e, he, rfl⟩ := hlen k hk
        rw [hV e he]
        obtain ⟨r, hr, rfl⟩ := List.mem_map.1 he
        exact hnn r hr)
  refine ⟨d, _, i, db', _, ed, ep, el, hc', ?_⟩
  rw [hf']
  refine ⟨by rw [hT.tops, List.nil_append]; exact hT.inside.dfs, ?_⟩
  refine hrest _ _ hT ?_
  rw [hd']
  exact List.Perm.refl _

/-! The hypotheses are met by a tree with a gap, and by a sorted tree. -/

example : ∃ d, dumpBulk exCfg exDB none true = .ok d ∧ d = .cons (some 1, []) (.cons (some 2, []) .nil (.cons (some 3, []) (.cons (some 4, []) .nil .nil) .nil))
    (.cons (some 5, []) .nil .nil) := ⟨_, by rfl, rfl⟩

example : ∃ d m i db' added, dumpBulk exCfg exDB none false = .ok d ∧ prepare false (fun i => 100 + i) 0 d = .ok (m, i) ∧
    load exCfg { rows := [] } none m = .ok (db', added) ∧ Consistent exCfg db' ∧ (forest exCfg db').DFS (forest exCfg db' none) added ∧ Restored false (forest exCfg exDB) (forest exCfg db') (data exDB.rows) (data db'.rows) :=
  C19_mp exCfg_ok exDB_consistent (by decide) (fun h => absurd h (by decide)) false (fun _ i j h => by simpa using h)

example : ∃ d m i db' added, dumpBulk exCfgS exDBS none true = .ok d ∧ prepare true id 0 d = .ok (m, i) ∧
    load exCfgS { rows := [] } none m = .ok (db', added) ∧ Consistent exCfgS db' ∧ (forest exCfgS db').DFS (forest exCfgS db' none) added ∧ Restored true (forest exCfgS exDBS) (forest exCfgS db') (data exDBS.rows) (data db'.rows) :=
  C19_mp exCfgS_ok exDBS_consistent (by decide) (fun _ => ⟨exDBS_sorted.1, exDBS_sorted.2⟩) true (fun _ i j h => h)

/-- the tree of the example with a node 10 with two children below the node 3 -/
def exLoaded : Forest := fun p =>
  match p with
  | none => [1, 5]
  | some k => if k = 1 then [2, 3] else if k = 3 then [4, 10] else if k = 10 then [11, 12] else []

def exNest : Nest Nat := .cons 10 (.cons 11 .nil (.cons 12 .nil .nil)) .nil

theorem exLoaded_level {k l : Nat} (h : exLoaded.Level k l) : l ≤ if k = 1 ∨ k = 5 then 1 else if k = 2 ∨ k = 3 then 2 else if k = 4 ∨ k = 10 then 3 else 4 := by
  induction h with
  | root h =>
    simp only [exLoaded, List.mem_cons, List.not_mem_nil, or_false] at h
    rcases h with rfl | rfl <;> simp
  | @child p x l _ hx ih =>
    simp only [exLoaded] at hx
    split at hx
    · rename_i hp
      simp only [List.mem_cons, List.not_mem_nil, or_false] at hx
      subst hp
      simp only [true_or, if_true] at ih
      rcases hx with rfl | rfl <;> simp <;> omega
    · split at hx
      · rename_i hp
        simp only [List.mem_cons, List.not_mem_nil, or_false] at hx
        subst hp
        simp at ih
        rcases hx with rfl | rfl <;> simp <;> omega
      · split at hx
        · rename_i hp
          simp only [List.mem_cons, List.not_mem_nil, or_false] at hx
          subst hp
          simp at ih
          rcases hx with rfl | rfl <;> simp <;> omega
        · simp at hx

theorem exDB_forest_eq : forest exCfg exDB = fun p => match p with
    | none => [1, 5]
    | some k => if k = 1 then [2, 3] else if k = 3 then [4] else [] := by
  have hi := (consistent_iff exCfg_ok).1 exDB_consistent
  have hF : (forest exCfg exDB).IsForestOn (exDB.rows.map Row.pk) := by
    rw [forest_eq hi exCfg_ok]; exact isForestOn hi.inv exCfg_ok.step
  funext p
  cases p with
  | none => decide
  | some k =>
    by_cases hk : k ∈ exDB.rows.map Row.pk
    · revert k; decide
    · rw [hF.outside k hk]
      have h1 : k ≠ 1 := by rintro rfl; exact hk (by decide)
      have h3 : k ≠ 3 := by rintro rfl; exact hk (by decide)
      simp [h1, h3]

theorem exLoaded_grafted : Grafted (forest exCfg exDB) exLoaded (some 3) exNest := by
  rw [exDB_forest_eq]
  refine ⟨rfl, ?_, ?_⟩
  · refine .cons ?_ .nil
    show Nest.Shown _ [11, 12] _
    exact .cons .nil (.cons .nil .nil)
  · intro q hq hk
    cases q with
    | none => rfl
    | some k =>
      have h3 : k ≠ 3 := fun e => hq (by rw [e])
      have h10 : k ≠ 10 := fun e => hk 10 (by decide) (by rw [e])
      simp [exLoaded, h3, h10]

example : ∃ db', load exCfg exDB (some ⟨3, [49, 51], 2, 1, []⟩) (exNest.map (fun k => (k, []))) = .ok (db', [10, 11, 12]) ∧ Consistent exCfg db' ∧
    forest exCfg db' = exLoaded ∧ data db'.rows = data exDB.rows ++ [(10, []), (11, []), (12, [])] :=
  C19_mp_load exCfg_ok exDB_consistent (parent := some ⟨3, [49, 51], 2, 1, []⟩) (by rintro p ⟨⟩; decide) (n := exNest) (by decide) (by decide)
    (by decide) exLoaded_grafted
    ⟨by decide, by decide⟩ (by decide)
    (by
      intro k _ l hl
      have := exLoaded_level hl
      have : l ≤ 4 := by split at this <;> [skip; split at this <;> [skip; split at this]] <;> omega
      right
      show l * 1 ≤ 10
      omega)
    (fun h => absurd h (by decide))

end Verif.MP
