/-
C82: a tree dumped by one kind of tree model and loaded by another one.
-/
import Verif.MigrateLemmas

namespace Verif

/-- the dump exists, whatever the kind -/
theorem C82_dumps (keep : Bool) :
    (∀ {cfg : MP.Cfg} {db : MP.DB}, cfg.Ok → MP.Consistent cfg db → ∃ d, MP.dumpBulk cfg db none keep = .ok d ∧ DumpOf keep d (MP.forest cfg db) (MP.data db.rows)) ∧
    (∀ {db : NS.DB}, NS.Consistent db → ∃ d, NS.dumpBulk db none keep = .ok d ∧ DumpOf keep d (NS.forest db) (NS.data db.rows)) ∧
    (∀ {cfg : AL.Cfg} {db : AL.DB}, AL.Wf cfg db → ∃ d, AL.dumpBulk cfg db none keep = .ok d ∧ DumpOf keep d (AL.forest cfg db) (AL.data db.rows)) ∧
    (∀ {db : LT.DB}, LT.Consistent db → ∃ d, LT.dumpBulk db none keep = .ok d ∧ DumpOf keep d (LT.forest db) (LT.data db.rows)) := by
  refine ⟨?_, ?_, ?_, ?_⟩
  · intro cfg db hok h
    obtain ⟨d, e, _⟩ := MP.C19_mp_dump hok h (parent := none) (by simp) keep
    exact ⟨d, e, .mp hok h e⟩
  · intro db h
    obtain ⟨d, e, _⟩ := NS.C19_ns_dump h (parent := none) (by simp) keep
    exact ⟨d, e, .ns h e⟩
  · intro cfg db h
    obtain ⟨d, e, _⟩ := AL.C19_al_dump h (parent := none) (by simp) keep
    exact ⟨d, e, .al h e⟩
  · intro db h
    obtain ⟨d, e, _⟩ := LT.C19_lt_dump h (parent := none) (by simp) keep
    exact ⟨d, e, .lt h e⟩

variable {keep : Bool} {d : Nest Item} {F : Forest} {D : List (Nat × Vals)} {keys : Nat → Nat}

/-- **C82 to MP**: the dump of any kind of tree is restored by an MP model whose steps and path length suffice for its widths and levels. -/
theorem C82_mp {cfg : MP.Cfg} (hok : cfg.Ok) (h : DumpOf keep d F D) (hkeys : keep = false → ∀ i j, keys i = keys j → i = j)
    (hwide : ∀ p, (F p).length < cfg.cap) (hdeep : ∀ k l, F.Level k l → l * cfg.steplen ≤ cfg.maxLen) (hsort : cfg.ordered = true → SortedData cfg.orderBy F D) :
    ∃ m i db' added, prepare keep keys 0 d = .ok (m, i) ∧ MP.load cfg { rows := [] } none m = .ok (db', added) ∧ MP.Consistent cfg db' ∧
      Restored keep F (MP.forest cfg db') D (MP.data db'.rows) := by
  obtain ⟨m, V, i, f, T, ep, hnd, hT, hren, hlab, hV, hsub, hrest⟩ := h.target hkeys
  have hc0 : MP.Consistent cfg { rows := [] } := (MP.consistent_iff hok).2 ⟨⟨⟨List.nodup_nil, List.nodup_nil, by simp, by simp⟩, by simp, by simp, by simp⟩, by intro r hr; simp at hr⟩
  have hf0 : MP.forest cfg { rows := [] } = fun _ => [] := by
    rw [MP.forest_eq ((MP.consistent_iff hok).1 hc0) hok]
    funext p
    rw [List.eq_nil_iff_forall_not_mem]
    intro y hy
    obtain ⟨r, hr, _⟩ := (MP.mem_PF ((MP.consistent_iff hok).1 hc0).toPInv).1 hy
    simp at hr
  obtain ⟨db', el, hc', hf', hd'⟩ := MP.C19_mp_load hok hc0 (parent := none) (by simp) (n := m) hnd (by simp) (V := V) (by simp) (T := T) (by rw [hf0]; exact hT)
    ⟨by
      have := hren.roots
      rw [hT.tops, List.nil_append] at this
      rw [this, List.length_map]; exact hwide none, by simp⟩
    (by
      intro k hk
      obtain ⟨e, he, rfl, _⟩ := hlab k hk
      rw [hren.kids e.1 (List.mem_map_of_mem he), List.length_map]; exact hwide _)
    (by
      intro k hk l hl
      obtain ⟨e, he, rfl, _⟩ := hlab k hk
      exact Or.inr (hdeep _ _ (hren.level hsub (List.mem_map_of_mem he) hl)))
    (fun ho => sorted_target hren hlab hV hsub (hsort ho))
  refine ⟨_, i, db', _, ep, el, hc', ?_⟩
  rw [hf', hd']; exact hrest

/-- **C82 to NS**: the dump of any kind of tree is restored. -/
theorem C82_ns {cfg : NS.Cfg} (h : DumpOf keep d F D) (hkeys : keep = false → ∀ i j, keys i = keys j → i = j) (hsort : cfg.ordered = true → SortedData cfg.orderBy F D) :
    ∃ m i db' added, prepare keep keys 0 d = .ok (m, i) ∧ NS.load cfg { rows := [] } none m = .ok (db', added) ∧ NS.Consistent db' ∧
      Restored keep F (NS.forest db') D (NS.data db'.rows) := by
  obtain ⟨m, V, i, f, T, ep, hnd, hT, hren, hlab, hV, hsub, hrest⟩ := h.target hkeys
  have hf0 : NS.forest { rows := [] } = fun _ => [] := by
    funext p
    rw [List.eq_nil_iff_forall_not_mem]
    intro k hk
    have := NS.forest_keys NS.empty_consistent hk
    simp [NS.data] at this
  obtain ⟨db', el, hc', hf', hd'⟩ := NS.C19_ns_load (cfg := cfg) NS.empty_consistent (parent := none) (by simp) (n := m) hnd (by simp) (V := V) (by simp) (T := T)
    (by rw [hf0]; exact hT) (fun ho => sorted_target hren hlab hV hsub (hsort ho))
  refine ⟨_, i, db', _, ep, el, hc', ?_⟩
  rw [hf', hd']; exact hrest

/-- the empty AL table -/
theorem AL.forest_empty {cfg : AL.Cfg} : AL.forest cfg ⟨[]⟩ = fun _ => [] := by
  rw [AL.forest_eq (AL.empty_inv (cfg := cfg)).toAI]
  funext p
  rw [List.eq_nil_iff_forall_not_mem]
  intro k hk
  obtain ⟨r, hr, _⟩ := AL.mem_PF.1 hk
  simp at hr

/-- **C82 to AL**, without `node_order_by`: the dump of any kind of tree is restored. -/
theorem C82_al {cfg : AL.Cfg} (ho : cfg.ordered = false) (h : DumpOf keep d F D) (hkeys : keep = false → ∀ i j, keys i = keys j → i = j) :
    ∃ m i db' added, prepare keep keys 0 d = .ok (m, i) ∧ AL.load cfg ⟨[]⟩ none m = .ok (db', added) ∧ AL.Consistent cfg db' ∧
      Restored keep F (AL.forest cfg db') D (AL.data db'.rows) := by
  obtain ⟨m, V, i, f, T, ep, hnd, hT, hren, hlab, hV, hsub, hrest⟩ := h.target hkeys
  obtain ⟨db', el, hc', hf', hd'⟩ := AL.C19_al_load ho (AL.consistent_of_inv ho AL.empty_inv) (parent := none) (by simp) (n := m) hnd (by simp) (V := V) (by simp) (T := T)
    (by rw [AL.forest_empty]; exact hT)
  refine ⟨_, i, db', _, ep, el, hc', ?_⟩
  rw [hf', hd']; exact hrest

/-- C82 to AL with `node_order_by` (partial: no equal siblings, or a database that returns equal rows in the order of the table; see `C19_al_ties`). -/
theorem C82_al_sorted_partial {cfg : AL.Cfg} (ho : cfg.ordered = true) (h : DumpOf keep d F D) (hkeys : keep = false → ∀ i j, keys i = keys j → i = j)
    (hs : (cfg.ties = id ∧ SortedData cfg.orderBy F D) ∨ ∀ p, (F p).Pairwise (fun a b => keyLt cfg.orderBy (valsIn D a) (valsIn D b))) :
    ∃ m i db' added, prepare keep keys 0 d = .ok (m, i) ∧ AL.load cfg ⟨[]⟩ none m = .ok (db', added) ∧ AL.Wf cfg db' ∧
      Restored keep F (AL.forest cfg db') D (AL.data db'.rows) := by
  obtain ⟨m, V, i, f, T, ep, hnd, hT, hren, hlab, hV, hsub, hrest⟩ := h.target hkeys
  obtain ⟨db', el, hc', hf', hd'⟩ := AL.C19_al_load_sorted_partial ho (AL.wf_of_ai (AL.empty_inv (cfg := cfg)).toAI) (parent := none) (by simp) (n := m) hnd (by simp) (V := V) (by simp) (T := T)
    (by rw [AL.forest_empty]; exact hT)
    (by
      rcases hs with ⟨h1, h2⟩ | h2
      · exact Or.inl ⟨h1, hren.sorted hsub hV h2.sorted⟩
      · exact Or.inr ⟨by intro a ha; simp at ha, hren.pairwise hsub hV h2⟩)
  refine ⟨_, i, db', _, ep, el, hc', ?_⟩
  rw [hf', hd']; exact hrest

/-- **C82 to LT** (partial: at most 26 roots, and with `node_order_by` at most 26 children of any node; see `C82_lt_fails`). -/
theorem C82_lt_partial {cfg : LT.Cfg} (h : DumpOf keep d F D) (hkeys : keep = false → ∀ i j, keys i = keys j → i = j) (hsort : cfg.ordered = true → SortedData cfg.orderBy F D)
    (hroots : (F none).length ≤ 26) (hkids : cfg.ordered = true → ∀ p, (F p).length ≤ 26) :
    ∃ m i db' added, prepare keep keys 0 d = .ok (m, i) ∧ LT.load cfg ⟨[], []⟩ none m = .ok (db', added) ∧ LT.Consistent db' ∧
      Restored keep F (LT.forest db') D (LT.data db'.rows) := by
  obtain ⟨m, V, i, f, T, ep, hnd, hT, hren, hlab, hV, hsub, hrest⟩ := h.target hkeys
  have hf0 : LT.forest ⟨[], []⟩ = fun _ => [] := by
    funext p
    rw [List.eq_nil_iff_forall_not_mem]
    intro k hk
    have := LT.forest_keys (db := ⟨[], []⟩) (LT.empty_consistent (sigs := [])).inv.inv hk
    simp [LT.data] at this
  obtain ⟨db', el, hc', hf', hd'⟩ := LT.C19_lt_load_partial (cfg := cfg) (db := ⟨[], []⟩) LT.empty_consistent (parent := none) (by simp) (n := m) hnd (by simp) (V := V) (by simp) (T := T)
    (by rw [hf0]; exact hT) (fun ho => sorted_target hren hlab hV hsub (hsort ho)) (by intro i r hr; simp at hr)
    (by
      rintro p hp _
      cases p with
      | none => rw [hren.roots, List.length_map]; exact hroots
      | some k =>
        have ho : cfg.ordered = true := hp.resolve_left (by simp)
        by_cases hk : k ∈ (D.map Prod.fst).map f
        · obtain ⟨a, ha, rfl⟩ := List.mem_map.1 hk
          rw [hren.kids a ha, List.length_map]; exact hkids ho _
        · rw [hren.outside k hk]; simp)
  refine ⟨_, i, db', _, ep, el, hc', ?_⟩
  rw [hf', hd']; exact hrest

/-- **C82, several migrations**: what restores a restored tree restores the tree. -/
theorem C82_chain (h : DumpOf keep d F D) {F' F'' : Forest} {D' D'' : List (Nat × Vals)} (h1 : Restored keep F F' D D') (h2 : Restored keep F' F'' D' D'') : Restored keep F F'' D D'' :=
  h1.trans h2 h.shows.1.good.sub

/-- **C82, there and back**: an MP tree migrated to NS and back is the tree it was, with `keep_ids` also with its keys. -/
theorem C82_back {cfg : MP.Cfg} {ncfg : NS.Cfg} (hok : cfg.Ok) (ho : ncfg.ordered = true → ncfg.orderBy = cfg.orderBy) {db : MP.DB} (h : MP.Consistent cfg db)
    (hs : cfg.ordered = true ∨ ncfg.ordered = true → SortedData cfg.orderBy (MP.forest cfg db) (MP.data db.rows)) (hfit : ∀ r ∈ db.rows, r.path.length ≤ cfg.maxLen) :
    ∃ d m i ndb added d' m' i' db' added', MP.dumpBulk cfg db none true = .ok d ∧ prepare true keys 0 d = .ok (m, i) ∧ NS.load ncfg { rows := [] } none m = .ok (ndb, added) ∧
      NS.dumpBulk ndb none true = .ok d' ∧ prepare true keys 0 d' = .ok (m', i') ∧ MP.load cfg { rows := [] } none m' = .ok (db', added') ∧ MP.Consistent cfg db' ∧
      MP.forest cfg db' = MP.forest cfg db ∧ (MP.data db'.rows).Perm (MP.data db.rows) := by
  have hi := (MP.consistent_iff hok).1 h
  have hfe := MP.forest_eq hi hok
  obtain ⟨d, ed, hd⟩ := (C82_dumps true).1 hok h
  obtain ⟨m, i, ndb, added, ep, el, hc, hr⟩ := C82_ns (cfg := ncfg) (keys := keys) hd (fun e => by cases e) (fun e => by rw [ho e]; exact hs (Or.inr e))
  obtain ⟨d', ed', hd'⟩ := (C82_dumps true).2.1 hc
  obtain ⟨hF, hP⟩ := hr.same rfl
  obtain ⟨m', i', db', added', ep', el', hc', hr'⟩ := C82_mp (cfg := cfg) (keys := keys) hok hd' (fun e => by cases e)
    (by intro p; rw [hF, hfe]; exact MP.PF_length_lt hok hi.toPInv p)
    (by
      intro k l hl
      rw [hF] at hl
      have hkm : k ∈ db.rows.map MP.Row.pk := by
        have hsub := (MP.isForestOn_forest hok h).good.sub
        cases hl with
        | root hm => exact hsub _ _ hm
        | child _ hm => exact hsub _ _ hm
      obtain ⟨r, hrm, rfl⟩ := List.mem_map.1 hkm
      rw [hfe] at hl
      have hdep := (MP.level_PF hi.toPInv hok hrm).1 hl
      have h1 := hi.depth r hrm
      rw [hdep] at h1
      exact h1 ▸ hfit r hrm)
    (by
      intro e
      have hsd := hs (Or.inl e)
      refine ⟨fun x hx => hsd.nonNull x (hP.mem_iff.1 hx), ?_⟩
      rw [hF]
      intro p
      refine List.Pairwise.imp_of_mem ?_ (hsd.sorted p)
      intro a b ha hb hab
      have hv : ∀ k ∈ MP.forest cfg db p, valsIn (NS.data ndb.rows) k = valsIn (MP.data db.rows) k := by
        intro k hk
        have hkm := hd.shows.1.good.sub p k hk
        obtain ⟨x, hx, rfl⟩ := List.mem_map.1 hkm
        rw [valsIn_mem hd.shows.2.1 hx, valsIn_mem (NS.keys_nodup hc) (hP.mem_iff.2 hx)]
      rw [hv a ha, hv b hb]
      exact hab)
  obtain ⟨hF', hP'⟩ := hr'.same rfl
  exact ⟨d, m, i, ndb, added, d', m', i', db', added', ed, ep, el, ed', ep', el', hc', hF'.trans hF, hP'.trans hP⟩

/-- **C82 fails for LT with 27 roots**: the last root of the dumped tree is the second one of the loaded tree. -/
theorem C82_lt_fails : ∃ (d : Nest Item) (F : Forest) (D : List (Nat × Vals)) (m : Nest (Nat × Vals)) (i : Nat) (db' : LT.DB) (added : List Nat), DumpOf true d F D ∧
    prepare true id 0 d = .ok (m, i) ∧ LT.load ⟨[]⟩ ⟨[], []⟩ none m = .ok (db', added) ∧
    F none = (List.range 27).map (· + 1) ∧ LT.forest db' none = 1 :: 27 :: (List.range 25).map (· + 2) := by
  obtain ⟨db, db', d, m, i, added, hc, ed, ep, el, h1, h2⟩ := LT.C19_lt_fails
  exact ⟨d, _, _, m, i, db', added, .lt hc ed, ep, el, h1, h2⟩

/-- a node with two children, as a nested set -/
def NS.exWide : NS.DB := { rows := [⟨1, 1, 1, 6, 1, []⟩, ⟨2, 1, 2, 3, 2, []⟩, ⟨3, 1, 4, 5, 2, []⟩] }

/-- an MP model with one position below each node -/
def MP.exTiny : MP.Cfg := ⟨[48, 49], 1, [], 10⟩

theorem NS.exWide_consistent : NS.Consistent NS.exWide := by
  refine ⟨by decide, ?_⟩
  intro r hr
  refine NS.full_of_range 6 ?_ ?_
  · revert r; decide
  · revert r; decide

/-- **C82 needs the positions**: a tree that is too wide for the MP model is not loaded. -/
theorem C82_mp_full : MP.exTiny.Ok ∧ ∃ d m, NS.dumpBulk NS.exWide none true = .ok d ∧ DumpOf true d (NS.forest NS.exWide) (NS.data NS.exWide.rows) ∧
    prepare true id 0 d = .ok (m, 0) ∧ MP.load MP.exTiny { rows := [] } none m = .error .pathOverflow :=
  ⟨⟨by decide, by decide, by decide⟩, .cons (some 1, []) (.cons (some 2, []) .nil (.cons (some 3, []) .nil .nil)) .nil, .cons (1, []) (.cons (2, []) .nil (.cons (3, []) .nil .nil)) .nil,
    by decide, .ns NS.exWide_consistent (by decide), by decide, by rw [MP.load, loadBulk_eq]; decide⟩

/-! The hypotheses are met by the tables of the examples: the NS tree to MP, the MP tree to LT, the LT tree to AL, and there and back. -/

example : ∃ d, NS.dumpBulk NS.exDB none false = .ok d ∧ ∃ m i db' added, prepare false (fun i => 100 + i) 0 d = .ok (m, i) ∧ MP.load MP.exCfg { rows := [] } none m = .ok (db', added) ∧
    MP.Consistent MP.exCfg db' ∧ Restored false (NS.forest NS.exDB) (MP.forest MP.exCfg db') (NS.data NS.exDB.rows) (MP.data db'.rows) := by
  obtain ⟨d, e, hd⟩ := (C82_dumps false).2.1 NS.exDB_inv
  refine ⟨d, e, C82_mp MP.exCfg_ok hd (fun _ i j e => by omega) ?_ ?_ (fun h => by cases h)⟩
  · intro p
    cases p with
    | none => decide
    | some k =>
      by_cases hk : k ∈ NS.exDB.rows.map NS.Row.pk
      · revert k; decide
      · rw [NS.forest_nil hk]; decide
  · intro k l hl
    have hk : k ∈ NS.exDB.rows.map NS.Row.pk := by
      rw [← NS.keys_eq]
      cases hl with
      | root hm => exact NS.forest_keys NS.exDB_inv hm
      | child _ hm => exact NS.forest_keys NS.exDB_inv hm
    obtain ⟨r, hr, rfl⟩ := List.mem_map.1 hk
    rw [NS.forest_eq NS.exDB_inv.toNI] at hl
    have hd := NS.level_unique NS.exDB_inv.toNI hr hl
    have h3 : r.depth ≤ 3 := by clear hd hl hk; revert r; decide
    show l * 1 ≤ 10
    omega

example : ∃ d, MP.dumpBulk MP.exCfg MP.exDB none true = .ok d ∧ ∃ m i db' added, prepare true id 0 d = .ok (m, i) ∧ LT.load ⟨[]⟩ ⟨[], []⟩ none m = .ok (db', added) ∧
    LT.Consistent db' ∧ Restored true (MP.forest MP.exCfg MP.exDB) (LT.forest db') (MP.data MP.exDB.rows) (LT.data db'.rows) := by
  obtain ⟨d, e, hd⟩ := (C82_dumps true).1 MP.exCfg_ok MP.exDB_consistent
  exact ⟨d, e, C82_lt_partial hd (fun e => by cases e) (fun h => by cases h) (by decide) (fun h => by cases h)⟩

example : ∃ d, LT.dumpBulk LT.exDB none true = .ok d ∧ ∃ m i db' added, prepare true id 0 d = .ok (m, i) ∧ AL.load AL.exPlain ⟨[]⟩ none m = .ok (db', added) ∧
    AL.Consistent AL.exPlain db' ∧ Restored true (LT.forest LT.exDB) (AL.forest AL.exPlain db') (LT.data LT.exDB.rows) (AL.data db'.rows) := by
  obtain ⟨d, e, hd⟩ := (C82_dumps true).2.2.2 (LT.consistent_iff.2 LT.exDB_inv)
  exact ⟨d, e, C82_al rfl hd (fun e => by cases e)⟩

example : ∃ d m i ndb added d' m' i' db' added', MP.dumpBulk MP.exCfg MP.exDB none true = .ok d ∧ prepare true id 0 d = .ok (m, i) ∧ NS.load ⟨[]⟩ { rows := [] } none m = .ok (ndb, added) ∧
    NS.dumpBulk ndb none true = .ok d' ∧ prepare true id 0 d' = .ok (m', i') ∧ MP.load MP.exCfg { rows := [] } none m' = .ok (db', added') ∧ MP.Consistent MP.exCfg db' ∧
    MP.forest MP.exCfg db' = MP.forest MP.exCfg MP.exDB ∧ (MP.data db'.rows).Perm (MP.data MP.exDB.rows) :=
  C82_back MP.exCfg_ok (fun e => by cases e) MP.exDB_consistent (fun e => by rcases e with e | e <;> cases e) (by decide)

/-- a sorted NS tree to a sorted AL table -/
example : ∃ d, NS.dumpBulk NS.exSDB none true = .ok d ∧ ∃ m i db' added, prepare true id 0 d = .ok (m, i) ∧ AL.load AL.exSorted ⟨[]⟩ none m = .ok (db', added) ∧
    AL.Wf AL.exSorted db' ∧ Restored true (NS.forest NS.exSDB) (AL.forest AL.exSorted db') (NS.data NS.exSDB.rows) (AL.data db'.rows) := by
  obtain ⟨d, e, hd⟩ := (C82_dumps true).2.1 NS.exSDB_inv
  exact ⟨d, e, C82_al_sorted_partial rfl hd (fun e => by cases e) (Or.inl ⟨rfl, NS.exSDB_sorted⟩)⟩

/-- an AL tree to NS -/
example : ∃ d, AL.dumpBulk AL.exPlain AL.exDB none true = .ok d ∧ ∃ m i db' added, prepare true id 0 d = .ok (m, i) ∧ NS.load ⟨[]⟩ { rows := [] } none m = .ok (db', added) ∧
    NS.Consistent db' ∧ Restored true (AL.forest AL.exPlain AL.exDB) (NS.forest db') (AL.data AL.exDB.rows) (NS.data db'.rows) := by
  obtain ⟨d, e, hd⟩ := (C82_dumps true).2.2.1 (AL.consistent_of_inv rfl AL.exDB_inv).toWf
  exact ⟨d, e, C82_ns hd (fun e => by cases e) (fun h => by cases h)⟩

end Verif
