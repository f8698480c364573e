/-
C88: many-to-many relations through `dump_bulk` and `load_bulk`.
-/
import Verif.LinksLemmas
import Verif.Props.MPDump
import Verif.Props.MPBulk
import Verif.Props.NSDump
import Verif.Props.ALDump
import Verif.Props.LTDump

namespace Verif

namespace MP

variable {cfg : Cfg} {db : DB}

theorem addSibling_pk {target : Row} {pos : Option Pos} {new : Row} {db' : DB} {obj : Row} (e : addSibling cfg db target pos new = .ok (db', obj)) :
    obj.pk = new.pk := by
  unfold addSibling finishAddSibling at e
  dsimp only at e
  repeat' split at e
  all_goals first
    | (cases e; done)
    | (simp only [Except.ok.injEq, Prod.mk.injEq] at e; rw [← e.2])

theorem addTo_pk {p : Option Row} {new : Row} {db' : DB} {obj : Row} (e : addTo cfg db p new = .ok (db', obj)) : obj.pk = new.pk := by
  cases p with
  | none =>
    simp only [addTo, addRoot] at e
    repeat' split at e
    all_goals first
      | (cases e; done)
      | exact addSibling_pk e
      | (simp only [Except.ok.injEq, Prod.mk.injEq] at e; rw [← e.2])
  | some p =>
    simp only [addTo] at e
    rcases h : addChild cfg db p new with err | ⟨d, o, t⟩
    · rw [h] at e; cases e
    · rw [h] at e
      simp only [Except.map, Except.ok.injEq, Prod.mk.injEq] at e
      rw [← e.2]
      unfold addChild at h
      dsimp only at h
      repeat' split at h
      all_goals first
        | (cases h; done)
        | (rename_i e1; simp only [Except.ok.injEq, Prod.mk.injEq] at h; rw [← h.2.1]; exact addSibling_pk e1)
        | (simp only [Except.ok.injEq, Prod.mk.injEq] at h; rw [← h.2.1])

/-- C88: `load_bulk` of data with relations does to the tree what it does without them, errors included; if it succeeds then every loaded node has exactly the
relations that its data gives, and nothing else changes. -/
theorem C88_mp_load (cfg : Cfg) (db : DB) (L : Links) (parent : Option Row) {data : Nest ((Nat × Vals) × M2M)}
    (hnd : (data.labels.map (fun x => x.1.1)).Nodup) (hm : ∀ x ∈ data.labels, (x.2.map Prod.fst).Nodup) :
    (∀ e, load cfg db parent (data.map Prod.fst) = .error e → loadLinks cfg db L parent data = .error e) ∧
    ∀ db' added, load cfg db parent (data.map Prod.fst) = .ok (db', added) → ∃ L', loadLinks cfg db L parent data = .ok ((db', L'), added) ∧
      added = data.labels.map (fun x => x.1.1) ∧ Linked L L' (data.labels.map (fun x => (x.1.1, x.2))) :=
  loadBulk_linked (fun _ _ _ _ _ e => addTo_pk e) db L parent hnd hm

theorem buildChildren_links (cfg : Cfg) (x : Nest ((Nat × Vals) × M2M)) : ∀ path depth i,
    (∀ e, buildChildren cfg path depth i (x.map Prod.fst) = .error e → buildChildrenLinks cfg path depth i x = .error e) ∧
    ∀ l, buildChildren cfg path depth i (x.map Prod.fst) = .ok l → ∃ l', buildChildrenLinks cfg path depth i x = .ok l' ∧ l'.map Prod.fst = l ∧
      l'.map (fun y => (y.1.pk, y.2)) = x.labels.map (fun z => (z.1.1, z.2)) := by
  induction x with
  | nil =>
    intro path depth i
    refine ⟨fun e h => by simp [Nest.map, buildChildren] at h, fun l h => ?_⟩
    simp only [Nest.map, buildChildren, Except.ok.injEq] at h
    exact ⟨[], by rw [buildChildrenLinks], by rw [← h]; rfl, rfl⟩
  | cons a c r ihc ihr =>
    obtain ⟨⟨k, v⟩, w⟩ := a
    intro path depth i
    simp only [Nest.map, buildChildren, buildChildrenLinks, Nest.tops_map, List.length_map]
    rcases getPath cfg path ((depth : Int) + 1) ((i : Int) + 1) with e | p
    · exact ⟨fun e' h => by cases h; rfl, fun l h => by cases h⟩
    · simp only
      obtain ⟨c1, c2⟩ := ihc p (depth + 1) 0
      rcases hc : buildChildren cfg p (depth + 1) 0 (c.map Prod.fst) with e | l1
      · rw [c1 e hc]
        exact ⟨fun e' h => by cases h; rfl, fun l h => by cases h⟩
      · obtain ⟨l1', ec, fc, sc⟩ := c2 l1 hc
        rw [ec]
        simp only
        obtain ⟨r1, r2⟩ := ihr path depth (i + 1)
        rcases hr : buildChildren cfg path depth (i + 1) (r.map Prod.fst) with e | l2
        · rw [r1 e hr]
          exact ⟨fun e' h => by cases h; rfl, fun l h => by cases h⟩
        · obtain ⟨l2', er, fr, sr⟩ := r2 l2 hr
          rw [er]
          refine ⟨fun e' h => by simp at h, fun l h => ?_⟩
          simp only [Except.ok.injEq] at h
          refine ⟨_, rfl, ?_, ?_⟩
          · rw [← h, List.map_cons, List.map_append, fc, fr]
          · rw [List.map_cons, List.map_append, sc, sr]
            simp [Nest.labels]

theorem firstLevel_links (cfg : Cfg) (parent : Option Row) (x : Nest ((Nat × Vals) × M2M)) : ∀ (db : DB) (L : Links),
    (∀ e, firstLevel cfg db parent (x.map Prod.fst) = .error e → firstLevelLinks cfg db L parent x = .error e) ∧
    ∀ db' objs added, firstLevel cfg db parent (x.map Prod.fst) = .ok (db', objs, added) → ∃ objs',
      firstLevelLinks cfg db L parent x = .ok ((db', saveLinks L (x.tops.map (fun z => (z.1.1, z.2)))), objs', added) ∧ objs'.map Prod.fst = objs ∧
      added = x.tops.map (fun z => z.1.1) ∧
      (x.tops.map (fun z => (z.1.1, z.2)) ++ objs'.map (fun y => (y.1.pk, y.2))).Perm (x.labels.map (fun z => (z.1.1, z.2))) := by
  induction x with
  | nil =>
    intro db L
    refine ⟨fun e h => by simp [Nest.map, firstLevel] at h, fun db' objs added h => ?_⟩
    simp only [Nest.map, firstLevel, Except.ok.injEq, Prod.mk.injEq] at h
    obtain ⟨rfl, rfl, rfl⟩ := h
    exact ⟨[], by rw [firstLevelLinks]; rfl, rfl, rfl, List.Perm.refl _⟩
  | cons a c r _ ihr =>
    obtain ⟨⟨k, v⟩, w⟩ := a
    intro db L
    simp only [Nest.map, firstLevel, firstLevelLinks, Nest.tops_map, List.length_map]
    rcases h0 : addTo cfg db parent ⟨k, [], 0, (c.tops.length : Int), v⟩ with e | ⟨db1, obj⟩
    · exact ⟨fun e' h => by cases h; rfl, fun _ _ _ h => by cases h⟩
    · have hpk : obj.pk = k := addTo_pk h0
      simp only
      obtain ⟨c1, c2⟩ := buildChildren_links cfg c obj.path obj.depth 0
      rcases hc : buildChildren cfg obj.path obj.depth 0 (c.map Prod.fst) with e | l1
      · rw [c1 e hc]
        exact ⟨fun e' h => by cases h; rfl, fun _ _ _ h => by cases h⟩
      · obtain ⟨l1', ec, fc, sc⟩ := c2 l1 hc
        rw [ec]
        simp only
        obtain ⟨r1, r2⟩ := ihr db1 (saveM2m L obj.pk w)
        rcases hr : firstLevel cfg db1 parent (r.map Prod.fst) with e | ⟨db2, l2, added⟩
        · rw [r1 e hr]
          exact ⟨fun e' h => by cases h; rfl, fun _ _ _ h => by cases h⟩
        · obtain ⟨l2', er, fr, sa, sp⟩ := r2 db2 l2 added hr
          rw [er]
          refine ⟨fun e' h => by simp at h, fun db' objs added' h => ?_⟩
          simp only [Except.ok.injEq, Prod.mk.injEq] at h
          obtain ⟨rfl, rfl, rfl⟩ := h
          refine ⟨_, by rw [hpk]; rfl, by rw [List.map_append, fc, fr], by rw [hpk, sa]; rfl, ?_⟩
          rw [List.map_append, sc]
          simp only [Nest.tops, Nest.labels, List.map_cons, List.map_append, List.cons_append]
          refine List.Perm.cons _ ?_
          rw [← List.append_assoc]
          refine (List.Perm.append_right _ List.perm_append_comm).trans ?_
          rw [List.append_assoc]
          exact List.Perm.append_left _ sp

/-- C88: `load_bulk(bulk_create=True)` with relations, in the same way. -/
theorem C88_mp_create (cfg : Cfg) (db : DB) (L : Links) (parent : Option Row) {data : Nest ((Nat × Vals) × M2M)}
    (hnd : (data.labels.map (fun x => x.1.1)).Nodup) (hm : ∀ x ∈ data.labels, (x.2.map Prod.fst).Nodup) :
    (∀ e, loadCreate cfg db parent (data.map Prod.fst) = .error e → loadCreateLinks cfg db L parent data = .error e) ∧
    ∀ db' added, loadCreate cfg db parent (data.map Prod.fst) = .ok (db', added) → ∃ L', loadCreateLinks cfg db L parent data = .ok ((db', L'), added) ∧
      added.Perm (data.labels.map (fun x => x.1.1)) ∧ Linked L L' (data.labels.map (fun x => (x.1.1, x.2))) := by
  obtain ⟨f1, f2⟩ := firstLevel_links cfg parent data db L
  simp only [loadCreate, loadCreateLinks]
  rcases hf : firstLevel cfg db parent (data.map Prod.fst) with e | ⟨db1, objs, added⟩
  · rw [f1 e hf]
    exact ⟨fun e' h => by cases h; rfl, fun _ _ h => by cases h⟩
  · obtain ⟨objs', ef, rfl, rfl, hp⟩ := f2 db1 objs added hf
    rw [ef]
    simp only
    rcases bulkCreate db1 (objs'.map Prod.fst) with e | db2
    · exact ⟨fun e' h => by cases h; rfl, fun _ _ h => by cases h⟩
    · refine ⟨fun e' h => by simp at h, fun db' added' h => ?_⟩
      simp only [Except.ok.injEq, Prod.mk.injEq] at h
      obtain ⟨rfl, rfl⟩ := h
      have hpk := hp.map Prod.fst
      rw [List.map_append, List.map_map, List.map_map, List.map_map] at hpk
      refine ⟨_, rfl, ?_, ?_⟩
      · rw [List.map_map]; exact hpk
      · have hz : ((objs'.map Prod.fst).zip objs').foldl (fun L x => saveM2m L x.1.pk x.2.2) (saveLinks L (data.tops.map (fun z => (z.1.1, z.2)))) =
            saveLinks L (data.tops.map (fun z => (z.1.1, z.2)) ++ objs'.map (fun y => (y.1.pk, y.2))) := by
          rw [saveLinks_append]
          generalize saveLinks L (data.tops.map (fun z => (z.1.1, z.2))) = L1
          clear hp hpk ef hf f1 f2
          induction objs' generalizing L1 with
          | nil => rfl
          | cons o objs ih => exact ih _
        rw [hz]
        have hnd' : ((data.labels.map (fun x => (x.1.1, x.2))).map Prod.fst).Nodup := by rw [List.map_map]; exact hnd
        have hl := saveLinks_linked (L := L) (ps := data.tops.map (fun z => (z.1.1, z.2)) ++ objs'.map (fun y => (y.1.pk, y.2)))
          ((hp.map Prod.fst).nodup_iff.2 hnd')
          (by
            intro q hq
            obtain ⟨x, hx, rfl⟩ := List.mem_map.1 (hp.mem_iff.1 hq)
            exact hm x hx)
        exact ⟨fun q hq => hl.given q (hp.mem_iff.2 hq), fun q hq => hl.notGiven q (hp.mem_iff.2 hq),
          fun k hk => hl.others k (fun h => hk ((hp.map Prod.fst).mem_iff.1 h))⟩

/-- C88: with and without `bulk_create`, the relations end the same. -/
theorem C88_mp_same (cfg : Cfg) (db : DB) (L : Links) (parent : Option Row) {data : Nest ((Nat × Vals) × M2M)}
    (hnd : (data.labels.map (fun x => x.1.1)).Nodup) (hm : ∀ x ∈ data.labels, (x.2.map Prod.fst).Nodup) {db1 db2 : DB} {L1 L2 : Links}
    {added1 added2 : List Nat} (e1 : loadLinks cfg db L parent data = .ok ((db1, L1), added1))
    (e2 : loadCreateLinks cfg db L parent data = .ok ((db2, L2), added2)) : L1 = L2 := by
  obtain ⟨f1, o1⟩ := C88_mp_load cfg db L parent hnd hm
  obtain ⟨f2, o2⟩ := C88_mp_create cfg db L parent hnd hm
  rcases h1 : load cfg db parent (data.map Prod.fst) with e | ⟨d1, a1⟩
  · rw [f1 e h1] at e1; cases e1
  · rcases h2 : loadCreate cfg db parent (data.map Prod.fst) with e | ⟨d2, a2⟩
    · rw [f2 e h2] at e2; cases e2
    · obtain ⟨M1, g1, _, l1⟩ := o1 d1 a1 h1
      obtain ⟨M2, g2, _, l2⟩ := o2 d2 a2 h2
      rw [g1] at e1
      rw [g2] at e2
      simp only [Except.ok.injEq, Prod.mk.injEq] at e1 e2
      rw [← e1.1.2, ← e2.1.2]
      exact Linked.eq (List.Perm.refl _) l1 l2

/-- C88: C19 with relations.  `as` are the many-to-many fields of the model, `L` the relations of the dumped tree and `L₀` those that are there where the
structure is loaded. -/
theorem C88_mp (hok : cfg.Ok) (h : Consistent cfg db) (hfit : ∀ r ∈ db.rows, r.path.length ≤ cfg.maxLen)
    (hsort : cfg.ordered = true → SortedTree cfg db) {as : List Nat} (has : as.Nodup) (L L₀ : Links) (keep : Bool) {keys : Nat → Nat}
    (hkeys : keep = false → ∀ i j, keys i = keys j → i = j) :
    ∃ d m i db' L' added, dumpLinks cfg db as L none keep = .ok d ∧ prepareLinks keep keys 0 d = .ok (m, i) ∧
      loadLinks cfg { rows := [] } L₀ none m = .ok ((db', L'), added) ∧ Consistent cfg db' ∧ (forest cfg db').DFS (forest cfg db' none) added ∧
      RestoredLinks keep (forest cfg db) (forest cfg db') (data db.rows) (data db'.rows) as L L₀ L' := by
  have hF : (forest cfg db).IsForestOn ((data db.rows).map Prod.fst) := by
    have hi := (consistent_iff hok).1 h
    have hpks : (data db.rows).map Prod.fst = db.rows.map Row.pk := by simp [data, Function.comp_def]
    rw [hpks, forest_eq hi hok]; exact isForestOn hi.inv hok.step
  obtain ⟨n, hn, e1, e2⟩ := dump_links (C19_mp_dump hok h (parent := none) (by simp) true) as L keep
  obtain ⟨d, m, i, db', added, ed, ep, el, hc, ha, hr⟩ := C19_mp hok h hfit hsort keep hkeys
  have ed' : Except.ok d = _ := ed.symm.trans e1
  rw [Except.ok.inj ed'] at ep
  obtain ⟨m', L', ep', el', hr'⟩ := roundtrip_links hF has L L₀ hn ep el ha hr
  exact ⟨_, m', i, db', L', added, e2, ep', el', hc, ha, hr'⟩

end MP

namespace NS

variable {cfg : Cfg} {db : DB}

theorem addSibling_pk {target : Row} {cached : Option Row} {pos : Option Pos} {new : Row} {db' : DB} {obj : Row}
    (e : addSibling cfg db target cached pos new = .ok (db', obj)) : obj.pk = new.pk := by
  unfold addSibling addRootSibling addInnerSibling at e
  simp only at e
  repeat' split at e
  all_goals first
    | (cases e; done)
    | (simp only [Except.ok.injEq, Prod.mk.injEq] at e; rw [← e.2])

theorem addTo_pk {p : Option Row} {new : Row} {db' : DB} {obj : Row} (e : addTo cfg db p new = .ok (db', obj)) : obj.pk = new.pk := by
  cases p with
  | none =>
    simp only [addTo, addRoot] at e
    repeat' split at e
    all_goals first
      | (cases e; done)
      | exact addSibling_pk e
      | (simp only [Except.ok.injEq, Prod.mk.injEq] at e; rw [← e.2])
  | some p =>
    simp only [addTo] at e
    rcases h : addChild cfg db p new with err | ⟨d, o, t⟩
    · rw [h] at e; cases e
    · rw [h] at e
      simp only [Except.map, Except.ok.injEq, Prod.mk.injEq] at e
      rw [← e.2]
      unfold addChild at h
      generalize hpos : (some (if cfg.ordered = true then Pos.sortedSibling else Pos.lastSibling) : Option Pos) = ps at h
      repeat' split at h
      all_goals first
        | (cases h; done)
        | (rename_i e1; simp only [Except.ok.injEq, Prod.mk.injEq] at h; rw [← h.2.1]; exact addSibling_pk e1)
        | (simp only [Except.ok.injEq, Prod.mk.injEq] at h; rw [← h.2.1])

/-- C88: `load_bulk` of data with relations does to the tree what it does without them, errors included; if it succeeds then every loaded node has exactly the
relations that its data gives, and nothing else changes. -/
theorem C88_ns_load (cfg : Cfg) (db : DB) (L : Links) (parent : Option Row) {data : Nest ((Nat × Vals) × M2M)}
    (hnd : (data.labels.map (fun x => x.1.1)).Nodup) (hm : ∀ x ∈ data.labels, (x.2.map Prod.fst).Nodup) :
    (∀ e, load cfg db parent (data.map Prod.fst) = .error e → loadLinks cfg db L parent data = .error e) ∧
    ∀ db' added, load cfg db parent (data.map Prod.fst) = .ok (db', added) → ∃ L', loadLinks cfg db L parent data = .ok ((db', L'), added) ∧
      added = data.labels.map (fun x => x.1.1) ∧ Linked L L' (data.labels.map (fun x => (x.1.1, x.2))) :=
  loadBulk_linked (fun _ _ _ _ _ e => addTo_pk e) db L parent hnd hm

/-- C88: C19 with relations.  `as` are the many-to-many fields of the model, `L` the relations of the dumped tree and `L₀` those that are there where the
structure is loaded. -/
theorem C88_ns (h : Consistent db) (hsort : cfg.ordered = true → SortedTree cfg db) {as : List Nat} (has : as.Nodup) (L L₀ : Links) (keep : Bool)
    {keys : Nat → Nat} (hkeys : keep = false → ∀ i j, keys i = keys j → i = j) :
    ∃ d m i db' L' added, dumpLinks db as L none keep = .ok d ∧ prepareLinks keep keys 0 d = .ok (m, i) ∧
      loadLinks cfg { rows := [] } L₀ none m = .ok ((db', L'), added) ∧ Consistent db' ∧ (forest db').DFS (forest db' none) added ∧
      RestoredLinks keep (forest db) (forest db') (data db.rows) (data db'.rows) as L L₀ L' := by
  obtain ⟨n, hn, e1, e2⟩ := dump_links (C19_ns_dump h (parent := none) (by simp) true) as L keep
  obtain ⟨d, m, i, db', added, ed, ep, el, hc, ha, hr⟩ := C19_ns (cfg := cfg) h hsort keep hkeys
  have ed' : Except.ok d = _ := ed.symm.trans e1
  rw [Except.ok.inj ed'] at ep
  obtain ⟨m', L', ep', el', hr'⟩ := roundtrip_links (isForestOn h) has L L₀ hn ep el ha hr
  exact ⟨_, m', i, db', L', added, e2, ep', el', hc, ha, hr'⟩

end NS

namespace AL

variable {cfg : Cfg} {db : DB}

theorem addTo_pk {p : Option (Row × Option Int)} {new : Row} {db' : DB} {obj : Row × Option Int} (e : addTo cfg db p new = .ok (db', obj)) :
    obj.1.pk = new.pk := by
  cases p with
  | none =>
    simp only [addTo, addRoot] at e
    rcases h : save db (if cfg.ordered = true then new else { new with sib := maxSib (withParent db none) + 1 }) with err | d
    · rw [h] at e; cases e
    · rw [h] at e
      simp only [Except.map, Except.ok.injEq, Prod.mk.injEq] at e
      rw [← e.2]
      show (if cfg.ordered = true then new else { new with sib := maxSib (withParent db none) + 1 }).pk = new.pk
      split <;> rfl
  | some p =>
    obtain ⟨p, cached⟩ := p
    simp only [addTo, addChild] at e
    split at e
    · cases e
    · simp only [Except.ok.injEq, Prod.mk.injEq] at e
      rw [← e.2]
      show (if cfg.ordered = true then new else { new with sib := maxSib (withParent db (some p.pk)) + 1 }).pk = new.pk
      split <;> rfl

/-- C88: `load_bulk` of data with relations does to the tree what it does without them, errors included; if it succeeds then every loaded node has exactly the
relations that its data gives, and nothing else changes. -/
theorem C88_al_load (cfg : Cfg) (db : DB) (L : Links) (parent : Option (Row × Option Int)) {data : Nest ((Nat × Vals) × M2M)}
    (hnd : (data.labels.map (fun x => x.1.1)).Nodup) (hm : ∀ x ∈ data.labels, (x.2.map Prod.fst).Nodup) :
    (∀ e, load cfg db parent (data.map Prod.fst) = .error e → loadLinks cfg db L parent data = .error e) ∧
    ∀ db' added, load cfg db parent (data.map Prod.fst) = .ok (db', added) → ∃ L', loadLinks cfg db L parent data = .ok ((db', L'), added) ∧
      added = data.labels.map (fun x => x.1.1) ∧ Linked L L' (data.labels.map (fun x => (x.1.1, x.2))) :=
  loadBulk_linked (fun _ _ _ _ _ e => addTo_pk e) db L parent hnd hm

theorem dumpLinks_none (h : Wf cfg db) (as : List Nat) (L : Links) (keep : Bool) :
    ∃ n, Nest.Shown (fun k => forest cfg db (some k)) (forest cfg db none) n ∧
      dumpBulk cfg db none keep = .ok (n.map (fun k => (if keep then some k else none, valsIn (data db.rows) k))) ∧
      dumpLinks cfg db as L none keep = .ok (n.map (fun k => ((if keep then some k else none, valsIn (data db.rows) k), m2mOf as L k))) := by
  have hd := C19_al_dump h (parent := none) (by simp) true
  unfold dumpBulk dumpLinks at *
  rcases hg : getTree cfg db none none with e | objs
  · rw [hg] at hd
    obtain ⟨d, ed, _⟩ := hd
    cases ed
  · rw [hg] at hd
    exact dump_links hd as L keep

/-- C88: C19 with relations, without `node_order_by`.  `as` are the many-to-many fields of the model, `L` the relations of the dumped tree and `L₀` those
that are there where the structure is loaded. -/
theorem C88_al (ho : cfg.ordered = false) (h : Consistent cfg db) {as : List Nat} (has : as.Nodup) (L L₀ : Links) (keep : Bool)
    {keys : Nat → Nat} (hkeys : keep = false → ∀ i j, keys i = keys j → i = j) :
    ∃ d m i db' L' added, dumpLinks cfg db as L none keep = .ok d ∧ prepareLinks keep keys 0 d = .ok (m, i) ∧
      loadLinks cfg ⟨[]⟩ L₀ none m = .ok ((db', L'), added) ∧ Consistent cfg db' ∧ (forest cfg db').DFS (forest cfg db' none) added ∧
      RestoredLinks keep (forest cfg db) (forest cfg db') (data db.rows) (data db'.rows) as L L₀ L' := by
  obtain ⟨n, hn, e1, e2⟩ := dumpLinks_none h.toWf as L keep
  obtain ⟨d, m, i, db', added, ed, ep, el, hc, ha, hr⟩ := C19_al ho h keep hkeys
  rw [Except.ok.inj (ed.symm.trans e1)] at ep
  obtain ⟨m', L', ep', el', hr'⟩ := roundtrip_links (isForestOn h.toWf.ai) has L L₀ hn ep el ha hr
  exact ⟨_, m', i, db', L', added, e2, ep', el', hc, ha, hr'⟩

/-- C88 with `node_order_by` (partial, as C19: the order of equal siblings has to be certain). -/
theorem C88_al_sorted_partial (ho : cfg.ordered = true) (h : Wf cfg db) (hs : Certain cfg db) {as : List Nat} (has : as.Nodup) (L L₀ : Links) (keep : Bool)
    {keys : Nat → Nat} (hkeys : keep = false → ∀ i j, keys i = keys j → i = j) :
    ∃ d m i db' L' added, dumpLinks cfg db as L none keep = .ok d ∧ prepareLinks keep keys 0 d = .ok (m, i) ∧
      loadLinks cfg ⟨[]⟩ L₀ none m = .ok ((db', L'), added) ∧ Wf cfg db' ∧ (forest cfg db').DFS (forest cfg db' none) added ∧
      RestoredLinks keep (forest cfg db) (forest cfg db') (data db.rows) (data db'.rows) as L L₀ L' := by
  obtain ⟨n, hn, e1, e2⟩ := dumpLinks_none h as L keep
  obtain ⟨d, m, i, db', added, ed, ep, el, hc, ha, hr⟩ := C19_al_sorted_partial ho h hs keep hkeys
  rw [Except.ok.inj (ed.symm.trans e1)] at ep
  obtain ⟨m', L', ep', el', hr'⟩ := roundtrip_links (isForestOn h.ai) has L L₀ hn ep el ha hr
  exact ⟨_, m', i, db', L', added, e2, ep', el', hc, ha, hr'⟩

end AL

namespace LT

variable {cfg : Cfg} {db : DB}

theorem addSiblingIn_pk {target : Row} {pos : Option Pos} {new : Row} {db' : DB} {obj : Row} (e : addSiblingIn cfg db target pos new = .ok (db', obj)) :
    obj.pk = new.pk := by
  unfold addSiblingIn at e
  repeat' split at e
  all_goals first
    | (cases e; done)
    | (simp only [Except.ok.injEq, Prod.mk.injEq] at e; rw [← e.2])

theorem commit_obj {x : Except Err (DB × Row)} {db' : DB} {obj : Row} (e : commit x = .ok (db', obj)) : ∃ d, x = .ok (d, obj) := by
  unfold commit at e
  repeat' split at e
  all_goals first
    | (cases e; done)
    | (simp only [Except.ok.injEq, Prod.mk.injEq] at e; obtain ⟨rfl, rfl⟩ := e; exact ⟨_, rfl⟩)

theorem addTo_pk {p : Option Row} {new : Row} {db' : DB} {obj : Row} (e : addTo cfg db p new = .ok (db', obj)) : obj.pk = new.pk := by
  cases p with
  | none =>
    simp only [addTo, addRoot] at e
    obtain ⟨d, e⟩ := commit_obj e
    repeat' split at e
    all_goals first
      | (cases e; done)
      | exact addSiblingIn_pk e
      | (simp only [Except.ok.injEq, Prod.mk.injEq] at e; rw [← e.2])
  | some p =>
    simp only [addTo, addChild] at e
    obtain ⟨d, e⟩ := commit_obj e
    repeat' split at e
    all_goals first
      | (cases e; done)
      | exact addSiblingIn_pk e
      | (simp only [Except.ok.injEq, Prod.mk.injEq] at e; rw [← e.2])

/-- C88: `load_bulk` of data with relations does to the tree what it does without them, errors included; if it succeeds then every loaded node has exactly the
relations that its data gives, and nothing else changes. -/
theorem C88_lt_load (cfg : Cfg) (db : DB) (L : Links) (parent : Option Row) {data : Nest ((Nat × Vals) × M2M)}
    (hnd : (data.labels.map (fun x => x.1.1)).Nodup) (hm : ∀ x ∈ data.labels, (x.2.map Prod.fst).Nodup) :
    (∀ e, load cfg db parent (data.map Prod.fst) = .error e → loadLinks cfg db L parent data = .error e) ∧
    ∀ db' added, load cfg db parent (data.map Prod.fst) = .ok (db', added) → ∃ L', loadLinks cfg db L parent data = .ok ((db', L'), added) ∧
      added = data.labels.map (fun x => x.1.1) ∧ Linked L L' (data.labels.map (fun x => (x.1.1, x.2))) :=
  loadBulk_linked (fun _ _ _ _ _ e => addTo_pk e) db L parent hnd hm

/-- C88: C19 with relations (partial, as C19: at most 26 roots, and with `node_order_by` at most 26 children of any node).  `as` are the many-to-many
fields of the model, `L` the relations of the dumped tree and `L₀` those that are there where the structure is loaded. -/
theorem C88_lt_partial (h : Consistent db) (hsort : cfg.ordered = true → SortedData cfg.orderBy (forest db) (data db.rows))
    (hroots : (forest db none).length ≤ 26) (hkids : cfg.ordered = true → ∀ p, (forest db p).length ≤ 26) {as : List Nat} (has : as.Nodup)
    (L L₀ : Links) (keep : Bool) {keys : Nat → Nat} (hkeys : keep = false → ∀ i j, keys i = keys j → i = j) :
    ∃ d m i db' L' added, dumpLinks db as L none keep = .ok d ∧ prepareLinks keep keys 0 d = .ok (m, i) ∧
      loadLinks cfg ⟨[], []⟩ L₀ none m = .ok ((db', L'), added) ∧ Consistent db' ∧ (forest db').DFS (forest db' none) added ∧
      RestoredLinks keep (forest db) (forest db') (data db.rows) (data db'.rows) as L L₀ L' := by
  obtain ⟨n, hn, e1, e2⟩ := dump_links (C19_lt_dump h (parent := none) (by simp) true) as L keep
  obtain ⟨d, m, i, db', added, ed, ep, el, hc, ha, hr⟩ := C19_lt_partial (cfg := cfg) h hsort hroots hkids keep hkeys
  have ed' : Except.ok d = _ := ed.symm.trans e1
  rw [Except.ok.inj ed'] at ep
  obtain ⟨m', L', ep', el', hr'⟩ := roundtrip_links (isForestOn h) has L L₀ hn ep el ha hr
  exact ⟨_, m', i, db', L', added, e2, ep', el', hc, ha, hr'⟩

end LT

/-! ### Relations between nodes of the tree

The keys of the related objects are loaded as they are dumped. -/

/-- the node 1 is related to the nodes 2 and 5 in the field 0, the node 4 to the object 7 in the field 1 -/
def exLinks : Links := fun k a => if k = 1 ∧ a = 0 then [2, 5] else if k = 4 ∧ a = 1 then [7] else []

/-- **A relation of a model with itself does not follow the new keys**: dumped and loaded without `keep_ids`, the copy of the node 1 is related to the
keys 2 and 5, which are no nodes of the loaded tree, and not to the copies of these nodes. -/
theorem C88_own_nodes : ∃ d m i db' L' added, MP.Consistent MP.exCfg MP.exDB ∧ MP.dumpLinks MP.exCfg MP.exDB [0, 1] exLinks none false = .ok d ∧
    prepareLinks false (fun i => 100 + i) 0 d = .ok (m, i) ∧ MP.loadLinks MP.exCfg { rows := [] } (fun _ _ => []) none m = .ok ((db', L'), added) ∧
    added = [100, 101, 102, 103, 104] ∧ L' 100 0 = [2, 5] ∧ db'.rows.map MP.Row.pk = [100, 101, 102, 103, 104] := by
  refine ⟨_, _, _, _, _, _, MP.exDB_consistent, rfl, rfl, by rw [MP.loadLinks, loadBulk_eq]; rfl, rfl, rfl, rfl⟩

/-! The hypotheses are met. -/

example : ∃ d m i db' L' added, MP.dumpLinks MP.exCfg MP.exDB [0, 1] exLinks none true = .ok d ∧ prepareLinks true id 0 d = .ok (m, i) ∧
    MP.loadLinks MP.exCfg { rows := [] } (fun _ _ => [9]) none m = .ok ((db', L'), added) ∧ MP.Consistent MP.exCfg db' ∧
    (MP.forest MP.exCfg db').DFS (MP.forest MP.exCfg db' none) added ∧
    RestoredLinks true (MP.forest MP.exCfg MP.exDB) (MP.forest MP.exCfg db') (MP.data MP.exDB.rows) (MP.data db'.rows) [0, 1] exLinks (fun _ _ => [9]) L' :=
  MP.C88_mp MP.exCfg_ok MP.exDB_consistent (by decide) (fun h => absurd h (by decide)) (by decide) _ _ true (fun h => absurd h (by decide))

example : ∃ d m i db' L' added, NS.dumpLinks NS.exDB [0, 1] exLinks none false = .ok d ∧ prepareLinks false (fun i => 100 + i) 0 d = .ok (m, i) ∧
    NS.loadLinks ⟨[]⟩ { rows := [] } (fun _ _ => []) none m = .ok ((db', L'), added) ∧ NS.Consistent db' ∧
    (NS.forest db').DFS (NS.forest db' none) added ∧
    RestoredLinks false (NS.forest NS.exDB) (NS.forest db') (NS.data NS.exDB.rows) (NS.data db'.rows) [0, 1] exLinks (fun _ _ => []) L' :=
  NS.C88_ns NS.exDB_inv (fun h => absurd h (by decide)) (by decide) _ _ false (fun _ i j h => by simpa using h)

example : ∃ d m i db' L' added, AL.dumpLinks AL.exPlain AL.exDB [0, 1] exLinks none false = .ok d ∧ prepareLinks false (fun i => 100 + i) 0 d = .ok (m, i) ∧
    AL.loadLinks AL.exPlain ⟨[]⟩ (fun _ _ => []) none m = .ok ((db', L'), added) ∧ AL.Consistent AL.exPlain db' ∧
    (AL.forest AL.exPlain db').DFS (AL.forest AL.exPlain db' none) added ∧
    RestoredLinks false (AL.forest AL.exPlain AL.exDB) (AL.forest AL.exPlain db') (AL.data AL.exDB.rows) (AL.data db'.rows) [0, 1] exLinks (fun _ _ => []) L' :=
  AL.C88_al rfl (AL.consistent_of_inv rfl AL.exDB_inv) (by decide) _ _ false (fun _ i j h => by simpa using h)

example : ∃ d m i db' L' added, AL.dumpLinks AL.exSorted AL.exSDB [0] exLinks none true = .ok d ∧ prepareLinks true id 0 d = .ok (m, i) ∧
    AL.loadLinks AL.exSorted ⟨[]⟩ (fun _ _ => []) none m = .ok ((db', L'), added) ∧ AL.Wf AL.exSorted db' ∧
    (AL.forest AL.exSorted db').DFS (AL.forest AL.exSorted db' none) added ∧
    RestoredLinks true (AL.forest AL.exSorted AL.exSDB) (AL.forest AL.exSorted db') (AL.data AL.exSDB.rows) (AL.data db'.rows) [0] exLinks (fun _ _ => []) L' :=
  AL.C88_al_sorted_partial rfl (AL.wf_of_ai AL.exSDB_inv.toAI) (Or.inr (AL.noTies_of_inv rfl AL.exSDB_inv)) (by decide) _ _ true (fun h => absurd h (by decide))

example : ∃ d m i db' L' added, LT.dumpLinks LT.exDB [0, 1] exLinks none false = .ok d ∧ prepareLinks false (fun i => 100 + i) 0 d = .ok (m, i) ∧
    LT.loadLinks ⟨[]⟩ ⟨[], []⟩ (fun _ _ => []) none m = .ok ((db', L'), added) ∧ LT.Consistent db' ∧
    (LT.forest db').DFS (LT.forest db' none) added ∧
    RestoredLinks false (LT.forest LT.exDB) (LT.forest db') (LT.data LT.exDB.rows) (LT.data db'.rows) [0, 1] exLinks (fun _ _ => []) L' :=
  LT.C88_lt_partial (LT.consistent_iff.2 LT.exDB_inv) (fun h => absurd h (by decide)) (by decide) (fun h => absurd h (by decide)) (by decide) _ _ false
    (fun _ i j h => by simpa using h)

/-- two new roots with a child, with relations -/
def exLinked : Nest ((Nat × Vals) × M2M) :=
  .cons ((10, []), [(0, [3]), (1, [])]) (.cons ((11, []), [(0, [4, 5])]) .nil .nil) (.cons ((12, []), []) .nil .nil)

/-- the node 10 has other relations before; they are replaced, and those of the node 1 are kept -/
def exLinks' : Links := fun k a => if k = 10 then [8] else exLinks k a

example : ∃ db1 db2 L1 L2 added1 added2, MP.loadLinks MP.exCfg MP.exDB exLinks' none exLinked = .ok ((db1, L1), added1) ∧
    MP.loadCreateLinks MP.exCfg MP.exDB exLinks' none exLinked = .ok ((db2, L2), added2) ∧ L1 = L2 ∧
    L1 10 0 = [3] ∧ L1 10 1 = [] ∧ L1 10 2 = [8] ∧ L1 11 0 = [4, 5] ∧ L1 1 0 = [2, 5] := by
  obtain ⟨db1, added1, e1⟩ : ∃ db1 added1, MP.load MP.exCfg MP.exDB none (exLinked.map Prod.fst) = .ok (db1, added1) := ⟨_, _, by rw [MP.load_eq]; rfl⟩
  obtain ⟨db2, added2, e2⟩ : ∃ db2 added2, MP.loadCreate MP.exCfg MP.exDB none (exLinked.map Prod.fst) = .ok (db2, added2) := ⟨_, _, by rfl⟩
  obtain ⟨L1, g1, _, l1⟩ := (MP.C88_mp_load MP.exCfg MP.exDB exLinks' none (data := exLinked) (by decide) (by decide)).2 _ _ e1
  obtain ⟨L2, g2, _, _⟩ := (MP.C88_mp_create MP.exCfg MP.exDB exLinks' none (data := exLinked) (by decide) (by decide)).2 _ _ e2
  exact ⟨db1, db2, L1, L2, added1, added2, g1, g2, MP.C88_mp_same _ _ _ _ (by decide) (by decide) g1 g2,
    l1.given (10, [(0, [3]), (1, [])]) (by decide) (0, [3]) (by decide), l1.given (10, [(0, [3]), (1, [])]) (by decide) (1, []) (by decide),
    l1.notGiven (10, [(0, [3]), (1, [])]) (by decide) 2 (by decide), l1.given (11, [(0, [4, 5])]) (by decide) (0, [4, 5]) (by decide),
    congrFun (l1.others 1 (by decide)) 0⟩

example : (∀ e, NS.load ⟨[]⟩ NS.exDB none (exLinked.map Prod.fst) = .error e → NS.loadLinks ⟨[]⟩ NS.exDB exLinks none exLinked = .error e) :=
  (NS.C88_ns_load ⟨[]⟩ NS.exDB exLinks none (data := exLinked) (by decide) (by decide)).1

example : ∃ L', AL.loadLinks AL.exPlain AL.exDB exLinks' none exLinked = .ok ((⟨AL.exDB.rows ++ [⟨10, none, 4, []⟩, ⟨11, some 10, 1, []⟩, ⟨12, none, 5, []⟩]⟩, L'), [10, 11, 12]) ∧
    L' 11 0 = [4, 5] := by
  obtain ⟨L', g, _, l⟩ := (AL.C88_al_load AL.exPlain AL.exDB exLinks' none (data := exLinked) (by decide) (by decide)).2
    ⟨AL.exDB.rows ++ [⟨10, none, 4, []⟩, ⟨11, some 10, 1, []⟩, ⟨12, none, 5, []⟩]⟩ [10, 11, 12] (by rw [AL.load, loadBulk_eq]; rfl)
  exact ⟨L', g, l.given (11, [(0, [4, 5])]) (by decide) (0, [4, 5]) (by decide)⟩

example : ∃ db' L' added, LT.loadLinks ⟨[]⟩ LT.exDB exLinks' none exLinked = .ok ((db', L'), added) ∧ L' 11 0 = [4, 5] := by
  obtain ⟨db', added, e⟩ : ∃ db' added, LT.load ⟨[]⟩ LT.exDB none (exLinked.map Prod.fst) = .ok (db', added) := ⟨_, _, by rw [LT.load, loadBulk_eq]; rfl⟩
  obtain ⟨L', g, _, l⟩ := (LT.C88_lt_load ⟨[]⟩ LT.exDB exLinks' none (data := exLinked) (by decide) (by decide)).2 _ _ e
  exact ⟨db', L', added, g, l.given (11, [(0, [4, 5])]) (by decide) (0, [4, 5]) (by decide)⟩

end Verif
