/-
C97: with room for it, a load into a sorted materialized path tree succeeds.
-/
import Verif.LoadRoomLemmas
import Verif.Props.PathRoom
import Verif.Props.CopySorted

namespace Verif.MP

variable {cfg : Cfg} {db : DB} {M : Nat}

/-- `add_child` reads the parent again -/
theorem addTo_stale {t target : Row} (hk : target.pk = t.pk) (new : Row) : addTo cfg db (some target) new = addTo cfg db (some t) new := by
  simp only [addTo, addChild, hk]
  cases db.get? t.pk with
  | none => rfl
  | some node =>
    dsimp only
    split
    · cases lastChild cfg db node with
      | none => rfl
      | some last =>
        dsimp only
        cases addSibling cfg db last (some .sortedSibling) new <;> rfl
    · cases newChildPath cfg db node with
      | error e => rfl
      | ok p =>
        dsimp only
        cases save (incNumchildPk db node.pk) { new with path := p, depth := node.depth + 1 } <;> rfl

/-- the level of the parent of a new node -/
def depthOf : Option Row → Nat
  | none => 0
  | some t => t.depth

/-- the object has the primary key and the depth of a stored node -/
def DHandle (db : DB) (h : Option Row) (p : Option Nat) : Prop := Handle db h p ∧ ∀ t, h = some t → ∃ r ∈ db.rows, r.pk = t.pk ∧ r.depth = t.depth

theorem level_put {F : Forest} {p : Option Nat} {s : Slot} {x k d : Nat} (h : F.Level k d) : (F.put p s x).Level k d := by
  induction h with
  | root h => exact .root (Forest.subset_put h)
  | child _ h ih => exact .child ih (Forest.subset_put h)

theorem row_level (hok : cfg.Ok) (h : Consistent cfg db) {r : Row} (hr : r ∈ db.rows) {n : Nat} : (forest cfg db).Level r.pk n ↔ r.depth = n := by
  have hi := (consistent_iff hok).1 h
  rw [forest_eq hi hok]
  exact level_PF hi.toPInv hok hr

/-- an addition leaves the depths of the others -/
theorem added_depths (hok : cfg.Ok) (h : Consistent cfg db) {db' : DB} {obj new : Row} {p : Option Nat} {s : Slot} (ha : AddedAt cfg db db' obj new p s)
    {r : Row} (hr : r ∈ db.rows) : ∃ r' ∈ db'.rows, r'.pk = r.pk ∧ r'.depth = r.depth := by
  have hm : r.pk ∈ (data db'.rows).map Prod.fst := by
    rw [ha.data, List.map_append, List.mem_append]
    exact Or.inl (mem_data.2 ⟨r, hr, rfl⟩)
  obtain ⟨r', hr', e⟩ := mem_data.1 hm
  refine ⟨r', hr', e, ?_⟩
  rw [← row_level hok ha.consistent hr', e, ha.forest]
  exact level_put ((row_level hok h hr).2 rfl)

/-- the depth of the new node -/
theorem added_depth (hok : cfg.Ok) (h : Consistent cfg db) {db' : DB} {obj new : Row} {h' : Option Row} {p : Option Nat} {s : Slot} (ha : AddedAt cfg db db' obj new p s)
    (hh : DHandle db h' p) (hm : new.pk ∈ forest cfg db' p) : obj.depth = depthOf h' + 1 := by
  rw [← row_level hok ha.consistent ha.obj.1, ha.obj.2]
  cases h' with
  | none =>
    have : p = none := hh.1
    subst this
    exact .root hm
  | some t =>
    obtain ⟨⟨rfl, _⟩, h2⟩ := hh
    obtain ⟨r, hr, e1, e2⟩ := h2 t rfl
    refine .child ?_ hm
    rw [ha.forest, ← e1]
    exact level_put ((row_level hok h hr).2 e2)

/-- the state during a load of at most `B - N` nodes into a table of `N` rows with no position beyond `M` -/
structure Roomed (cfg : Cfg) (M N B : Nat) (db : DB) (G : Forest) : Prop where
  mid : Midway cfg db G
  more : N ≤ db.rows.length
  pos : db.rows.length ≤ B → PosIn cfg (M + (db.rows.length - N)) db

theorem data_length (rows : List Row) : (data rows).length = rows.length := by simp [data]

/-- one addition -/
theorem addTo_pos (hok : cfg.Ok) (h : Consistent cfg db) (hp : PosIn cfg M db) (hM : M + 2 < cfg.cap) {h' : Option Row} {p : Option Nat} (hh : DHandle db h' p) (new : Row) :
    ((depthOf h' + 1) * cfg.steplen ≤ cfg.maxLen → addTo cfg db h' new ≠ .error .pathOverflow) ∧ ∀ db' obj, addTo cfg db h' new = .ok (db', obj) → PosIn cfg (M + 1) db' := by
  have hi := (consistent_iff hok).1 h
  cases h' with
  | none =>
    obtain ⟨h1, h2⟩ := addRoot_at hok hM hi.toPInv hp new
    exact ⟨fun _ => h1, h2⟩
  | some target =>
    obtain ⟨_, h2⟩ := hh
    obtain ⟨t, ht, e1, e2⟩ := h2 target rfl
    rw [addTo_stale e1.symm]
    simp only [addTo]
    by_cases hlen : t.isLeaf = true → t.path.length + cfg.steplen ≤ cfg.maxLen
    · obtain ⟨h1, h2⟩ := addChild_at hok hM hi.toPInv hp ht hlen new
      cases e : addChild cfg db t new with
      | error er => exact ⟨fun _ hc => h1 (by rw [e]; cases hc; rfl), nofun⟩
      | ok r => exact ⟨nofun, fun db' obj e' => by cases e'; exact h2 r.1 r.2.1 r.2.2 e⟩
    · have hl : t.isLeaf = true := by
        by_contra hc
        exact hlen (fun h => absurd h hc)
      have hd : addChild cfg db t new = .error .pathOverflow := addChild_deep hok h ht rfl hl (by by_contra hc; exact hlen (fun _ => by omega)) _
      rw [hd]
      refine ⟨fun hf => absurd (fun _ => ?_) hlen, nofun⟩
      have := hi.toPInv.depth t ht
      rw [this]
      calc t.depth * cfg.steplen + cfg.steplen = (t.depth + 1) * cfg.steplen := by ring
        _ ≤ cfg.maxLen := by rw [e2]; exact hf

theorem Roomed.loadsTo {N B : Nat} (hok : cfg.Ok) (ho : cfg.ordered = true) (hM : M + (B - N) + 1 < cfg.cap) :
    LoadsTo (fun db p a => addTo cfg db p ⟨a.1, [], 0, 0, a.2⟩) Row.pk (Roomed cfg M N B)
    (fun db => data db.rows) DHandle (fun _ _ => True) (NonNull cfg.orderBy) (· = .pathOverflow) := by
  refine ⟨fun _ => trivial, fun _ _ => trivial, ?_⟩
  intro db G h p k v hm hh hk hv
  have hf : Fresh db ⟨k, [], 0, 0, v⟩ := ⟨fun r hr e => hk (mem_data.2 ⟨r, hr, e⟩), rfl⟩
  have fin : ∀ db' obj, addTo cfg db h ⟨k, [], 0, 0, v⟩ = .ok (db', obj) → SortedAdded cfg db p ⟨k, [], 0, 0, v⟩ db' obj →
      Roomed cfg M N B db' (G.put p .last k) ∧ data db'.rows = data db.rows ++ [(k, v)] ∧
      obj.pk = k ∧ DHandle db' (some obj) (some k) ∧ True ∧ ∀ h' p', DHandle db h' p' → True → DHandle db' h' p' := by
    intro db' obj e0 ha
    obtain ⟨a, b, c, d, e⟩ := hm.mid.added hok hf ha
    obtain ⟨⟨s, had⟩, _, _⟩ := ha
    have hlen : db'.rows.length = db.rows.length + 1 := by
      rw [← data_length, b]; simp [data_length]
    refine ⟨⟨a, by have := hm.more; omega, fun hB => ?_⟩, b, c, ⟨⟨by rw [c], by rw [c]; exact d⟩, ?_⟩, trivial, ?_⟩
    · have h1 := hm.more
      have := (addTo_pos hok hm.mid.cons (hm.pos (by omega)) (by omega) hh _).2 db' obj e0
      have hx : M + (db'.rows.length - N) = M + (db.rows.length - N) + 1 := by omega
      rw [hx]
      exact this
    · rintro t ⟨⟩
      exact ⟨obj, had.obj.1, rfl, rfl⟩
    · intro h' p' hh' _
      refine ⟨?_, ?_⟩
      · cases h' with
        | none => exact hh'.1
        | some o => exact ⟨hh'.1.1, e _ hh'.1.2⟩
      · intro t et
        obtain ⟨r, hr, e1, e2⟩ := hh'.2 t et
        obtain ⟨r', hr', e3, e4⟩ := added_depths hok hm.mid.cons had hr
        exact ⟨r', hr', e3.trans e1, e4.trans e2⟩
  cases h with
  | none =>
    have hp : p = none := hh.1
    subst hp
    rcases C16_add_root hok hm.mid.cons ho hm.mid.sorted hf hv with ⟨db', obj, e, ha⟩ | ⟨e, _⟩
    · exact Or.inl ⟨db', obj, e, fin db' obj e ha⟩
    · exact Or.inr ⟨_, e, rfl⟩
  | some t =>
    obtain ⟨rfl, t', ht', e'⟩ := hh.1
    rcases C16_add_child hok hm.mid.cons ho hm.mid.sorted ht' e'.symm hf hv with ⟨db', obj, t2, e, ha⟩ | ⟨e, _⟩
    · rw [e'] at ha
      have e0 : addTo cfg db (some t) ⟨k, [], 0, 0, v⟩ = .ok (db', obj) := by simp only [addTo, e]; rfl
      exact Or.inl ⟨db', obj, e0, fin db' obj e0 ha⟩
    · exact Or.inr ⟨_, by simp only [addTo, e]; rfl, rfl⟩

/-- the additions succeed -/
theorem Roomed.add {N B : Nat} (hok : cfg.Ok) (ho : cfg.ordered = true) (hM : M + (B - N) + 1 < cfg.cap) {G : Forest} {h : Option Row} {p : Option Nat} {k : Nat} {v : Vals}
    (hm : Roomed cfg M N B db G) (hh : DHandle db h p) (hk : k ∉ (data db.rows).map Prod.fst) (hv : NonNull cfg.orderBy v) (hB : (data db.rows).length < B)
    (hd : depthOf h < cfg.maxLen / cfg.steplen) :
    ∃ db' obj, addTo cfg db h ⟨k, [], 0, 0, v⟩ = .ok (db', obj) ∧ depthOf (some obj) = depthOf h + 1 := by
  have hf : Fresh db ⟨k, [], 0, 0, v⟩ := ⟨fun r hr e => hk (mem_data.2 ⟨r, hr, e⟩), rfl⟩
  rw [data_length] at hB
  have hmore := hm.more
  have hno := (addTo_pos hok hm.mid.cons (hm.pos (by omega)) (by omega) hh ⟨k, [], 0, 0, v⟩).1 ((Nat.le_div_iff_mul_le hok.step).1 hd)
  have fin : ∀ db' obj, SortedAdded cfg db p ⟨k, [], 0, 0, v⟩ db' obj → depthOf (some obj) = depthOf h + 1 := by
    rintro db' obj ⟨⟨s, had⟩, _, l, r, hs⟩
    exact added_depth hok hm.mid.cons had hh (by rw [hs.1]; simp)
  cases h with
  | none =>
    have hp : p = none := hh.1
    subst hp
    rcases C16_add_root hok hm.mid.cons ho hm.mid.sorted hf hv with ⟨db', obj, e, ha⟩ | ⟨e, _⟩
    · exact ⟨db', obj, e, fin db' obj ha⟩
    · exact absurd e hno
  | some t =>
    obtain ⟨rfl, t', ht', e'⟩ := hh.1
    rcases C16_add_child hok hm.mid.cons ho hm.mid.sorted ht' e'.symm hf hv with ⟨db', obj, t2, e, ha⟩ | ⟨e, _⟩
    · rw [e'] at ha
      exact ⟨db', obj, by simp only [addTo, e]; rfl, fin db' obj ha⟩
    · exact absurd (by simp only [addTo, e]; rfl) hno

theorem handle_of (parent : Option Row) (hp : ∀ p, parent = some p → p ∈ db.rows) : DHandle db parent (parent.map Row.pk) := by
  cases parent with
  | none => exact ⟨rfl, nofun⟩
  | some p => exact ⟨⟨rfl, p, hp p rfl, rfl⟩, fun t e => by cases e; exact ⟨p, hp p rfl, rfl, rfl⟩⟩

/-- **C97.**  A load into a sorted tree succeeds if the positions do, counting one for each new node, and the levels. -/
theorem C97_load (hok : cfg.Ok) (h : Consistent cfg db) (ho : cfg.ordered = true) (hs : SortedTree cfg db) {parent : Option Row}
    (hp : ∀ p, parent = some p → p ∈ db.rows) {n : Nest Nat} (hnd : n.labels.Nodup) (hfresh : ∀ k ∈ n.labels, ∀ r ∈ db.rows, r.pk ≠ k) {V : Nat → Vals}
    (hV : ∀ k ∈ n.labels, NonNull cfg.orderBy (V k)) (hM : PosIn cfg M db) (hroom : M + n.labels.length + 1 < cfg.cap)
    (hdeep : depthOf parent + n.height ≤ cfg.maxLen / cfg.steplen) :
    ∃ db', load cfg db parent (n.map (fun k => (k, V k))) = .ok (db', n.labels) ∧ Consistent cfg db' ∧
      LoadedSorted cfg.orderBy (forest cfg db) (forest cfg db') (data db.rows) (data db'.rows) (parent.map Row.pk) n V := by
  rcases C91_mp hok h ho hs (fun p e => List.mem_map_of_mem (hp p e)) hnd hfresh hV with h1 | h1
  · exact h1
  · exfalso
    rw [load, loadBulk_eq] at h1
    have hso := hs.sorted
    rw [valsOf_eq] at hso
    have hc : M + (db.rows.length + n.labels.length - db.rows.length) + 1 < cfg.cap := by omega
    refine (Roomed.loadsTo (M := M) (N := db.rows.length) (B := db.rows.length + n.labels.length) hok ho hc).room (dep := depthOf) (H := cfg.maxLen / cfg.steplen)
      (B := db.rows.length + n.labels.length) ?_ n (G := forest cfg db) ⟨⟨h, hs, hso.stably⟩, Nat.le_refl _, fun _ => by rw [Nat.sub_self]; exact hM⟩
      (handle_of parent hp) hnd ?_ hV (by rw [data_length]) hdeep _ h1
    · rintro s G h p k v hm hh hk hv hB hd _ rfl
      exact hm.add hok ho hc hh hk hv hB hd
    · intro k hk hm
      obtain ⟨r, hr, e⟩ := mem_data.1 hm
      exact hfresh k hk r hr e

/-- **C97 for copies**: as long as there are positions for the nodes of the branch, and levels for them below the new parent. -/
theorem C97_copy (hok : cfg.Ok) (h : Consistent cfg db) (ho : cfg.ordered = true) (hs : SortedTree cfg db) {x : Row} (hx : x ∈ db.rows) {parent : Option Row}
    (hp : ∀ p, parent = some p → p ∈ db.rows) {keys : Nat → Nat} (hkeys : ∀ i j, keys i = keys j → i = j) (hnew : ∀ i, keys i ∉ db.rows.map Row.pk)
    (hM : PosIn cfg M db) (hroom : ∀ l, (forest cfg db).DFS [x.pk] l → M + l.length + 1 < cfg.cap)
    (hdeep : ∀ k e, (forest cfg db).Below x.pk k e → depthOf parent + (e + 1) ≤ cfg.maxLen / cfg.steplen) :
    ∃ db' added f, copyBranch cfg db x parent keys = .ok (db', added) ∧ Consistent cfg db' ∧ SortedTree cfg db' ∧
      (data db'.rows).map Prod.fst = (data db.rows).map Prod.fst ++ added ∧
      CopiedSorted cfg.orderBy (forest cfg db) (forest cfg db') (data db.rows) (data db'.rows) (valsOf db) x.pk (parent.map Row.pk) f := by
  rcases C96_mp hok h ho hs hx (fun p e => List.mem_map_of_mem (hp p e)) hkeys hnew with h1 | h1
  · exact h1
  · exfalso
    have hF := isForestOn_data hok h
    have hxk : x.pk ∈ (data db.rows).map Prod.fst := by rw [keys_data]; exact List.mem_map_of_mem hx
    obtain ⟨d, ed, hd⟩ := C19_mp_dump hok h (parent := some x) (by rintro p ⟨⟩; exact hx) false
    obtain ⟨m, V, i, f, ep, hnd, htops, hlab, hVo, hcop⟩ := copy_prepared hF hxk hd hkeys (by rw [keys_data]; exact hnew)
    obtain ⟨n, hn, rfl⟩ := hd
    obtain ⟨hh, hl⟩ := prepare_shape ep
    rw [Nest.height_map, Nest.height_map] at hh
    rw [Nest.labels_map, Nest.labels_map, List.length_map, List.length_map] at hl
    have hfresh : ∀ k ∈ m.labels, ∀ r ∈ db.rows, r.pk ≠ k := by
      rintro k hk r hr rfl
      refine (hlab _ hk).1 ?_
      rw [keys_data]; exact List.mem_map_of_mem hr
    have hpk : ∀ k, parent.map Row.pk = some k → k ∈ (data db.rows).map Prod.fst := by
      intro k hk
      cases parent with
      | none => cases hk
      | some p => cases hk; rw [keys_data]; exact List.mem_map_of_mem (hp p rfl)
    have hT : Grafted (forest cfg db) (graft (forest cfg db) (parent.map Row.pk) m) (parent.map Row.pk) m :=
      graft_grafted hnd (fun k hk e => (hlab k hk).1 (hpk k e))
    rw [valsOf_eq] at hcop
    have hVn := copied_vals (P := NonNull cfg.orderBy) (hcop _ _ _ hT rfl) hF hxk (hs.toData.vals_nonNull hF.ids_nodup)
    have hx0 := hdeep x.pk 0 .self
    have hheight : n.height ≤ cfg.maxLen / cfg.steplen - depthOf parent := hn.height_le (fun c hc k e hb => by
      simp only [Option.map_some, Forest.dumpTops, List.mem_singleton] at hc
      subst hc
      have := hdeep k e hb
      omega)
    obtain ⟨l, hdfs, _⟩ := hF.branch hxk
    have hll : n.labels = l := by
      obtain ⟨n', hn', e⟩ := Nest.shown_of_dfs hdfs
      rw [← e, hn.unique hn']
    obtain ⟨db', e, _⟩ := C97_load (M := M) hok h ho hs hp hnd hfresh hVn hM (by rw [hl, hll]; exact hroom l hdfs) (by rw [hh]; omega)
    unfold copyBranch at h1
    rw [ed] at h1
    dsimp only at h1
    rw [ep] at h1
    dsimp only at h1
    rw [e] at h1
    cases h1

/-- a history without `add_child` needs no more than positions -/
theorem roomy_flat (hok : cfg.Ok) (h : Consistent cfg db) (hs : cfg.ordered = true → SortedTree cfg db) {ops : List Op} (hn : ∀ op ∈ ops, NoNulls cfg.orderBy op)
    (hflat : ∀ op ∈ ops, ∀ t k v, op ≠ .addChild t k v) (hM : PosIn cfg M db) (hroom : M + (writes ops).length + 1 < cfg.cap) : Roomy cfg db ops := by
  refine roomy_of (σ := Unit) (st := fun s _ => s) (fun _ _ => True) (fun _ ops => ∀ op ∈ ops, ∀ t k v, op ≠ .addChild t k v) hok ?_ (fun _ _ _ _ _ _ => Or.inl trivial)
    (fun _ => hn) (s := ()) ⟨h, hs⟩ trivial hM hroom hflat
  intro db s op ops _ _ hf
  refine ⟨?_, fun o ho => hf o (by simp [ho])⟩
  cases op with
  | addChild t k v => exact absurd rfl (hf _ (by simp) t k v)
  | _ => trivial

theorem roomy_handOps (hok : cfg.Ok) (h : Consistent cfg db) (hs : SortedTree cfg db) {cs : List Nat} {a b : Nat} {pos : Pos} (hM : PosIn cfg M db)
    (hroom : M + cs.length + 1 < cfg.cap) : Roomy cfg db (handOps cs a b pos) := by
  refine roomy_flat hok h (fun _ => hs) (handOps_noNulls _ _ _ _) ?_ hM ?_
  · intro op ho t k v e
    subst e
    simp [handOps] at ho
  · have : (writes (handOps cs a b pos)).length ≤ cs.length := by
      rw [writes, handOps, List.filter_append, List.length_append]
      exact Nat.le_trans (Nat.add_le_add_right (List.length_filter_le _ _) _) (by simp)
    omega

/-- **C97 for merging** -/
theorem C97_merge (hok : cfg.Ok) (ho : cfg.ordered = true) (h : Consistent cfg db) (hs : SortedTree cfg db) {a b : Nat} (ha : a ∈ db.rows.map Row.pk)
    (hb : b ∈ db.rows.map Row.pk) (hne : a ≠ b) (hd : ¬ (forest cfg db).Desc a b) (hM : PosIn cfg M db) (hroom : M + (forest cfg db (some a)).length + 1 < cfg.cap) {db' : DB}
    (hdb : db' = runOps cfg db (handOps (forest cfg db (some a)) a b .sortedChild)) :
    Consistent cfg db' ∧ SortedTree cfg db' ∧ HandedSorted cfg.orderBy (forest cfg db) (forest cfg db') (data db.rows) (data db'.rows) a (some b) :=
  C93_mp_merge hok ho h hs ha hb hne hd (roomy_handOps hok h hs hM hroom) hdb

/-- **C97 for dissolving** -/
theorem C97_dissolve (hok : cfg.Ok) (ho : cfg.ordered = true) (h : Consistent cfg db) (hs : SortedTree cfg db) {a : Nat} {p : Option Nat} (ha : a ∈ forest cfg db p)
    (hM : PosIn cfg M db) (hroom : M + (forest cfg db (some a)).length + 1 < cfg.cap) {db' : DB}
    (hdb : db' = runOps cfg db (handOps (forest cfg db (some a)) a a .sortedSibling)) :
    Consistent cfg db' ∧ SortedTree cfg db' ∧ HandedSorted cfg.orderBy (forest cfg db) (forest cfg db') (data db.rows) (data db'.rows) a p :=
  C93_mp_dissolve hok ho h hs ha (roomy_handOps hok h hs hM hroom) hdb

/-! ### Examples -/

/-- 10 with its child 14, and 11 -/
def exFew : Nest Nat := .cons 10 (.cons 14 .nil .nil) (.cons 11 .nil .nil)

theorem exFew_nonNull : ∀ k ∈ exFew.labels, NonNull exCfgS.orderBy (exOutVals k ++ [some 0]) := by
  intro k _ f hf
  simp only [exCfgS, List.mem_cons, List.not_mem_nil, or_false] at hf
  rcases hf with rfl | rfl <;> exact ⟨_, rfl⟩

theorem exDBS_posIn : PosIn exCfgS 4 exDBS := by
  intro r hr n e
  simp only [exDBS, List.mem_cons, List.not_mem_nil, or_false] at hr
  rcases hr with rfl | rfl | rfl | rfl | rfl
  · rw [show lastpos exCfgS [49] = .ok 1 from by decide] at e; cases e; decide
  · rw [show lastpos exCfgS [50] = .ok 2 from by decide] at e; cases e; decide
  · rw [show lastpos exCfgS [52] = .ok 4 from by decide] at e; cases e; decide
  · rw [show lastpos exCfgS [50, 49] = .ok 1 from by decide] at e; cases e; decide
  · rw [show lastpos exCfgS [50, 50] = .ok 2 from by decide] at e; cases e; decide

/-- the hypotheses of C97_load are met -/
example : ∃ db', load exCfgS exDBS (some ⟨2, [50], 1, 2, [some 1, some 2]⟩) (exFew.map (fun k => (k, exOutVals k ++ [some 0]))) = .ok (db', [10, 14, 11]) := by
  obtain ⟨db', e, _⟩ := C97_load (M := 4) exCfgS_ok exDBS_consistent rfl ⟨exDBS_sorted.1, exDBS_sorted.2⟩ (parent := some ⟨2, [50], 1, 2, [some 1, some 2]⟩)
    (by rintro p ⟨⟩; decide) (n := exFew) (by decide) (by decide) (V := fun k => exOutVals k ++ [some 0]) exFew_nonNull exDBS_posIn (by decide) (by decide)
  exact ⟨db', e⟩

/-- the hypotheses of C97_merge and C97_dissolve are met -/
example : PosIn exCfgS 4 exDBS ∧ 4 + (forest exCfgS exDBS (some 2)).length + 1 < exCfgS.cap := ⟨exDBS_posIn, by decide⟩

/-- The bound on the positions: with a root at the last position there is no room for one node. -/
theorem C97_full : ∃ db : DB, Consistent exCfgS db ∧ SortedTree exCfgS db ∧ PosIn exCfgS 9 db ∧ exCfgS.cap = 10 ∧
    load exCfgS db none (.cons (2, [some 6, some 0]) .nil .nil) = .error .pathOverflow := by
  refine ⟨⟨[⟨1, [57], 1, 0, [some 5, some 0]⟩], []⟩, ⟨by decide, by decide, by intro p; cases p <;> decide, by decide, by decide⟩, ⟨?_, ?_⟩, ?_, by decide, ?_⟩
  · intro r hr f hf
    simp only [List.mem_cons, List.not_mem_nil, or_false] at hr
    simp only [exCfgS, List.mem_cons, List.not_mem_nil, or_false] at hf
    subst hr
    rcases hf with rfl | rfl <;> exact ⟨_, rfl⟩
  · intro q
    have : (forest exCfgS ⟨[⟨1, [57], 1, 0, [some 5, some 0]⟩], []⟩ q).length ≤ 1 := by
      unfold forest
      cases q with
      | none => decide
      | some k => 
        by_cases hk : k = 1
        · subst hk; decide
        · simp [DB.get?, Ne.symm hk]
    match hl : forest exCfgS ⟨[⟨1, [57], 1, 0, [some 5, some 0]⟩], []⟩ q, this with
    | [], _ => exact .nil
    | [_], _ => exact List.pairwise_singleton _ _
  · intro r hr n e
    simp only [List.mem_cons, List.not_mem_nil, or_false] at hr
    subst hr
    rw [show lastpos exCfgS [57] = .ok 9 from by decide] at e; cases e; decide
  · rw [load, loadBulk_eq]; decide +kernel

/-- The bound on the levels: below a node at the last level there is no room for a child. -/
theorem C97_deep : ∃ (cfg : Cfg) (db : DB) (t : Row), cfg.Ok ∧ cfg.ordered = true ∧ t ∈ db.rows ∧ Consistent cfg db ∧ t.depth = cfg.maxLen / cfg.steplen ∧
    load cfg db (some t) (.cons (2, [some 6]) .nil .nil) = .error .pathOverflow := by
  refine ⟨⟨List.range' 48 10, 1, [(0, false)], 1⟩, ⟨[⟨1, [49], 1, 0, [some 5]⟩], []⟩, ⟨1, [49], 1, 0, [some 5]⟩, ⟨by decide, by decide, by decide⟩, rfl, by simp,
    ⟨by decide, by decide, by intro p; cases p <;> decide, by decide, by decide⟩, by decide, ?_⟩
  rw [load, loadBulk_eq]; decide +kernel

/-- the hypotheses of C97_copy are met: the branch of 2 copied below 3 -/
example : ∃ db' added, copyBranch exCfgS exDBS ⟨2, [50], 1, 2, [some 1, some 2]⟩ (some ⟨3, [52], 1, 0, [some 7, some 0]⟩) (fun i => 10 + i) = .ok (db', added) := by
  obtain ⟨db', added, f, e, _⟩ := C97_copy (M := 4) exCfgS_ok exDBS_consistent rfl ⟨exDBS_sorted.1, exDBS_sorted.2⟩ (x := ⟨2, [50], 1, 2, [some 1, some 2]⟩) (by decide)
    (parent := some ⟨3, [52], 1, 0, [some 7, some 0]⟩) (by rintro p ⟨⟩; decide) (keys := fun i => 10 + i) (fun i j e => by omega)
    (fun i hc => by simp [exDBS] at hc; omega) exDBS_posIn (by
      intro l hl
      have h4 : (forest exCfgS exDBS).DFS (forest exCfgS exDBS (some 4)) [] := by rw [show forest exCfgS exDBS (some 4) = [] by decide]; exact .nil
      have h5 : (forest exCfgS exDBS).DFS (forest exCfgS exDBS (some 5)) [] := by rw [show forest exCfgS exDBS (some 5) = [] by decide]; exact .nil
      have h2 : (forest exCfgS exDBS).DFS (forest exCfgS exDBS (some 2)) [4, 5] := by
        rw [show forest exCfgS exDBS (some 2) = [4, 5] by decide]; exact .cons (l₂ := [5]) h4 (.cons (l₂ := []) h5 .nil)
      have h2 : (forest exCfgS exDBS).DFS [2] [2, 4, 5] := .cons (l₂ := []) h2 .nil
      rw [hl.det h2]
      decide) (by
      intro k e hb
      have hl := hb.level ((row_level exCfgS_ok exDBS_consistent (r := ⟨2, [50], 1, 2, [some 1, some 2]⟩) (by decide) (n := 1)).2 rfl)
      have hk : k ∈ (data exDBS.rows).map Prod.fst := by
        generalize 1 + e = j at hl
        cases hl with
        | root hm => exact keys_of_forest exCfgS_ok exDBS_consistent _ _ hm
        | child _ hm => exact keys_of_forest exCfgS_ok exDBS_consistent _ _ hm
      obtain ⟨r, hr, rfl⟩ := mem_data.1 hk
      rw [row_level exCfgS_ok exDBS_consistent hr] at hl
      have h2 : ∀ r ∈ exDBS.rows, r.depth ≤ 2 := by decide
      have := h2 r hr
      show 1 + (e + 1) ≤ 10
      omega)
  exact ⟨db', added, e⟩

end Verif.MP
