/-
C81: a branch is copied by dumping it without primary keys and loading it somewhere else in the same tree.
-/
import Verif.CopyModel
import Verif.CopyLemmas
import Verif.Props.MPDump
import Verif.Props.NSDump
import Verif.Props.ALDump
import Verif.Props.LTDump
import Verif.Props.AdminSearch
import Verif.PageLemmas

namespace Verif

namespace MP

variable {cfg : Cfg} {db : DB}

/-- The paths of the copy fit in the column. -/
def CopyFits (cfg : Cfg) (db : DB) (x : Row) (parent : Option Row) : Prop :=
  ∀ r ∈ db.rows, x.path <+: r.path → ((parent.map Row.path).getD []).length + r.path.length + cfg.steplen ≤ cfg.maxLen + x.path.length

/-- **C81 for MP**: the copy of the branch of `x` is the last child of `parent` (the last root without one), if there is a position after the last child and the paths fit.  `parent` may
be `x` itself or be below it. -/
theorem C81_mp (hok : cfg.Ok) (h : Consistent cfg db) (ho : cfg.ordered = false) {x : Row} (hx : x ∈ db.rows) {parent : Option Row} (hp : ∀ p, parent = some p → p ∈ db.rows)
    (hroom : RoomAfter cfg db.rows ((parent.map Row.path).getD []) 1) (hfit : CopyFits cfg db x parent)
    {keys : Nat → Nat} (hkeys : ∀ i j, keys i = keys j → i = j) (hnew : ∀ i, keys i ∉ db.rows.map Row.pk) :
    ∃ db' added f, copyBranch cfg db x parent keys = .ok (db', added) ∧ Consistent cfg db' ∧ (data db'.rows).map Prod.fst = (data db.rows).map Prod.fst ++ added ∧
      Copied (forest cfg db) (forest cfg db') (data db.rows) (data db'.rows) (valsOf db) x.pk (parent.map Row.pk) f := by
  have hi := (consistent_iff hok).1 h
  have hfe := forest_eq hi hok
  have hpks : (data db.rows).map Prod.fst = db.rows.map Row.pk := by simp [data, Function.comp_def]
  have hF : (forest cfg db).IsForestOn ((data db.rows).map Prod.fst) := by rw [hpks]; exact isForestOn_forest hok h
  obtain ⟨d, ed, hd⟩ := C19_mp_dump hok h (parent := some x) (by rintro p ⟨⟩; exact hx) false
  obtain ⟨m, V, i, f, ep, hnd, htops, hlab, hV, hcop⟩ := copy_prepared hF (by rw [hpks]; exact List.mem_map_of_mem hx) hd hkeys (by rw [hpks]; exact hnew)
  have hfresh : ∀ k ∈ m.labels, ∀ r ∈ db.rows, r.pk ≠ k := by
    rintro k hk r hr rfl
    refine (hlab _ hk).1 ?_
    rw [hpks]; exact List.mem_map_of_mem hr
  have hVr : ∀ r ∈ db.rows, V r.pk = r.vals := by
    intro r hr
    rw [hV _ (by rw [hpks]; exact List.mem_map_of_mem hr), valsOf_row hi.inv hr]
  have hT : Grafted (forest cfg db) (graft (forest cfg db) (parent.map Row.pk) m) (parent.map Row.pk) m := by
    refine graft_grafted hnd ?_
    intro k hk e
    cases parent with
    | none => cases e
    | some p => cases e; exact hfresh _ hk p (hp p rfl) rfl
  have hC := hcop _ _ _ hT rfl
  have row_of : ∀ k ∈ (data db.rows).map Prod.fst, ∃ r ∈ db.rows, r.pk = k := by
    intro k hk; rw [hpks] at hk; exact List.mem_map.1 hk
  have brow : ∀ a, (forest cfg db).Branch x.pk a → ∃ r ∈ db.rows, r.pk = a ∧ x.path <+: r.path := by
    rintro a (rfl | ha)
    · exact ⟨x, hx, rfl, List.prefix_refl _⟩
    · rw [hfe] at ha
      have : ∃ r ∈ db.rows, r.pk = a := by
        cases ha with
        | child hm => obtain ⟨r, hr, _, e⟩ := (mem_PF hi.toPInv).1 hm; exact ⟨r, hr, e⟩
        | step _ hm => obtain ⟨r, hr, _, e⟩ := (mem_PF hi.toPInv).1 hm; exact ⟨r, hr, e⟩
      obtain ⟨r, hr, rfl⟩ := this
      exact ⟨r, hr, rfl, ((desc_PF hi.toPInv hok hx hr).1 ha).1⟩
  let lev : Nat → Nat := fun k => ((db.get? k).map Row.depth).getD 0
  have hlevr : ∀ r ∈ db.rows, lev r.pk = r.depth := by
    intro r hr
    show ((db.get? r.pk).map Row.depth).getD 0 = r.depth
    rw [(get?_eq_some hi.inv).2 ⟨hr, rfl⟩]; rfl
  have hlevel : ∀ k ∈ (data db.rows).map Prod.fst, ∀ l, (forest cfg db).Level k l → l = lev k := by
    intro k hk l hl
    obtain ⟨r, hr, rfl⟩ := row_of k hk
    rw [hfe] at hl
    rw [hlevr r hr, (level_PF hi.toPInv hok hr).1 hl]
  have hex : ∀ r ∈ db.rows, (forest cfg db).Level r.pk r.depth := by
    intro r hr; rw [hfe]; exact (level_PF hi.toPInv hok hr).2 rfl
  have hstep : ∀ q k, k ∈ forest cfg db (some q) → lev k = lev q + 1 := by
    intro q k hk
    have hk' := hF.good.sub _ k hk
    have hq : q ∈ (data db.rows).map Prod.fst := by
      by_contra hc
      rw [hF.outside q hc] at hk
      cases hk
    obtain ⟨r, hr, rfl⟩ := row_of q hq
    rw [← hlevel k hk' _ (.child (hex r hr) hk), hlevr r hr]
  obtain ⟨db', el, hc', hf', hd'⟩ := C19_mp_load hok h hp hnd hfresh hVr hT (by rw [htops]; exact hroom)
    (by
      intro k hk
      obtain ⟨_, a, ha, rfl⟩ := hlab k hk
      rw [hC.inside a ha, List.length_map, hfe]
      exact PF_length_lt hok hi.toPInv _)
    (by
      intro k hk l hl
      obtain ⟨_, a, ha, rfl⟩ := hlab k hk
      obtain ⟨r, hr, rfl, hpre⟩ := brow a ha
      have hl2 := (hC.level (fun q k hk => hF.good.sub q k hk) (by rw [hfe]; exact fun hc => ((desc_PF hi.toPInv hok hx hx).1 hc).2 rfl)
        (by
          intro q e
          cases parent with
          | none => cases e
          | some p => cases e; rw [hpks]; exact List.mem_map_of_mem (hp p rfl)) hlevel hstep hl).2 _ ha rfl
      rw [hlevr x hx, hlevr r hr] at hl2
      right
      have hfr := hfit r hr hpre
      rw [hi.depth r hr, hi.depth x hx] at hfr
      have hpl : ((parent.map Row.path).getD []).length = ((parent.map Row.pk).map lev).getD 0 * cfg.steplen := by
        cases parent with
        | none => simp
        | some p =>
          show p.path.length = lev p.pk * cfg.steplen
          rw [hlevr p (hp p rfl), hi.depth p (hp p rfl)]
      rw [hpl] at hfr
      have := congrArg (· * cfg.steplen) hl2
      simp only [Nat.add_mul, Nat.one_mul] at this
      omega)
    (fun hc => by rw [ho] at hc; cases hc)
  refine ⟨db', m.labels, f, ?_, hc', by rw [hd']; simp [Function.comp_def], ?_⟩
  · unfold copyBranch
    rw [ed]
    dsimp only
    rw [ep]
    exact el
  · rw [hf', hd']; exact hC

/-- the branch of 3 copied below itself -/
example : ∃ db' added f, copyBranch exCfg exDB ⟨3, [49, 51], 2, 1, []⟩ (some ⟨3, [49, 51], 2, 1, []⟩) (fun i => 10 + i) = .ok (db', added) ∧ Consistent exCfg db' ∧
    (data db'.rows).map Prod.fst = (data exDB.rows).map Prod.fst ++ added ∧
    Copied (forest exCfg exDB) (forest exCfg db') (data exDB.rows) (data db'.rows) (valsOf exDB) 3 (some 3) f :=
  C81_mp exCfg_ok exDB_consistent rfl (x := ⟨3, [49, 51], 2, 1, []⟩) (by decide) (parent := some ⟨3, [49, 51], 2, 1, []⟩) (by rintro p ⟨⟩; decide)
    (by unfold RoomAfter; decide) (by unfold CopyFits; decide) (fun i j e => by omega)
    (fun i hc => by simp [exDB] at hc; omega)

end MP

namespace NS

variable {cfg : Cfg} {db : DB}

/-- **C81 for NS**: `parent` is any object with the key of a stored node; it may be `x` itself or be below it. -/
theorem C81_ns (h : Consistent db) (ho : cfg.ordered = false) {x : Row} (hx : x ∈ db.rows) {parent : Option Row} (hp : ∀ p, parent = some p → p.pk ∈ db.rows.map Row.pk)
    {keys : Nat → Nat} (hkeys : ∀ i j, keys i = keys j → i = j) (hnew : ∀ i, keys i ∉ db.rows.map Row.pk) :
    ∃ db' added f, copyBranch cfg db x parent keys = .ok (db', added) ∧ Consistent db' ∧ (data db'.rows).map Prod.fst = (data db.rows).map Prod.fst ++ added ∧
      Copied (forest db) (forest db') (data db.rows) (data db'.rows) (valsIn (data db.rows)) x.pk (parent.map Row.pk) f := by
  have hF := isForestOn h
  obtain ⟨d, ed, hd⟩ := C19_ns_dump h (parent := some x) (by rintro p ⟨⟩; exact hx) false
  obtain ⟨m, V, i, f, ep, hnd, htops, hlab, hV, hcop⟩ := copy_prepared hF (by rw [keys_eq]; exact List.mem_map_of_mem hx) hd hkeys (by rw [keys_eq]; exact hnew)
  have hfresh : ∀ k ∈ m.labels, ∀ r ∈ db.rows, r.pk ≠ k := by
    rintro k hk r hr rfl
    refine (hlab _ hk).1 ?_
    rw [keys_eq]; exact List.mem_map_of_mem hr
  have hVr : ∀ r ∈ db.rows, V r.pk = r.vals := by
    intro r hr
    rw [hV _ (by rw [keys_eq]; exact List.mem_map_of_mem hr)]
    exact valsIn_mem (keys_nodup h) (List.mem_map_of_mem (f := fun r : Row => (r.pk, r.vals)) hr)
  have hT : Grafted (forest db) (graft (forest db) (parent.map Row.pk) m) (parent.map Row.pk) m := by
    refine graft_grafted hnd ?_
    intro k hk e
    cases parent with
    | none => cases e
    | some p =>
      cases e
      obtain ⟨r, hr, e⟩ := List.mem_map.1 (hp p rfl)
      exact hfresh _ hk r hr e
  obtain ⟨db', el, hc', hf', hd'⟩ := C19_ns_load (cfg := cfg) h hp hnd hfresh hVr hT (fun hc => by rw [ho] at hc; cases hc)
  refine ⟨db', m.labels, f, ?_, hc', by rw [hd']; simp [Function.comp_def], ?_⟩
  · unfold copyBranch
    rw [ed]
    dsimp only
    rw [ep]
    exact el
  · rw [hf', hd']; exact hcop _ _ _ hT rfl

/-- the branch of 3 copied below its own child 4 -/
example : ∃ db' added f, copyBranch ⟨[]⟩ exDB ⟨3, 1, 4, 7, 2, []⟩ (some ⟨4, 0, 0, 0, 0, []⟩) (fun i => 10 + i) = .ok (db', added) ∧ Consistent db' ∧
    (data db'.rows).map Prod.fst = (data exDB.rows).map Prod.fst ++ added ∧
    Copied (forest exDB) (forest db') (data exDB.rows) (data db'.rows) (valsIn (data exDB.rows)) 3 (some 4) f :=
  C81_ns exDB_inv rfl (x := ⟨3, 1, 4, 7, 2, []⟩) (by decide) (parent := some ⟨4, 0, 0, 0, 0, []⟩) (by rintro p ⟨⟩; decide) (fun i j e => by omega)
    (fun i hc => by simp [exDB] at hc; omega)

end NS

namespace AL

variable {cfg : Cfg} {db : DB}

/-- **C81 for AL**: `parent` is any object with the key of a stored node, `_cached_depth` may be wrong. -/
theorem C81_al (h : Consistent cfg db) (ho : cfg.ordered = false) {x : Row × Option Int} (hx : x.1 ∈ db.rows) {parent : Option (Row × Option Int)}
    (hp : ∀ p, parent = some p → p.1.pk ∈ db.rows.map Row.pk) {keys : Nat → Nat} (hkeys : ∀ i j, keys i = keys j → i = j) (hnew : ∀ i, keys i ∉ db.rows.map Row.pk) :
    ∃ db' added f, copyBranch cfg db x parent keys = .ok (db', added) ∧ Consistent cfg db' ∧ (data db'.rows).map Prod.fst = (data db.rows).map Prod.fst ++ added ∧
      Copied (forest cfg db) (forest cfg db') (data db.rows) (data db'.rows) (valsIn (data db.rows)) x.1.pk (parent.map (fun p => p.1.pk)) f := by
  have hF := isForestOn (cfg := cfg) h.toWf.ai
  have hkn : ((data db.rows).map Prod.fst).Nodup := by rw [data_keys]; exact h.pks
  obtain ⟨d, ed, hd⟩ := C19_al_dump h.toWf (parent := some x) (by rintro p ⟨⟩; exact hx) false
  obtain ⟨m, V, i, f, ep, hnd, htops, hlab, hV, hcop⟩ := copy_prepared hF (by rw [data_keys]; exact List.mem_map_of_mem hx) hd hkeys (by rw [data_keys]; exact hnew)
  have hfresh : ∀ k ∈ m.labels, ∀ r ∈ db.rows, r.pk ≠ k := by
    rintro k hk r hr rfl
    refine (hlab _ hk).1 ?_
    rw [data_keys]; exact List.mem_map_of_mem hr
  have hVr : ∀ r ∈ db.rows, V r.pk = r.vals := by
    intro r hr
    rw [hV _ (by rw [data_keys]; exact List.mem_map_of_mem hr)]
    exact valsIn_mem hkn (List.mem_map_of_mem (f := fun r : Row => (r.pk, r.vals)) hr)
  have hT : Grafted (forest cfg db) (graft (forest cfg db) (parent.map (fun p => p.1.pk)) m) (parent.map (fun p => p.1.pk)) m := by
    refine graft_grafted hnd ?_
    intro k hk e
    cases parent with
    | none => cases e
    | some p =>
      cases e
      obtain ⟨r, hr, e⟩ := List.mem_map.1 (hp p rfl)
      exact hfresh _ hk r hr e
  obtain ⟨db', el, hc', hf', hd'⟩ := C19_al_load ho h hp hnd hfresh hVr hT
  refine ⟨db', m.labels, f, ?_, hc', by rw [hd']; simp [Function.comp_def], ?_⟩
  · unfold copyBranch
    rw [ed]
    dsimp only
    rw [ep]
    exact el
  · rw [hf', hd']; exact hcop _ _ _ hT rfl

/-- the branch of 3 copied below its own child 4 -/
example : ∃ db' added f, copyBranch exPlain exDB (⟨3, some 1, 4, []⟩, some 7) (some (⟨4, none, 0, []⟩, none)) (fun i => 10 + i) = .ok (db', added) ∧ Consistent exPlain db' ∧
    (data db'.rows).map Prod.fst = (data exDB.rows).map Prod.fst ++ added ∧
    Copied (forest exPlain exDB) (forest exPlain db') (data exDB.rows) (data db'.rows) (valsIn (data exDB.rows)) 3 (some 4) f :=
  C81_al (consistent_of_inv rfl exDB_inv) rfl (x := (⟨3, some 1, 4, []⟩, some 7)) (by decide) (parent := some (⟨4, none, 0, []⟩, none)) (by rintro p ⟨⟩; decide) (fun i j e => by omega)
    (fun i hc => by simp [exDB] at hc; omega)

end AL

namespace LT

variable {cfg : Cfg} {db : DB}

/-- **C81 for LT** (partial: below a node; a copy as a root may come before other roots, see `C81_lt_root_fails`). -/
theorem C81_lt_partial (h : Consistent db) (ho : cfg.ordered = false) {x : Row} (hx : x ∈ db.rows) {parent : Row} (hp : parent ∈ db.rows)
    {keys : Nat → Nat} (hkeys : ∀ i j, keys i = keys j → i = j) (hnew : ∀ i, keys i ∉ db.rows.map Row.pk) :
    ∃ db' added f, copyBranch cfg db x (some parent) keys = .ok (db', added) ∧ Consistent db' ∧ (data db'.rows).map Prod.fst = (data db.rows).map Prod.fst ++ added ∧
      Copied (forest db) (forest db') (data db.rows) (data db'.rows) (valsIn (data db.rows)) x.pk (some parent.pk) f := by
  have hF := isForestOn h
  have hkn : ((data db.rows).map Prod.fst).Nodup := by rw [keys_eq]; exact h.pks
  obtain ⟨d, ed, hd⟩ := C19_lt_dump h (parent := some x) (by rintro p ⟨⟩; exact hx) false
  obtain ⟨m, V, i, f, ep, hnd, htops, hlab, hV, hcop⟩ := copy_prepared hF (by rw [keys_eq]; exact List.mem_map_of_mem hx) hd hkeys (by rw [keys_eq]; exact hnew)
  have hfresh : ∀ k ∈ m.labels, ∀ r ∈ db.rows, r.pk ≠ k := by
    rintro k hk r hr rfl
    refine (hlab _ hk).1 ?_
    rw [keys_eq]; exact List.mem_map_of_mem hr
  have hVr : ∀ r ∈ db.rows, V r.pk = r.vals := by
    intro r hr
    rw [hV _ (by rw [keys_eq]; exact List.mem_map_of_mem hr)]
    exact valsIn_mem hkn (List.mem_map_of_mem (f := fun r : Row => (r.pk, r.vals)) hr)
  have hT : Grafted (forest db) (graft (forest db) (some parent.pk) m) (some parent.pk) m := by
    refine graft_grafted hnd ?_
    intro k hk e
    cases e
    exact hfresh _ hk parent hp rfl
  obtain ⟨db', el, hc', hf', hd'⟩ := C19_lt_load ho h hp hnd hfresh hVr hT
  refine ⟨db', m.labels, f, ?_, hc', by rw [hd']; simp [Function.comp_def], ?_⟩
  · unfold copyBranch
    rw [ed]
    dsimp only
    rw [ep]
    exact el
  · rw [hf', hd']; exact hcop _ _ _ hT rfl

/-- the same for a copy as a root, when the labels of the roots are the first letters of the alphabet and one is left -/
theorem C81_lt_root_partial (h : Consistent db) (ho : cfg.ordered = false) {x : Row} (hx : x ∈ db.rows) (hfl : FirstLetters db none) (hsmall : (forest db none).length < 26)
    {keys : Nat → Nat} (hkeys : ∀ i j, keys i = keys j → i = j) (hnew : ∀ i, keys i ∉ db.rows.map Row.pk) :
    ∃ db' added f, copyBranch cfg db x none keys = .ok (db', added) ∧ Consistent db' ∧ (data db'.rows).map Prod.fst = (data db.rows).map Prod.fst ++ added ∧
      Copied (forest db) (forest db') (data db.rows) (data db'.rows) (valsIn (data db.rows)) x.pk none f := by
  have hF := isForestOn h
  have hkn : ((data db.rows).map Prod.fst).Nodup := by rw [keys_eq]; exact h.pks
  obtain ⟨d, ed, hd⟩ := C19_lt_dump h (parent := some x) (by rintro p ⟨⟩; exact hx) false
  obtain ⟨m, V, i, f, ep, hnd, htops, hlab, hV, hcop⟩ := copy_prepared hF (by rw [keys_eq]; exact List.mem_map_of_mem hx) hd hkeys (by rw [keys_eq]; exact hnew)
  have hfresh : ∀ k ∈ m.labels, ∀ r ∈ db.rows, r.pk ≠ k := by
    rintro k hk r hr rfl
    refine (hlab _ hk).1 ?_
    rw [keys_eq]; exact List.mem_map_of_mem hr
  have hVr : ∀ r ∈ db.rows, V r.pk = r.vals := by
    intro r hr
    rw [hV _ (by rw [keys_eq]; exact List.mem_map_of_mem hr)]
    exact valsIn_mem hkn (List.mem_map_of_mem (f := fun r : Row => (r.pk, r.vals)) hr)
  have hT : Grafted (forest db) (graft (forest db) none m) none m := graft_grafted hnd (fun k _ e => by cases e)
  have hC := hcop _ _ _ hT rfl
  obtain ⟨db', el, hc', hf', hd'⟩ := C19_lt_load_partial (cfg := cfg) (parent := none) h (fun _ e => by cases e) hnd hfresh hVr hT (fun hc => by rw [ho] at hc; cases hc) hfl (by
    rintro p (rfl | hc) _
    · rw [hC.top, List.length_append, List.length_singleton]; omega
    · rw [ho] at hc; cases hc)
  refine ⟨db', m.labels, f, ?_, hc', by rw [hd']; simp [Function.comp_def], ?_⟩
  · unfold copyBranch
    rw [ed]
    dsimp only
    rw [ep]
    exact el
  · rw [hf', hd']; exact hC

/-- two roots, A and C, as the deletion of B leaves them -/
def exGap : DB := { rows := [⟨1, [[65]], []⟩, ⟨2, [[67]], []⟩] }

/-- **C81 fails for LT without this**: a copy as a root takes the first free label, here B, and comes before the root 2. -/
theorem C81_lt_root_fails : Consistent exGap ∧ ∃ db', copyBranch ⟨[]⟩ exGap ⟨1, [[65]], []⟩ none (fun i => 10 + i) = .ok (db', [10]) ∧ forest exGap none = [1, 2] ∧ forest db' none = [1, 10, 2] :=
  ⟨consistent_iff.2 (inv_of_check (by decide)), ⟨{ rows := [⟨1, [[65]], []⟩, ⟨2, [[67]], []⟩, ⟨10, [[66]], []⟩] }, by decide +kernel, by decide, by decide⟩⟩

/-- the branch of 3 copied below its own child 4, and as a root -/
example : ∃ db' added f, copyBranch ⟨[]⟩ exDB ⟨3, [[65], [66]], []⟩ (some ⟨4, [[65], [66], [65]], []⟩) (fun i => 10 + i) = .ok (db', added) ∧ Consistent db' ∧
    (data db'.rows).map Prod.fst = (data exDB.rows).map Prod.fst ++ added ∧
    Copied (forest exDB) (forest db') (data exDB.rows) (data db'.rows) (valsIn (data exDB.rows)) 3 (some 4) f :=
  C81_lt_partial (consistent_iff.2 exDB_inv) rfl (x := ⟨3, [[65], [66]], []⟩) (by decide) (parent := ⟨4, [[65], [66], [65]], []⟩) (by decide) (fun i j e => by omega)
    (fun i hc => by simp [exDB] at hc; omega)

example : ∃ db' added f, copyBranch ⟨[]⟩ exDB ⟨3, [[65], [66]], []⟩ none (fun i => 10 + i) = .ok (db', added) ∧ Consistent db' ∧
    (data db'.rows).map Prod.fst = (data exDB.rows).map Prod.fst ++ added ∧
    Copied (forest exDB) (forest db') (data exDB.rows) (data db'.rows) (valsIn (data exDB.rows)) 3 none f :=
  C81_lt_root_partial (consistent_iff.2 exDB_inv) rfl (x := ⟨3, [[65], [66]], []⟩) (by decide) (by
    intro i r hr e
    have hl : forest exDB none = [1, 5] := by decide
    rw [hl] at e
    rcases i with _ | _ | i
    · revert r; decide
    · revert r; decide
    · simp at e) (by decide) (fun i j e => by omega)
    (fun i hc => by simp [exDB] at hc; omega)

end LT

end Verif
