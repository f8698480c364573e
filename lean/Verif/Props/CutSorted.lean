/-
C99: a branch that is dumped, deleted and loaded somewhere else in a tree with `node_order_by` is moved to its sorted place there.
-/
import Verif.SpecCutSorted
import Verif.Props.Cut
import Verif.Props.CopySorted
import Verif.Props.ALApi

namespace Verif

variable {ob : List (Nat × Bool)} {F F' : Forest} {D D' : List (Nat × Vals)} {x : Nat} {p : Option Nat}

theorem valsIn_perm (hnd : (D.map Prod.fst).Nodup) (hp : D'.Perm D) (k : Nat) : valsIn D' k = valsIn D k := by
  by_cases hk : k ∈ D.map Prod.fst
  · obtain ⟨⟨k, w⟩, hm, rfl⟩ := List.mem_map.1 hk
    rw [valsIn_mem hnd hm, valsIn_mem ((hp.map Prod.fst).nodup_iff.2 hnd) (hp.mem_iff.2 hm)]
  · have no : ∀ E : List (Nat × Vals), k ∉ E.map Prod.fst → E.lookup k = none := by
      intro E h
      rw [List.lookup_eq_none_iff]
      intro e he
      simpa using fun h' => h (List.mem_map.2 ⟨e, he, h'.symm⟩)
    unfold valsIn
    rw [no D hk, no D' (fun h => hk ((hp.map Prod.fst).mem_iff.1 h))]

/-- two trees with the branch at its sorted place are the same -/
theorem MovedSorted.unique {v : Nat → Vals} {F1 F2 : Forest} (h1 : MovedSorted ob v F F1 x p) (h2 : MovedSorted ob v F F2 x p) : F1 = F2 := by
  funext q
  by_cases hq : q = p
  · subst hq
    obtain ⟨a₁, a₂, e, e1, ha1, ha2⟩ := h1.top
    obtain ⟨b₁, b₂, e', e2, hb1, hb2⟩ := h2.top
    rw [e1, e2]
    rw [e] at e'
    rcases List.append_eq_append_iff.1 e' with ⟨c, rfl, hc⟩ | ⟨c, rfl, hc⟩
    · cases c with
      | nil => simp at hc; simp [hc]
      | cons y c => subst hc; exact absurd (ha2 y (by simp)) (hb1 y (by simp))
    · cases c with
      | nil => simp at hc; simp [hc]
      | cons y c => subst hc; exact absurd (hb2 y (by simp)) (ha1 y (by simp))
  · rw [h1.others q hq, h2.others q hq]

theorem movedSorted_of {v : Nat → Vals} {s : Slot} (hnd : (F.move x p s p).Nodup) (hat : (F.move x p s).SortedAt ob v p x) : MovedSorted ob v F (F.move x p s) x p := by
  refine ⟨?_, fun q hq => by unfold Forest.move Forest.put; rw [if_neg hq]⟩
  obtain ⟨l₁, l₂, e, h1, h2⟩ := hat
  have h : F.move x p s p = s.ins x (F.remove x p) := by simp [Forest.move, Forest.put]
  have hf := filter_ins (s := s) (x := x) (l := F.remove x p) (by simp [Forest.remove])
  rw [← h, e] at hf
  rw [e, List.nodup_middle, List.nodup_cons] at hnd
  refine ⟨l₁, l₂, ?_, e, h1, h2⟩
  rw [← hf, List.filter_append, List.filter_cons_of_neg (by simp), ← List.filter_append, List.filter_eq_self]
  rintro a ha
  simp only [ne_eq, decide_eq_true_eq]
  rintro rfl
  exact hnd.1 ha

/-- the tree with the branch behind its new siblings, sorted -/
theorem moved_sorted (hF : F.IsForestOn (D.map Prod.fst)) (hx : x ∈ D.map Prod.fst) (hs : F.SortedBy ob (valsIn D)) (hn : ∀ k ∈ D.map Prod.fst, NonNull ob (valsIn D k))
    (hst : (F.move x p .last).StablySorted ob (valsIn D) F') : MovedSorted ob (valsIn D) F F' x p := by
  have hsr := SortedBy.remove hs x
  have hndr : ∀ q, (F.remove x q).Nodup := fun q => (hF.kids_nodup q).sublist List.filter_sublist
  have hxp : x ∉ F.remove x p := by simp [Forest.remove]
  have hput : ∀ s : Slot, ((F.remove x).put p s x) p = s.ins x (F.remove x p) := fun s => by simp [Forest.put]
  refine ⟨?_, fun q hq => ?_⟩
  · have hins := sortedIns_sortedSlot (ob := ob) (v := valsIn D) (x := x) (vx := valsIn D x) (hsr p) (hndr p)
      (fun a ha => hn a (hF.good.sub p a (List.mem_of_mem_filter ha))) (hn x hx)
    obtain ⟨_, hat⟩ := SortedBy.put (v' := valsIn D) hsr hins (fun _ _ _ => rfl) rfl
    have hst2 := hsr.stably.put (v' := valsIn D) (p := p) (k := x) hxp rfl (by
      rw [hput]
      obtain ⟨l₁, l₂, e1, e2, -⟩ := hins
      rw [e2]
      have h1 := hndr p
      rw [e1] at h1 hxp
      rw [List.nodup_middle, List.nodup_cons]
      exact ⟨hxp, h1⟩) (fun _ _ _ => rfl) hat p
    have hnd : (F.move x p .last p).Nodup := by
      show (((F.remove x).put p .last x) p).Nodup
      rw [hput]
      show (F.remove x p ++ [x]).Nodup
      rw [List.nodup_append]
      exact ⟨hndr p, by simp, by rintro a ha b hb rfl; rw [List.mem_singleton] at hb; subst hb; exact hxp ha⟩
    rw [stable_unique hnd (hst p) hst2, hput]
    exact hins
  · have e : F.move x p .last q = F.remove x q := by
      unfold Forest.move Forest.put
      rw [if_neg hq]
    have := stable_of_sorted (by rw [e]; exact hndr q) (hst q) (by rw [e]; exact hsr q)
    rw [this, e]

/-- a tree sorted after a deletion -/
theorem SortedData.deleted {del : Nat → Bool} (hs : SortedData ob F D) (hnd : (D.map Prod.fst).Nodup) (hF : ∀ q, ∀ a ∈ F.prune del q, a ∈ (D.filter (fun e => !del e.1)).map Prod.fst) :
    SortedData ob (F.prune del) (D.filter (fun e => !del e.1)) :=
  ⟨fun e he => hs.nonNull e (List.mem_of_mem_filter he), fun q => (SortedBy.prune hs.sorted del q).imp_of_mem (fun ha hb h => by
    rw [valsIn_filter hnd (hF q _ ha), valsIn_filter hnd (hF q _ hb)]; exact h)⟩

theorem graft_near {A B : Forest} {n : Nest Nat} (h : A.Near B) : (graft A p n).Near (graft B p n) := by
  intro q
  unfold graft
  split
  · exact (h p).append (.refl _)
  · cases q with
    | none => exact h none
    | some k =>
      dsimp only
      split
      · exact .refl _
      · exact h (some k)

namespace NS

variable {cfg : Cfg} {db : DB}

/-- **C99 for NS** -/
theorem C99_ns (h : Consistent db) (ho : cfg.ordered = true) (hs : SortedTree cfg db) {x : Row} (hx : x ∈ db.rows) {parent : Option Nat}
    (hp : ∀ q, parent = some q → q ∈ db.rows.map Row.pk ∧ ¬ (forest db).Branch x.pk q) (keys : Nat → Nat) :
    ∃ db' added, cutPaste cfg db x parent keys = .ok (db', added) ∧ Consistent db' ∧ SortedTree cfg db' ∧
      MovedSorted cfg.orderBy (valsIn (data db.rows)) (forest db) (forest db') x.pk parent ∧ (data db'.rows).Perm (data db.rows) := by
  have hF := isForestOn h
  have hkn := keys_nodup h
  have hkx : x.pk ∈ (data db.rows).map Prod.fst := by rw [keys_eq]; exact List.mem_map_of_mem hx
  obtain ⟨d, ed, hd⟩ := C19_ns_dump h (parent := some x) (by rintro p ⟨⟩; exact hx) true
  obtain ⟨D, h1, h2, h3, h4⟩ := C24_delete h (fun k => k == x.pk)
  rw [← keys_eq] at h1
  obtain ⟨n, en, hnd, htops, hlab, hG⟩ := cut_grafted hF hkx hd h1 (p := parent) (fun q e => (hp q e).2) keys
  have hkeys : (delete db (fun r => r.pk == x.pk)).rows.map Row.pk = ((data db.rows).map Prod.fst).filter (fun k => !D k) := by
    rw [← keys_eq, h4, keys_filter]
  obtain ⟨p, ef, hpk, hpm⟩ := fetchParent_ok (pk := Row.pk) (rows := (delete db (fun r => r.pk == x.pk)).rows) (parent := parent) (by
    intro q e
    rw [hkeys, List.mem_filter, keys_eq]
    refine ⟨(hp q e).1, ?_⟩
    rw [Bool.not_eq_true', ← Bool.not_eq_true, goes_branch hF hkx h1]
    exact (hp q e).2)
  rw [← h3] at hG
  have hs2 : SortedTree cfg (delete db (fun r => r.pk == x.pk)) := by
    have := hs.deleted (del := D) hkn (by
      rw [← h4, ← h3]
      exact (isForestOn h2).good.sub)
    show SortedData _ _ _
    rw [h3, h4]
    exact this
  have hn := hs.vals_nonNull hkn
  have hsubD : ∀ k ∈ n.labels, k ∈ (data db.rows).map Prod.fst := fun k hk => ((h1 k).1 ((hlab k).1 hk)).1
  obtain ⟨db', el, hc', ⟨T, hgT, hst⟩, hso, hd'⟩ := C91_ns (cfg := cfg) h2 ho hs2 (parent := p) (fun r e => List.mem_map_of_mem (hpm r e)) hnd
    (by
      rintro k hk r hr rfl
      have : r.pk ∈ (delete db (fun r => r.pk == x.pk)).rows.map Row.pk := List.mem_map_of_mem hr
      rw [hkeys, List.mem_filter] at this
      rw [(hlab _).1 hk] at this
      exact absurd this.2 (by simp))
    (V := valsIn (data db.rows)) (fun k hk => hn k (hsubD k hk))
  rw [hpk] at hgT
  have eT : T = (forest db).move x.pk parent .last := (hgT.eq hnd).trans (hG.eq hnd).symm
  subst eT
  have hperm : (data db'.rows).Perm (data db.rows) := by
    rw [hd', h4]
    exact cut_data hkn (fun e he => valsIn_mem hkn he) hnd hlab hsubD
  rw [funext (valsIn_perm hkn hperm)] at hst
  refine ⟨db', n.labels, ?_, hc', ⟨fun e he => hs.nonNull e (hperm.mem_iff.1 he), hso⟩, moved_sorted hF hkx hs.sorted hn hst, hperm⟩
  unfold cutPaste
  rw [ed]
  dsimp only
  rw [show fetchParent (delete db (fun r => r.pk == x.pk)).get? parent = .ok p from ef]
  dsimp only
  rw [en]
  exact el

/-- **... as `move` with `sorted-child` does** -/
theorem C99_ns_move (h : Consistent db) (ho : cfg.ordered = true) (hs : SortedTree cfg db) {x t : Row} (hx : x ∈ db.rows) (ht : t ∈ db.rows)
    (hb : ¬ (forest db).Branch x.pk t.pk) (cached : Option Row) (keys : Nat → Nat) :
    ∃ res db' added, move cfg db x t cached (some .sortedChild) = .ok res ∧ cutPaste cfg db x (some t.pk) keys = .ok (db', added) ∧ forest db' = forest res.db ∧
      (data db'.rows).Perm (data res.db.rows) := by
  obtain ⟨p, -, res, s, e, hm, -, hat⟩ := C16_ns_move (cfg := cfg) h ho hx ht hs.nonNull (SortedBy.remove hs.sorted x.pk) (cached := cached) (posArg := some .sortedChild)
    (pos := .sortedChild) rfl (by
      rintro (hd | ⟨-, e⟩)
      · exact hb (Or.inr hd)
      · exact hb (Or.inl e))
  obtain ⟨db', added, e', -, -, hms, hperm⟩ := C99_ns h ho hs hx (parent := some t.pk) (by rintro q ⟨⟩; exact ⟨List.mem_map_of_mem ht, hb⟩) keys
  refine ⟨res, db', added, e, e', hms.unique ?_, by rw [hm.data]; exact hperm⟩
  have hnd := (isForestOn hm.consistent).kids_nodup (some t.pk)
  rw [hm.data, hm.forest] at hat
  rw [hm.forest] at hnd ⊢
  exact movedSorted_of hnd hat

end NS

namespace MP

variable {cfg : Cfg} {db : DB}

/-- **C99 for MP**: or `PathOverflow`; then, unless the caller has opened a transaction, the branch is lost (`C86_mp_fails`). -/
theorem C99_mp (hok : cfg.Ok) (h : Consistent cfg db) (ho : cfg.ordered = true) (hs : SortedTree cfg db) {x : Row} (hx : x ∈ db.rows) {parent : Option Nat}
    (hp : ∀ q, parent = some q → q ∈ db.rows.map Row.pk ∧ ¬ (forest cfg db).Branch x.pk q) (keys : Nat → Nat) :
    (∃ db' added, cutPaste cfg db x parent keys = .ok (db', added) ∧ Consistent cfg db' ∧ SortedTree cfg db' ∧
      MovedSorted cfg.orderBy (valsOf db) (forest cfg db) (forest cfg db') x.pk parent ∧ (data db'.rows).Perm (data db.rows)) ∨
    cutPaste cfg db x parent keys = .error .pathOverflow := by
  have hF := isForestOn_data hok h
  have hkn := hF.ids_nodup
  have hsd := hs.toData
  have hkx : x.pk ∈ (data db.rows).map Prod.fst := by rw [keys_data]; exact List.mem_map_of_mem hx
  obtain ⟨d, ed, hd⟩ := C19_mp_dump hok h (parent := some x) (by rintro p ⟨⟩; exact hx) true
  obtain ⟨D, h1, h2, h3, h4⟩ := C09_delete hok h (fun k => k == x.pk)
  rw [← keys_data] at h1
  obtain ⟨n, en, hnd, htops, hlab, hG⟩ := cut_grafted hF hkx hd h1 (p := parent) (fun q e => (hp q e).2) keys
  have hkeys : (delete cfg db (fun r => r.pk == x.pk)).rows.map Row.pk = ((data db.rows).map Prod.fst).filter (fun k => !D k) := by
    rw [← keys_data, h4, keys_filter]
  obtain ⟨p, ef, hpk, hpm⟩ := fetchParent_ok (pk := Row.pk) (rows := (delete cfg db (fun r => r.pk == x.pk)).rows) (parent := parent) (by
    intro q e
    rw [hkeys, List.mem_filter, keys_data]
    refine ⟨(hp q e).1, ?_⟩
    rw [Bool.not_eq_true', ← Bool.not_eq_true, goes_branch hF hkx h1]
    exact (hp q e).2)
  rw [← h3] at hG
  rw [valsOf_eq] at en
  have hs2 : SortedTree cfg (delete cfg db (fun r => r.pk == x.pk)) := by
    have := hsd.deleted (del := D) hkn (by
      rw [← h4, ← h3]
      exact (isForestOn_data hok h2).good.sub)
    rw [← h3, ← h4] at this
    exact ⟨fun r hr => this.nonNull (r.pk, r.vals) (List.mem_map_of_mem (f := fun r : Row => (r.pk, r.vals)) hr), by rw [valsOf_eq]; exact this.sorted⟩
  have hn := hsd.vals_nonNull hkn
  have hsubD : ∀ k ∈ n.labels, k ∈ (data db.rows).map Prod.fst := fun k hk => ((h1 k).1 ((hlab k).1 hk)).1
  have hcut : ∀ r, load cfg (delete cfg db (fun r => r.pk == x.pk)) p (n.map (fun k => (k, valsIn (data db.rows) k))) = r → cutPaste cfg db x parent keys = r := by
    rintro _ rfl
    unfold cutPaste
    rw [ed]
    dsimp only
    rw [show fetchParent (delete cfg db (fun r => r.pk == x.pk)).get? parent = .ok p from ef]
    dsimp only
    rw [en]
  rcases C91_mp (cfg := cfg) hok h2 ho hs2 (parent := p) (fun r e => List.mem_map_of_mem (hpm r e)) hnd
    (by
      rintro k hk r hr rfl
      have : r.pk ∈ (delete cfg db (fun r => r.pk == x.pk)).rows.map Row.pk := List.mem_map_of_mem hr
      rw [hkeys, List.mem_filter] at this
      rw [(hlab _).1 hk] at this
      exact absurd this.2 (by simp))
    (V := valsIn (data db.rows)) (fun k hk => hn k (hsubD k hk)) with ⟨db', el, hc', ⟨T, hgT, hst⟩, hso, hd'⟩ | el
  · left
    rw [hpk] at hgT
    have eT : T = (forest cfg db).move x.pk parent .last := (hgT.eq hnd).trans (hG.eq hnd).symm
    subst eT
    have hperm : (data db'.rows).Perm (data db.rows) := by
      rw [hd', h4]
      exact cut_data hkn (fun e he => valsIn_mem hkn he) hnd hlab hsubD
    rw [funext (valsIn_perm hkn hperm)] at hst
    refine ⟨db', n.labels, hcut _ el, hc', ⟨fun r hr => ?_, by rw [valsOf_eq]; exact hso⟩, by rw [valsOf_eq]; exact moved_sorted hF hkx hsd.sorted hn hst, hperm⟩
    exact hsd.nonNull (r.pk, r.vals) (hperm.mem_iff.1 (List.mem_map_of_mem (f := fun r : Row => (r.pk, r.vals)) hr))
  · exact Or.inr (hcut _ el)

/-- **... as `move` with `sorted-child` does**, if neither runs out of positions -/
theorem C99_mp_move (hok : cfg.Ok) (h : Consistent cfg db) (ho : cfg.ordered = true) (hs : SortedTree cfg db) {x t : Row} (hx : x ∈ db.rows) (ht : t ∈ db.rows)
    (hb : ¬ (forest cfg db).Branch x.pk t.pk) (keys : Nat → Nat) {res : MoveResult} (e : move cfg db x t (some .sortedChild) = .ok res) {db' : DB} {added : List Nat}
    (e' : cutPaste cfg db x (some t.pk) keys = .ok (db', added)) : forest cfg db' = forest cfg res.db ∧ (data db'.rows).Perm (data res.db.rows) := by
  obtain ⟨p, -, ⟨res', s, e1, hm, -, hat⟩ | ⟨e1, -⟩⟩ := C16_move hok h ho hs hx ht (posArg := some .sortedChild) (pos := .sortedChild) rfl (by
      rintro (hd | ⟨-, e⟩)
      · exact hb (Or.inr hd)
      · exact hb (Or.inl e))
  · rw [e1] at e
    cases e
    rcases C99_mp hok h ho hs hx (parent := some t.pk) (by rintro q ⟨⟩; exact ⟨List.mem_map_of_mem ht, hb⟩) keys with ⟨db2, added2, e2, -, -, hms, hperm⟩ | e2
    · rw [e2] at e'
      cases e'
      refine ⟨hms.unique ?_, by rw [hm.data]; exact hperm⟩
      have hnd := (isForestOn_data hok hm.consistent).kids_nodup (some t.pk)
      rw [valsOf_eq, hm.data, ← valsOf_eq, hm.forest] at hat
      rw [hm.forest] at hnd ⊢
      exact movedSorted_of hnd hat
    · rw [e2] at e'
      cases e'
  · rw [e1] at e
    cases e

end MP

namespace AL

variable {cfg : Cfg} {db : DB}

/-- **C99 for AL** (partial: the database orders equal siblings as it likes): no node but `x` changes its parent, and every group of siblings is sorted. -/
theorem C99_al_partial (h : Wf cfg db) (ho : cfg.ordered = true) (hn : ∀ r ∈ db.rows, NonNull cfg.orderBy r.vals) {x : Row × Option Int} (hx : x.1 ∈ db.rows) {parent : Option Nat}
    (hp : ∀ q, parent = some q → q ∈ db.rows.map Row.pk ∧ ¬ (forest cfg db).Branch x.1.pk q) (keys : Nat → Nat) :
    ∃ db' added, cutPaste cfg db x parent keys = .ok (db', added) ∧ Wf cfg db' ∧ ((forest cfg db).move x.1.pk parent .last).Near (forest cfg db') ∧
      (forest cfg db').SortedBy cfg.orderBy (valsIn (data db.rows)) ∧ (data db'.rows).Perm (data db.rows) := by
  have hF := isForestOn (cfg := cfg) h.ai
  have hkn : ((data db.rows).map Prod.fst).Nodup := by rw [data_keys]; exact h.pks
  have hkx : x.1.pk ∈ (data db.rows).map Prod.fst := by rw [data_keys]; exact List.mem_map_of_mem hx
  obtain ⟨d, ed, hd⟩ := C19_al_dump h (parent := some x) (by rintro p ⟨⟩; exact hx) true
  have h2 : Wf cfg (delete db (fun r => r.pk == x.1.pk)) := wf_of_ai (ai_delete h.ai (fun k => k == x.1.pk))
  have h3 := near_deleted (cfg := cfg) h.ai (fun k => k == x.1.pk)
  have h4 := data_delete (db := db) (fun r => r.pk == x.1.pk)
  have h1 : (forest cfg db).Goes ((data db.rows).map Prod.fst) (fun k => k == x.1.pk) (gone db (fun r => r.pk == x.1.pk)) := by
    intro k
    rw [forest_eq h.ai, data_keys]
    exact gone_iff h.ai (fun k => k == x.1.pk)
  generalize gone db (fun r => r.pk == x.1.pk) = D at h1 h3 h4
  obtain ⟨n, en, hnd, htops, hlab, hG⟩ := cut_grafted hF hkx hd h1 (p := parent) (fun q e => (hp q e).2) keys
  have hkeys : (delete db (fun r => r.pk == x.1.pk)).rows.map Row.pk = ((data db.rows).map Prod.fst).filter (fun k => !D k) := by
    rw [← data_keys, h4, keys_filter]
  obtain ⟨p, ef, hpk, hpm⟩ := fetchParent_ok (pk := Row.pk) (rows := (delete db (fun r => r.pk == x.1.pk)).rows) (parent := parent) (by
    intro q e
    rw [hkeys, List.mem_filter, data_keys]
    refine ⟨(hp q e).1, ?_⟩
    rw [Bool.not_eq_true', ← Bool.not_eq_true, goes_branch hF hkx h1]
    exact (hp q e).2)
  have hold : ∀ r ∈ (delete db (fun r => r.pk == x.1.pk)).rows, (r.pk, r.vals) ∈ data db.rows := by
    intro r hr
    have : (r.pk, r.vals) ∈ data (delete db (fun r => r.pk == x.1.pk)).rows := List.mem_map_of_mem (f := fun r : Row => (r.pk, r.vals)) hr
    rw [h4] at this
    exact (List.mem_filter.1 this).1
  have hnd' : ∀ e ∈ data db.rows, NonNull cfg.orderBy e.2 := by
    intro e he
    obtain ⟨r, hr, rfl⟩ := List.mem_map.1 he
    exact hn r hr
  have hsubD : ∀ k ∈ n.labels, k ∈ (data db.rows).map Prod.fst := fun k hk => ((h1 k).1 ((hlab k).1 hk)).1
  obtain ⟨db', el, hc', ⟨⟨T, hgT, hst⟩, hd'⟩, hso⟩ := C91_al_partial (cfg := cfg) h2 ho (fun r hr => hnd' _ (hold r hr)) (parent := p.map (fun r => (r, none))) (by
      intro r e
      obtain ⟨r', e', rfl⟩ := Option.map_eq_some_iff.1 e
      exact List.mem_map_of_mem (hpm r' e')) hnd
    (by
      rintro k hk r hr rfl
      have : r.pk ∈ (delete db (fun r => r.pk == x.1.pk)).rows.map Row.pk := List.mem_map_of_mem hr
      rw [hkeys, List.mem_filter] at this
      rw [(hlab _).1 hk] at this
      exact absurd this.2 (by simp))
    (V := valsIn (data db.rows)) (by
      intro k hk
      obtain ⟨⟨k, w⟩, hm, rfl⟩ := List.mem_map.1 (hsubD k hk)
      rw [valsIn_mem hkn hm]
      exact hnd' _ hm)
  have hgT : Grafted (forest cfg (delete db (fun r => r.pk == x.1.pk))) T parent n := by
    have hm : (p.map (fun r => (r, (none : Option Int)))).map (fun e => e.1.pk) = parent := by rw [Option.map_map]; exact hpk
    rw [hm] at hgT
    exact hgT
  have hperm : (data db'.rows).Perm (data db.rows) := by
    rw [hd', h4]
    exact cut_data hkn (fun e he => valsIn_mem hkn he) hnd hlab hsubD
  rw [funext (valsIn_perm hkn hperm)] at hso
  refine ⟨db', n.labels, ?_, hc', ?_, hso, hperm⟩
  · unfold cutPaste
    rw [ed]
    dsimp only
    rw [show fetchParent (delete db (fun r => r.pk == x.1.pk)).get? parent = .ok p from ef]
    dsimp only
    rw [en]
    exact el
  · rw [hG.eq hnd]
    rw [hgT.eq hnd] at hst
    exact (graft_near h3).trans hst

/-- without equal siblings the tree is exactly the one with the branch at its sorted place -/
theorem C99_al_exact (h : Wf cfg db) (ho : cfg.ordered = true) (hn : ∀ r ∈ db.rows, NonNull cfg.orderBy r.vals) (hs : (forest cfg db).SortedBy cfg.orderBy (valsIn (data db.rows)))
    {x : Row × Option Int} (hx : x.1 ∈ db.rows) {parent : Option Nat} (hp : ∀ q, parent = some q → q ∈ db.rows.map Row.pk ∧ ¬ (forest cfg db).Branch x.1.pk q)
    (hties : ∀ q, ∀ a ∈ (forest cfg db).move x.1.pk parent .last q, ∀ b ∈ (forest cfg db).move x.1.pk parent .last q, a ≠ b →
      keyLt cfg.orderBy (valsIn (data db.rows) a) (valsIn (data db.rows) b) ∨ keyLt cfg.orderBy (valsIn (data db.rows) b) (valsIn (data db.rows) a)) (keys : Nat → Nat) :
    ∃ db' added, cutPaste cfg db x parent keys = .ok (db', added) ∧ Wf cfg db' ∧
      MovedSorted cfg.orderBy (valsIn (data db.rows)) (forest cfg db) (forest cfg db') x.1.pk parent ∧ (data db'.rows).Perm (data db.rows) := by
  obtain ⟨db', added, e, hw, hnear, hso, hperm⟩ := C99_al_partial h ho hn hx hp keys
  refine ⟨db', added, e, hw, ?_, hperm⟩
  have hF := isForestOn (cfg := cfg) h.ai
  have hkx : x.1.pk ∈ (data db.rows).map Prod.fst := by rw [data_keys]; exact List.mem_map_of_mem hx
  refine moved_sorted hF hkx hs (fun k hk => ?_) (fun q => ⟨hnear q, ?_⟩)
  · obtain ⟨⟨k, w⟩, hm, rfl⟩ := List.mem_map.1 hk
    rw [valsIn_mem hF.ids_nodup hm]
    obtain ⟨r, hr, e⟩ := List.mem_map.1 hm
    have hv : r.vals = w := congrArg Prod.snd e
    exact hv ▸ hn r hr
  · have hnd : (forest cfg db' q).Nodup := (isForestOn (cfg := cfg) hw.ai).kids_nodup q
    refine ((hso q).and hnd).imp_of_mem ?_
    rintro a b ha hb ⟨h1, h2⟩
    rcases hties q a ((hnear q).mem_iff.1 ha) b ((hnear q).mem_iff.1 hb) h2 with h3 | h3
    · exact Or.inl h3
    · exact absurd h3 h1

end AL

namespace LT

variable {cfg : Cfg} {db : DB}

/-- **C99 for LT** (partial: the nodes have the right parents; their order is not that of the fields, see `C99_lt_fails`): or there is no label left -/
theorem C99_lt_partial (h : Consistent db) (ho : cfg.ordered = true) {x : Row} (hx : x ∈ db.rows) {parent : Option Nat}
    (hp : ∀ q, parent = some q → q ∈ db.rows.map Row.pk ∧ ¬ (forest db).Branch x.pk q) (keys : Nat → Nat) :
    (∃ db' added, cutPaste cfg db x parent keys = .ok (db', added) ∧ Consistent db' ∧ ((forest db).move x.pk parent .last).Near (forest db') ∧ (data db'.rows).Perm (data db.rows)) ∨
    cutPaste cfg db x parent keys = .error .valueError := by
  have hF := isForestOn h
  have hkn : ((data db.rows).map Prod.fst).Nodup := by rw [keys_eq]; exact h.pks
  have hkx : x.pk ∈ (data db.rows).map Prod.fst := by rw [keys_eq]; exact List.mem_map_of_mem hx
  obtain ⟨d, ed, hd⟩ := C19_lt_dump h (parent := some x) (by rintro p ⟨⟩; exact hx) true
  obtain ⟨D, h1, h2, h3, h4'⟩ := C37_delete h (fun k => k == x.pk)
  have h4 : data (delete db (fun r => r.pk == x.pk)).rows = (data db.rows).filter (fun e => !D e.1) := by
    unfold data
    rw [h4', List.filter_map]
    rfl
  rw [← keys_eq] at h1
  obtain ⟨n, en, hnd, htops, hlab, hG⟩ := cut_grafted hF hkx hd h1 (p := parent) (fun q e => (hp q e).2) keys
  have hkeys : (delete db (fun r => r.pk == x.pk)).rows.map Row.pk = ((data db.rows).map Prod.fst).filter (fun k => !D k) := by
    rw [← keys_eq, h4, keys_filter]
  obtain ⟨p, ef, hpk, hpm⟩ := fetchParent_ok (pk := Row.pk) (rows := (delete db (fun r => r.pk == x.pk)).rows) (parent := parent) (by
    intro q e
    rw [hkeys, List.mem_filter, keys_eq]
    refine ⟨(hp q e).1, ?_⟩
    rw [Bool.not_eq_true', ← Bool.not_eq_true, goes_branch hF hkx h1]
    exact (hp q e).2)
  rw [← h3] at hG
  have hcut : ∀ r, load cfg (delete db (fun r => r.pk == x.pk)) p (n.map (fun k => (k, valsIn (data db.rows) k))) = r → cutPaste cfg db x parent keys = r := by
    rintro _ rfl
    unfold cutPaste
    rw [ed]
    dsimp only
    rw [show fetchParent (delete db (fun r => r.pk == x.pk)).get? parent = .ok p from ef]
    dsimp only
    rw [en]
  rcases C91_lt_partial (cfg := cfg) h2 ho (parent := p) hpm hnd
    (by
      rintro k hk r hr rfl
      have : r.pk ∈ (delete db (fun r => r.pk == x.pk)).rows.map Row.pk := List.mem_map_of_mem hr
      rw [hkeys, List.mem_filter] at this
      rw [(hlab _).1 hk] at this
      exact absurd this.2 (by simp))
    (V := valsIn (data db.rows)) with ⟨db', el, hc', ⟨T, hgT, hst⟩, hd'⟩ | el
  · left
    rw [hpk] at hgT
    have eT : T = (forest db).move x.pk parent .last := (hgT.eq hnd).trans (hG.eq hnd).symm
    subst eT
    refine ⟨db', n.labels, hcut _ el, hc', hst, ?_⟩
    rw [hd', h4]
    exact cut_data hkn (fun e he => valsIn_mem hkn he) hnd hlab (fun k hk => ((h1 k).1 ((hlab k).1 hk)).1)
  · exact Or.inr (hcut _ el)

end LT

/-! ### Examples -/

theorem no_branch {F : Forest} {a d : Nat} (h : F (some a) = []) (hne : d ≠ a) : ¬ F.Branch a d := by
  rintro (e | hd)
  · exact hne e
  · clear hne
    induction hd with
    | child hm => rw [h] at hm; cases hm
    | step _ _ ih => exact ih

/-- 4 goes below 2 ... -/
example : ∃ db' added, NS.cutPaste NS.exSorted NS.exSDB ⟨4, 1, 6, 7, 2, [some 3]⟩ (some 2) id = .ok (db', added) ∧ NS.Consistent db' ∧ NS.SortedTree NS.exSorted db' ∧
    MovedSorted NS.exSorted.orderBy (valsIn (NS.data NS.exSDB.rows)) (NS.forest NS.exSDB) (NS.forest db') 4 (some 2) ∧ (NS.data db'.rows).Perm (NS.data NS.exSDB.rows) :=
  NS.C99_ns NS.exSDB_inv rfl NS.exSDB_sorted (x := ⟨4, 1, 6, 7, 2, [some 3]⟩) (by decide) (by rintro q ⟨⟩; exact ⟨by decide, no_branch (by decide) (by decide)⟩) id

/-- ... and 3 again below 1, behind its equal sibling 4 -/
example : (NS.cutPaste NS.exSorted NS.exSDB ⟨3, 1, 4, 5, 2, [some 3]⟩ (some 1) id).toOption.map (fun y => NS.forest y.1 (some 1)) = some [2, 4, 3] := by
  simp only [NS.cutPaste, NS.load, loadBulk_eq]; decide +kernel

/-- 5 becomes a root, between others -/
example : (MP.cutPaste MP.exCfgS MP.exDBS ⟨5, [50, 50], 2, 0, [some 3, some 3]⟩ none id).toOption.map (fun y => MP.forest MP.exCfgS y.1 none) = some [1, 2, 5, 3] := by
  simp only [MP.cutPaste, MP.load, loadBulk_eq]; decide +kernel

example : MP.exCfgS.Ok ∧ MP.Consistent MP.exCfgS MP.exDBS ∧ MP.exCfgS.ordered = true ∧ SortedTree MP.exCfgS MP.exDBS ∧ ¬ (MP.forest MP.exCfgS MP.exDBS).Branch 5 1 :=
  ⟨MP.exCfgS_ok, MP.exDBS_consistent, rfl, ⟨MP.exDBS_sorted.1, MP.exDBS_sorted.2⟩, no_branch (by decide) (by decide)⟩

example : AL.Wf AL.exSorted AL.exSDB ∧ ¬ (AL.forest AL.exSorted AL.exSDB).Branch 5 1 ∧
    (AL.cutPaste AL.exSorted AL.exSDB (⟨5, none, 0, [some 3]⟩, none) (some 1) id).toOption.map (fun y => AL.forest AL.exSorted y.1 (some 1)) = some [2, 5, 3, 4] := by
  refine ⟨AL.wf_of_ai AL.exSDB_inv.toAI, no_branch (by decide) (by decide), ?_⟩
  simp only [AL.cutPaste, AL.load, loadBulk_eq]; decide +kernel

/-- LT: 3 (value 9), cut out and pasted below 1, comes before the child with the value 1: **C99 fails for LT** -/
theorem LT.C99_lt_fails : ∃ db : LT.DB, LT.Consistent db ∧ LT.SortedTree LT.exSorted db ∧ LT.forest db none = [1, 3] ∧ LT.forest db (some 1) = [2] ∧
    ∃ x ∈ db.rows, x.pk = 3 ∧ (LT.cutPaste LT.exSorted db x (some 1) id).toOption.map (fun y => (y.2, LT.forest y.1 (some 1))) = some ([3], [3, 2]) ∧
    keyLt LT.exSorted.orderBy (valsIn (LT.data db.rows) 2) (valsIn (LT.data db.rows) 3) := by
  refine ⟨⟨[⟨1, [[65]], [some 5]⟩, ⟨2, [[65], [66]], [some 1]⟩, ⟨3, [[66]], [some 9]⟩], []⟩, LT.consistent_iff.2 (LT.inv_of_check (by decide)), ?_, by decide, by decide,
    ⟨3, [[66]], [some 9]⟩, by decide, rfl, ?_, by decide⟩
  · refine ⟨?_, sortedBy_of_keys [1, 2, 3] (fun k hk => LT.forest_nil hk) (by decide)⟩
    intro e he f hf
    simp only [LT.exSorted, List.mem_cons, List.not_mem_nil, or_false] at hf
    simp only [LT.data, List.map_cons, List.map_nil, List.mem_cons, List.not_mem_nil, or_false] at he
    rcases he with rfl | rfl | rfl <;> subst hf <;> exact ⟨_, rfl⟩
  · simp only [LT.cutPaste, LT.load, loadBulk_eq]; decide +kernel

end Verif
