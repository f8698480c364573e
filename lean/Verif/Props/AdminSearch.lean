/-
C76: search, filters and actions of the admin's tree list.
-/
import Verif.AdminSearch
import Verif.Props.AdminList
import Verif.Props.AdminPage
import Verif.Props.MPDelete

namespace Verif

variable {σ ρ : Type} {F : Forest} {ids : List Nat} {hit : Nat → Bool}

/-! ### Search -/

/-- **C76, when a search shows everything it should**: every hit is shown exactly if everything above a hit is a hit. -/
theorem C76_complete_iff {req : Option Nat → Except Err (List AdminRow)} (h : SearchShows F ids hit req) :
    ∃ top out, req none = .ok top ∧ Opened req top out ∧
      ((∀ k ∈ ids, hit k = true → k ∈ out.map AdminRow.node) ↔ ∀ a k, k ∈ ids → hit k = true → F.Desc a k → hit a = true) := by
  obtain ⟨top, out, _, e, ho, _, _, _, _, hm, _⟩ := h.all
  refine ⟨top, out, e, ho, ?_, ?_⟩
  · intro hall a k hk hh hd
    exact ((hm k).1 (hall k hk hh)).2.2 a hd
  · intro hall k hk hh
    exact (hm k).2 ⟨hk, hh, fun a ha => hall a k hk hh ha⟩

/-! ### Actions -/

/-- the nodes a user can have ticked: those shown -/
theorem C76_selected {all : List ρ} {key : ρ → Nat} {sel : List Nat} (hne : sel ≠ []) (hs : ∀ k ∈ sel, k ∈ all.map key ∧ F.HitPath hit k) :
    ∃ l, actionTargets key all hit ⟨sel, false⟩ = some l ∧ l.Sublist (all.map key) ∧ ∀ k, k ∈ l ↔ k ∈ sel := by
  refine ⟨((all.map key).filter hit).filter (fun k => sel.contains k), ?_, ?_, ?_⟩
  · unfold actionTargets
    have : sel.isEmpty = false := by cases sel <;> simp_all
    simp [this]
  · exact List.filter_sublist.trans List.filter_sublist
  · intro k
    rw [List.mem_filter, List.mem_filter]
    constructor
    · rintro ⟨_, h⟩; simpa using h
    · intro h; exact ⟨⟨(hs k h).1, (hs k h).2.1⟩, by simpa using h⟩

/-- nothing ticked: no action -/
theorem C76_nothing {all : List ρ} {key : ρ → Nat} : actionTargets key all hit ⟨[], false⟩ = none := rfl

/-- **C76, "Select all … nodes"**: the link counts the roots that are hits, and the action is applied to all the hits of the tree.  The two agree exactly if there is no hit below a root. -/
theorem C76_across_iff {v : TreeView σ ρ} {db : σ} {all : List ρ} (hF : F.IsForestOn (all.map v.key)) (hr : (v.roots db).map v.key = F none) (sel : List Nat) :
    ∃ l, actionTargets v.key all hit ⟨sel, true⟩ = some l ∧ (∀ k, k ∈ l ↔ k ∈ all.map v.key ∧ hit k = true) ∧
      (l.length = acrossCount v hit db ↔ ∀ p, ∀ k ∈ F (some p), hit k = false) := by
  refine ⟨(all.map v.key).filter hit, rfl, fun k => List.mem_filter, ?_⟩
  obtain ⟨tree, hd, hn, hp⟩ := hF.listing
  have hg := hF.good
  have hroot : (F none).Nodup ∧ ∀ k ∈ F none, k ∈ tree := by
    refine ⟨?_, fun k hk => (hd.mem k).2 ⟨k, hk, Or.inl rfl⟩⟩
    have : ∀ cs l, F.DFS cs l → cs.Sublist l := by
      intro cs l h
      induction h with
      | nil => simp
      | cons _ _ _ ih => exact (ih.trans (List.sublist_append_right _ _)).cons_cons _
    exact (this _ _ hd).nodup hn
  have hcount : acrossCount v hit db = ((F none).filter hit).length := by
    unfold acrossCount
    rw [← hr, List.filter_map, List.length_map]
    rfl
  have hlen : ((all.map v.key).filter hit).length = (tree.filter hit).length := ((hp.filter hit).length_eq).symm
  rw [hcount, hlen]
  have hsub : ((F none).filter hit) ⊆ tree.filter hit := by
    intro k hk
    rw [List.mem_filter] at hk ⊢
    exact ⟨hroot.2 k hk.1, hk.2⟩
  have hnd := hroot.1.filter hit
  constructor
  · intro e p k hk
    by_contra hc
    rw [Bool.not_eq_false] at hc
    have hperm : ((F none).filter hit).Perm (tree.filter hit) := (List.subperm_of_subset hnd hsub).perm_of_length_le (by omega)
    have hkt : k ∈ tree := hp.mem_iff.2 (hg.sub _ k hk)
    have hm := hperm.mem_iff.2 (List.mem_filter.2 ⟨hkt, hc⟩)
    cases hg.one _ _ _ (List.mem_filter.1 hm).1 hk
  · intro hall
    refine le_antisymm ?_ (List.subperm_of_subset hnd hsub).length_le
    refine (List.subperm_of_subset (hn.filter hit) ?_).length_le
    intro k hk
    rw [List.mem_filter] at hk ⊢
    refine ⟨?_, hk.2⟩
    obtain ⟨c, hc, rfl | hdesc⟩ := (hd.mem k).1 hk.1
    · exact hc
    · exfalso
      cases hdesc with
      | child h => rw [hall _ _ h] at hk; cases hk.2
      | step _ h => rw [hall _ _ h] at hk; cases hk.2

/-! ### Deleting -/

theorem confirm_iff {keys keys' T : List Nat} {D : Nat → Bool} (hD : ∀ k, D k = true ↔ k ∈ keys ∧ Tree.Doomed F T.contains k)
    (hk : keys' = keys.filter (fun k => !D k)) (hT : ∀ k ∈ T, k ∈ keys) (hsub : ∀ a k, F.Desc a k → k ∈ keys) :
    (∀ k ∈ confirmList T, k ∉ keys') ∧
    ((∀ k ∈ keys, k ∉ keys' → k ∈ confirmList T) ↔ ∀ a ∈ T, ∀ k, F.Desc a k → k ∈ T) := by
  unfold confirmList
  have hgone : ∀ k ∈ keys, (k ∉ keys' ↔ Tree.Doomed F T.contains k) := by
    intro k hkk
    rw [hk, List.mem_filter]
    have := hD k
    by_cases hd : D k = true
    · simp [hd, hkk, (this.1 hd).2]
    · simp [hd, hkk]
      intro hdo
      exact hd (this.2 ⟨hkk, hdo⟩)
  refine ⟨fun k hkT => (hgone k (hT k hkT)).2 (Or.inl (by simpa using hkT)), ?_, ?_⟩
  · intro h a ha k hd
    exact h k (hsub a k hd) ((hgone k (hsub a k hd)).2 (Or.inr ⟨a, by simpa using ha, hd⟩))
  · intro h k hkk hg
    rcases (hgone k hkk).1 hg with h1 | ⟨a, ha, hd⟩
    · simpa using h1
    · exact h a (by simpa using ha) k hd

theorem desc_keys (hF : F.IsForestOn ids) : ∀ a k, F.Desc a k → k ∈ ids := by
  intro a k h
  cases h with
  | child h => exact hF.good.sub _ _ h
  | step _ h => exact hF.good.sub _ _ h

/-! ### The four kinds of tree -/

namespace MP
variable {cfg : Cfg} {db : DB}

theorem keys_of_data {rows rows' : List Row} {D : Nat → Bool} (h : data rows' = (data rows).filter (fun e => !D e.1)) :
    rows'.map Row.pk = (rows.map Row.pk).filter (fun k => !D k) := by
  have := congrArg (List.map Prod.fst) h
  unfold data at this
  rw [List.filter_map, List.map_map, List.map_map] at this
  rw [List.filter_map]
  exact this

theorem isForestOn_forest (hok : cfg.Ok) (h : Consistent cfg db) : (forest cfg db).IsForestOn (db.rows.map Row.pk) := by
  have hi := (consistent_iff hok).1 h
  rw [forest_eq hi hok]
  exact isForestOn hi.inv hok.step

/-- **C76 for MP, search** -/
theorem C76_mp_search (hok : cfg.Ok) (h : Consistent cfg db) (hit : Nat → Bool) :
    SearchShows (forest cfg db) (db.rows.map Row.pk) hit (searchContext (treeView cfg) hit db) := by
  have := searchShows_of (isForestOn_forest hok h) (C54_mp hok h) hit
  rwa [← funext (searchContext_eq (treeView cfg) hit db)] at this

/-- **C76 for MP, "Select all"** (see `C76_across_iff`) -/
theorem C76_mp_across_partial (hok : cfg.Ok) (h : Consistent cfg db) (hit : Nat → Bool) (sel : List Nat) :
    ∃ l, actionTargets Row.pk db.rows hit ⟨sel, true⟩ = some l ∧ (∀ k, k ∈ l ↔ k ∈ db.rows.map Row.pk ∧ hit k = true) ∧
      (l.length = acrossCount (treeView cfg) hit db ↔ ∀ p, ∀ k ∈ forest cfg db (some p), hit k = false) :=
  C76_across_iff (v := treeView cfg) (isForestOn_forest hok h) rfl sel

/-- **C76 for MP, the confirmation of deletions**: what is listed is deleted; all that is deleted is listed exactly if everything below the chosen nodes is chosen too. -/
theorem C76_mp_confirm_partial (hok : cfg.Ok) (h : Consistent cfg db) {T : List Nat} (hT : ∀ k ∈ T, k ∈ db.rows.map Row.pk) :
    (∀ k ∈ confirmList T, k ∉ (delete cfg db (fun r => T.contains r.pk)).rows.map Row.pk) ∧
    ((∀ k ∈ db.rows.map Row.pk, k ∉ (delete cfg db (fun r => T.contains r.pk)).rows.map Row.pk → k ∈ confirmList T) ↔
      ∀ a ∈ T, ∀ k, (forest cfg db).Desc a k → k ∈ T) := by
  obtain ⟨D, hD, _, _, hdata⟩ := C09_delete hok h T.contains
  refine confirm_iff hD ?_ hT (desc_keys (isForestOn_forest hok h))
  exact keys_of_data hdata

end MP

namespace NS
variable {db : DB}

theorem keys_of_data {rows rows' : List Row} {D : Nat → Bool} (h : data rows' = (data rows).filter (fun e => !D e.1)) :
    rows'.map Row.pk = (rows.map Row.pk).filter (fun k => !D k) := by
  have := congrArg (List.map Prod.fst) h
  unfold data at this
  rw [List.filter_map, List.map_map, List.map_map] at this
  rw [List.filter_map]
  exact this

/-- **C76 for NS, search** -/
theorem C76_ns_search (h : Consistent db) (hit : Nat → Bool) :
    SearchShows (forest db) (db.rows.map Row.pk) hit (searchContext treeView hit db) := by
  have hF := isForestOn h
  rw [keys_eq] at hF
  have := searchShows_of hF (C54_ns h) hit
  rwa [← funext (searchContext_eq treeView hit db)] at this

/-- **C76 for NS, "Select all"** (see `C76_across_iff`) -/
theorem C76_ns_across_partial (h : Consistent db) (hit : Nat → Bool) (sel : List Nat) :
    ∃ l, actionTargets Row.pk db.rows hit ⟨sel, true⟩ = some l ∧ (∀ k, k ∈ l ↔ k ∈ db.rows.map Row.pk ∧ hit k = true) ∧
      (l.length = acrossCount treeView hit db ↔ ∀ p, ∀ k ∈ forest db (some p), hit k = false) := by
  have hF := isForestOn h
  rw [keys_eq] at hF
  exact C76_across_iff (v := treeView) hF rfl sel

/-- **C76 for NS, the confirmation of deletions** -/
theorem C76_ns_confirm_partial (h : Consistent db) {T : List Nat} (hT : ∀ k ∈ T, k ∈ db.rows.map Row.pk) :
    (∀ k ∈ confirmList T, k ∉ (delete db (fun r => T.contains r.pk)).rows.map Row.pk) ∧
    ((∀ k ∈ db.rows.map Row.pk, k ∉ (delete db (fun r => T.contains r.pk)).rows.map Row.pk → k ∈ confirmList T) ↔
      ∀ a ∈ T, ∀ k, (forest db).Desc a k → k ∈ T) := by
  have hF := isForestOn h
  rw [keys_eq] at hF
  obtain ⟨D, hD, _, _, hdata⟩ := C24_delete h T.contains
  exact confirm_iff hD (keys_of_data hdata) hT (desc_keys hF)

end NS

namespace AL
variable {cfg : Cfg} {db : DB}

/-- **C76 for AL, search** -/
theorem C76_al_search (h : Wf cfg db) (hit : Nat → Bool) :
    SearchShows (forest cfg db) (db.rows.map Row.pk) hit (searchContext (treeView cfg) hit db) := by
  have hF := isForestOn (cfg := cfg) h.ai
  rw [data_keys] at hF
  have := searchShows_of hF (C54_al h) hit
  rwa [← funext (searchContext_eq (treeView cfg) hit db)] at this

/-- **C76 for AL, "Select all"** (see `C76_across_iff`) -/
theorem C76_al_across_partial (h : Wf cfg db) (hit : Nat → Bool) (sel : List Nat) :
    ∃ l, actionTargets Row.pk db.rows hit ⟨sel, true⟩ = some l ∧ (∀ k, k ∈ l ↔ k ∈ db.rows.map Row.pk ∧ hit k = true) ∧
      (l.length = acrossCount (treeView cfg) hit db ↔ ∀ p, ∀ k ∈ forest cfg db (some p), hit k = false) := by
  have hF := isForestOn (cfg := cfg) h.ai
  rw [data_keys] at hF
  exact C76_across_iff (v := (treeView cfg)) hF rfl sel

/-- **C76 for AL, the confirmation of deletions**: what is listed is what is deleted, the chosen nodes with everything below them, on every table that is a tree. -/
theorem C76_al_confirm (h : Wf cfg db) (T : List Nat) (k : Nat) :
    (k ∈ confirmList db T ↔ k ∈ db.rows.map Row.pk ∧ k ∉ (delete db (fun r => T.contains r.pk)).rows.map Row.pk) ∧
    (k ∈ confirmList db T ↔ k ∈ db.rows.map Row.pk ∧ Tree.Doomed (forest cfg db) T.contains k) := by
  have hg := gone_iff (cfg := cfg) h.ai T.contains (k := k)
  rw [forest_eq h.ai]
  have hl : k ∈ confirmList db T ↔ k ∈ db.rows.map Row.pk ∧ gone db (fun r => T.contains r.pk) k = true := by
    unfold confirmList
    rw [List.mem_map, List.mem_map]
    constructor
    · rintro ⟨r, hr, rfl⟩
      rw [List.mem_filter] at hr
      exact ⟨⟨r, hr.1, rfl⟩, hr.2⟩
    · rintro ⟨⟨r, hr, rfl⟩, hd⟩
      exact ⟨r, List.mem_filter.2 ⟨hr, hd⟩, rfl⟩
  rw [hl, hg, delete_rows]
  refine ⟨⟨?_, ?_⟩, by tauto⟩
  · rintro ⟨hk, hd⟩
    refine ⟨hk, ?_⟩
    intro hm
    obtain ⟨r, hr, rfl⟩ := List.mem_map.1 hm
    rw [List.mem_filter, hg.2 hd] at hr
    cases hr.2
  · rintro ⟨hk, hn⟩
    rw [← hg]
    refine ⟨hk, ?_⟩
    obtain ⟨r, hr, rfl⟩ := List.mem_map.1 hk
    by_contra hc
    exact hn (List.mem_map.2 ⟨r, List.mem_filter.2 ⟨hr, by simpa using hc⟩, rfl⟩)

end AL

namespace LT
variable {db : DB}

/-- **C76 for LT, search** -/
theorem C76_lt_search (h : Consistent db) (hit : Nat → Bool) :
    SearchShows (forest db) (db.rows.map Row.pk) hit (searchContext treeView hit db) := by
  have hF := isForestOn h
  rw [keys_eq] at hF
  have := searchShows_of hF (C54_lt h) hit
  rwa [← funext (searchContext_eq treeView hit db)] at this

/-- **C76 for LT, "Select all"** (see `C76_across_iff`) -/
theorem C76_lt_across_partial (h : Consistent db) (hit : Nat → Bool) (sel : List Nat) :
    ∃ l, actionTargets Row.pk db.rows hit ⟨sel, true⟩ = some l ∧ (∀ k, k ∈ l ↔ k ∈ db.rows.map Row.pk ∧ hit k = true) ∧
      (l.length = acrossCount treeView hit db ↔ ∀ p, ∀ k ∈ forest db (some p), hit k = false) := by
  have hF := isForestOn h
  rw [keys_eq] at hF
  exact C76_across_iff (v := treeView) hF rfl sel

/-- **C76 for LT, the confirmation of deletions** -/
theorem C76_lt_confirm_partial (h : Consistent db) {T : List Nat} (hT : ∀ k ∈ T, k ∈ db.rows.map Row.pk) :
    (∀ k ∈ confirmList T, k ∉ (delete db (fun r => T.contains r.pk)).rows.map Row.pk) ∧
    ((∀ k ∈ db.rows.map Row.pk, k ∉ (delete db (fun r => T.contains r.pk)).rows.map Row.pk → k ∈ confirmList T) ↔
      ∀ a ∈ T, ∀ k, (forest db).Desc a k → k ∈ T) := by
  have hF := isForestOn h
  rw [keys_eq] at hF
  obtain ⟨D, hD, _, _, hdata⟩ := C37_delete h T.contains
  exact confirm_iff hD (by rw [hdata, List.filter_map]; rfl) hT (desc_keys hF)

end LT

/-! ### Witnesses and a concrete case -/

namespace MP

/-- a search that everything above its hits meets, actions on ticked nodes -/
example : Consistent exCfg exDB ∧
    searchContext (treeView exCfg) (fun k => [1, 3].contains k) exDB none = .ok [⟨1, 0, 1, true⟩] ∧
    searchContext (treeView exCfg) (fun k => [1, 3].contains k) exDB (some 1) = .ok [⟨3, 1, 2, true⟩] ∧
    actionTargets Row.pk exDB.rows (fun k => [1, 3].contains k) ⟨[3], false⟩ = some [3] :=
  ⟨exDB_consistent, by decide, by decide, by decide⟩

/-- **A search does not find its hits**: node 4 is the only hit, and the list is empty, because the root above it is no hit.  The same search as the query of an action finds it. -/
theorem C76_hit_not_shown : Consistent exCfg exDB ∧ 4 ∈ exDB.rows.map Row.pk ∧
    searchContext (treeView exCfg) (fun k => k == 4) exDB none = .ok [] ∧
    (∀ out, Opened (searchContext (treeView exCfg) (fun k => k == 4) exDB) [] out → out = []) ∧
    actionTargets Row.pk exDB.rows (fun k => k == 4) ⟨[], true⟩ = some [4] :=
  ⟨exDB_consistent, by decide, by decide, by rintro out ⟨⟩; rfl, by decide⟩

/-- **A node that can be opened shows nothing**: of a search that only the roots meet, node 1 has a button, and no rows below it. -/
theorem C76_empty_button : searchContext (treeView exCfg) (fun k => [1, 5].contains k) exDB none = .ok [⟨1, 0, 1, true⟩, ⟨5, 0, 1, false⟩] ∧
    searchContext (treeView exCfg) (fun k => [1, 5].contains k) exDB (some 1) = .ok [] :=
  ⟨by decide, by decide⟩

/-- **"Select all 2 nodes" applies an action to five**: one root on a page, no search.  The link says 2, the number of roots, and the action gets every node of the tree. -/
theorem C76_across_more : Consistent exCfg exDB ∧ acrossOffered (treeView exCfg) (fun _ => true) exDB 1 = true ∧
    acrossCount (treeView exCfg) (fun _ => true) exDB = 2 ∧ actionTargets Row.pk exDB.rows (fun _ => true) ⟨[1], true⟩ = some (exDB.rows.map Row.pk) ∧ exDB.rows.length = 5 :=
  ⟨exDB_consistent, by decide, by decide, by decide, by decide⟩

/-- **The confirmation of a deletion lists one node of four**: node 1 is to be deleted, node 1 is listed, and the nodes 1 to 4 are deleted. -/
theorem C76_confirm_less : Consistent exCfg exDB ∧ confirmList [1] = [1] ∧
    exDB.rows.length = 5 ∧ (delete exCfg exDB (fun r => [1].contains r.pk)).rows.map Row.pk = [5] :=
  ⟨exDB_consistent, by decide, by decide, by decide⟩

end MP

/-- the other kinds: a search for the nodes 1 and 3, and the confirmation -/
example : NS.Consistent NS.exDB ∧ searchContext NS.treeView (fun k => [1, 3].contains k) NS.exDB (some 1) = .ok [⟨3, 1, 2, true⟩] ∧
    acrossCount NS.treeView (fun _ => true) NS.exDB = 2 ∧ (NS.delete NS.exDB (fun r => [1].contains r.pk)).rows.map NS.Row.pk = [5] ∧
    AL.Wf AL.exPlain AL.exDB ∧ searchContext (AL.treeView AL.exPlain) (fun k => [1, 3].contains k) AL.exDB (some 1) = .ok [⟨3, 1, 2, true⟩] ∧
    acrossCount (AL.treeView AL.exPlain) (fun _ => true) AL.exDB = 2 ∧ AL.confirmList AL.exDB [1] = [1, 3, 2, 4] ∧
    LT.Consistent LT.exDB ∧ searchContext LT.treeView (fun k => [1, 3].contains k) LT.exDB (some 1) = .ok [⟨3, 1, 2, true⟩] ∧
    acrossCount LT.treeView (fun _ => true) LT.exDB = 2 ∧ (LT.delete LT.exDB (fun r => [1].contains r.pk)).rows.map LT.Row.pk = [5] :=
  ⟨NS.exDB_inv, by decide, by decide, by decide, (AL.consistent_of_inv rfl AL.exDB_inv).toWf, by decide, by decide, by decide,
    LT.consistent_iff.2 LT.exDB_inv, by decide, by decide, by decide⟩

end Verif
