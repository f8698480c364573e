/-
C86: a branch that is dumped, deleted and loaded somewhere else with its primary keys is moved there.
-/
import Verif.CutModel
import Verif.CutLemmas
import Verif.Props.Copy
import Verif.Props.Arrange

namespace Verif

theorem fetchParent_ok {ρ : Type} {rows : List ρ} {pk : ρ → Nat} {parent : Option Nat} (h : ∀ q, parent = some q → q ∈ rows.map pk) :
    ∃ p, fetchParent (fun k => rows.find? (fun r => pk r == k)) parent = .ok p ∧ p.map pk = parent ∧ ∀ r, p = some r → r ∈ rows := by
  cases parent with
  | none => exact ⟨none, rfl, rfl, fun r e => by cases e⟩
  | some q =>
    obtain ⟨r, hr, e⟩ := List.mem_map.1 (h q rfl)
    cases hf : rows.find? (fun r => pk r == q) with
    | none => exact absurd (List.find?_eq_none.1 hf r hr) (by simp [e])
    | some r' =>
      refine ⟨some r', by unfold fetchParent; dsimp only; rw [hf], ?_, ?_⟩
      · have := List.find?_some hf
        simpa using this
      · rintro _ ⟨⟩
        exact List.mem_of_find?_eq_some hf

/-- keys after a deletion -/
theorem keys_filter {D : List (Nat × Vals)} {q : Nat → Bool} : (D.filter (fun e => !q e.1)).map Prod.fst = (D.map Prod.fst).filter (fun k => !q k) := by
  rw [List.filter_map]; rfl

namespace NS

variable {cfg : Cfg} {db : DB}

/-- **C86 for NS**: the result is the tree that `move(node, parent, 'last-child')` is asked for (the last root without a parent). -/
theorem C86_ns (h : Consistent db) (ho : cfg.ordered = false) {x : Row} (hx : x ∈ db.rows) {parent : Option Nat}
    (hp : ∀ q, parent = some q → q ∈ db.rows.map Row.pk ∧ ¬ (forest db).Branch x.pk q) (keys : Nat → Nat) :
    ∃ db' added, cutPaste cfg db x parent keys = .ok (db', added) ∧ Consistent db' ∧ forest db' = (forest db).move x.pk parent .last ∧ (data db'.rows).Perm (data db.rows) := by
  have hF := isForestOn h
  have hkx : x.pk ∈ (data db.rows).map Prod.fst := by rw [keys_eq]; exact List.mem_map_of_mem hx
  obtain ⟨d, ed, hd⟩ := C19_ns_dump h (parent := some x) (by rintro p ⟨⟩; exact hx) true
  obtain ⟨D, h1, h2, h3, h4⟩ := C24_delete h (fun k => k == x.pk)
  rw [← keys_eq] at h1
  obtain ⟨n, en, hnd, htops, hlab, hG⟩ := cut_grafted hF hkx hd h1 (p := parent) (fun q e => (hp q e).2) keys
  have hkeys : (delete db (fun r => r.pk == x.pk)).rows.map Row.pk = ((data db.rows).map Prod.fst).filter (fun k => !D k) := by
    rw [← keys_eq, h4, keys_filter]
  obtain ⟨p, ef, hpk, hpm⟩ := fetchParent_ok (pk := Row.pk) (rows := (delete db (fun r => r.pk == x.pk)).rows) (parent := parent) (by
    intro q e
    rw [hkeys, List.mem_filter, keys_eq]
    refine ⟨(hp q e).1, ?_⟩
    rw [Bool.not_eq_true', ← Bool.not_eq_true, goes_branch hF hkx h1]
    exact (hp q e).2)
  rw [← h3] at hG
  obtain ⟨db', el, hc', hf', hd'⟩ := C19_ns_load (cfg := cfg) h2 (parent := p) (fun r e => List.mem_map_of_mem (hpm r e)) hnd
    (by
      rintro k hk r hr rfl
      have : r.pk ∈ (delete db (fun r => r.pk == x.pk)).rows.map Row.pk := List.mem_map_of_mem hr
      rw [hkeys, List.mem_filter] at this
      rw [(hlab _).1 hk] at this
      exact absurd this.2 (by simp))
    (V := valsIn (data db.rows))
    (by
      intro r hr
      have : (r.pk, r.vals) ∈ data (delete db (fun r => r.pk == x.pk)).rows := List.mem_map_of_mem (f := fun r : Row => (r.pk, r.vals)) hr
      rw [h4] at this
      exact valsIn_mem (keys_nodup h) (List.mem_filter.1 this).1)
    (T := (forest db).move x.pk parent .last) (by rw [hpk]; exact hG) (fun e => by rw [ho] at e; cases e)
  refine ⟨db', n.labels, ?_, hc', hf', ?_⟩
  · unfold cutPaste
    rw [ed]
    dsimp only
    rw [show fetchParent (delete db (fun r => r.pk == x.pk)).get? parent = .ok p from ef]
    dsimp only
    rw [en]
    exact el
  · rw [hd', h4]
    exact cut_data (keys_nodup h) (fun e he => valsIn_mem (keys_nodup h) he) hnd hlab (fun k hk => ((h1 k).1 ((hlab k).1 hk)).1)

/-- the branch of 3 goes below 7, in the tree of which it is, and becomes a root -/
example : Consistent loopDB ∧ ¬ (forest loopDB).Branch 3 7 ∧ ((cutPaste ⟨[]⟩ loopDB ⟨3, 1, 6, 11, 2, []⟩ (some 7) id).toOption.map (fun a => (forest a.1 (some 7), forest a.1 (some 3), forest a.1 (some 1)))) = some ([3], [4, 5], [2, 6]) ∧
    ((cutPaste ⟨[]⟩ loopDB ⟨3, 1, 6, 11, 2, []⟩ none id).toOption.map (fun a => (a.2, forest a.1 none))) = some ([3, 4, 5], forest loopDB none ++ [3]) := by
  refine ⟨loopDB_inv, ?_, ?_, ?_⟩
  · rintro (e | hd)
    · cases e
    · rw [forest_eq loopDB_inv.toNI] at hd
      have := (desc_PF (q := ⟨3, 1, 6, 11, 2, []⟩) (r := ⟨7, 1, 3, 4, 3, []⟩) loopDB_inv.toNI (by decide) (by decide)).1 hd
      revert this
      decide
  all_goals decide +kernel

end NS

namespace AL

variable {cfg : Cfg} {db : DB}

/-- **C86 for AL.** -/
theorem C86_al (h : Consistent cfg db) (ho : cfg.ordered = false) {x : Row × Option Int} (hx : x.1 ∈ db.rows) {parent : Option Nat}
    (hp : ∀ q, parent = some q → q ∈ db.rows.map Row.pk ∧ ¬ (forest cfg db).Branch x.1.pk q) (keys : Nat → Nat) :
    ∃ db' added, cutPaste cfg db x parent keys = .ok (db', added) ∧ Consistent cfg db' ∧ forest cfg db' = (forest cfg db).move x.1.pk parent .last ∧ (data db'.rows).Perm (data db.rows) := by
  have hF := isForestOn (cfg := cfg) h.toWf.ai
  have hkn : ((data db.rows).map Prod.fst).Nodup := by rw [data_keys]; exact h.pks
  have hkx : x.1.pk ∈ (data db.rows).map Prod.fst := by rw [data_keys]; exact List.mem_map_of_mem hx
  obtain ⟨d, ed, hd⟩ := C19_al_dump h.toWf (parent := some x) (by rintro p ⟨⟩; exact hx) true
  obtain ⟨D, h1, h2, h3, h4⟩ := C31_delete ho h (fun k => k == x.1.pk)
  rw [← data_keys] at h1
  obtain ⟨n, en, hnd, htops, hlab, hG⟩ := cut_grafted hF hkx hd h1 (p := parent) (fun q e => (hp q e).2) keys
  have hkeys : (delete db (fun r => r.pk == x.1.pk)).rows.map Row.pk = ((data db.rows).map Prod.fst).filter (fun k => !D k) := by
    rw [← data_keys, h4, keys_filter]
  obtain ⟨p, ef, hpk, hpm⟩ := fetchParent_ok (pk := Row.pk) (rows := (delete db (fun r => r.pk == x.1.pk)).rows) (parent := parent) (by
    intro q e
    rw [hkeys, List.mem_filter, data_keys]
    refine ⟨(hp q e).1, ?_⟩
    rw [Bool.not_eq_true', ← Bool.not_eq_true, goes_branch hF hkx h1]
    exact (hp q e).2)
  rw [← h3] at hG
  obtain ⟨db', el, hc', hf', hd'⟩ := C19_al_load (cfg := cfg) ho h2 (parent := p.map (fun r => (r, none))) (by
      intro r e
      obtain ⟨r', e', rfl⟩ := Option.map_eq_some_iff.1 e
      exact List.mem_map_of_mem (hpm r' e')) hnd
    (by
      rintro k hk r hr rfl
      have : r.pk ∈ (delete db (fun r => r.pk == x.1.pk)).rows.map Row.pk := List.mem_map_of_mem hr
      rw [hkeys, List.mem_filter] at this
      rw [(hlab _).1 hk] at this
      exact absurd this.2 (by simp))
    (V := valsIn (data db.rows))
    (by
      intro r hr
      have : (r.pk, r.vals) ∈ data (delete db (fun r => r.pk == x.1.pk)).rows := List.mem_map_of_mem (f := fun r : Row => (r.pk, r.vals)) hr
      rw [h4] at this
      exact valsIn_mem hkn (List.mem_filter.1 this).1)
    (T := (forest cfg db).move x.1.pk parent .last) (by rw [Option.map_map]; show Grafted _ _ (p.map Row.pk) n; rw [hpk]; exact hG)
  refine ⟨db', n.labels, ?_, hc', hf', ?_⟩
  · unfold cutPaste
    rw [ed]
    dsimp only
    rw [show fetchParent (delete db (fun r => r.pk == x.1.pk)).get? parent = .ok p from ef]
    dsimp only
    rw [en]
    exact el
  · rw [hd', h4]
    exact cut_data hkn (fun e he => valsIn_mem hkn he) hnd hlab (fun k hk => ((h1 k).1 ((hlab k).1 hk)).1)

/-- the branch of 3 goes below 5 -/
example : Consistent exPlain exDB ∧ ¬ (forest exPlain exDB).Branch 3 5 ∧ ((cutPaste exPlain exDB (⟨3, some 1, 4, []⟩, none) (some 5) id).toOption.map (fun a => (forest exPlain a.1 (some 5), forest exPlain a.1 (some 3), forest exPlain a.1 (some 1)))) = some ([3], [4], [2]) := by
  refine ⟨consistent_of_inv rfl exDB_inv, ?_, ?_⟩
  · rintro (e | hd)
    · cases e
    · rw [forest_eq (consistent_of_inv rfl exDB_inv).toWf.ai] at hd
      obtain ⟨r, hr, e, p, e', _⟩ := desc_last hd
      have : ∀ r ∈ exDB.rows, r.pk = 5 → r.parent = none := by decide
      rw [this r hr e] at e'
      cases e'
  · decide +kernel

end AL

namespace LT

variable {cfg : Cfg} {db : DB}

/-- **C86 for LT** (partial: below a parent; see `C86_lt_root_fails`). -/
theorem C86_lt_partial (h : Consistent db) (ho : cfg.ordered = false) {x : Row} (hx : x ∈ db.rows) {parent : Nat}
    (hp : parent ∈ db.rows.map Row.pk) (hpb : ¬ (forest db).Branch x.pk parent) (keys : Nat → Nat) :
    ∃ db' added, cutPaste cfg db x (some parent) keys = .ok (db', added) ∧ Consistent db' ∧ forest db' = (forest db).move x.pk (some parent) .last ∧ (data db'.rows).Perm (data db.rows) := by
  have hF := isForestOn h
  have hkn : ((data db.rows).map Prod.fst).Nodup := by rw [keys_eq]; exact h.pks
  have hkx : x.pk ∈ (data db.rows).map Prod.fst := by rw [keys_eq]; exact List.mem_map_of_mem hx
  obtain ⟨d, ed, hd⟩ := C19_lt_dump h (parent := some x) (by rintro p ⟨⟩; exact hx) true
  obtain ⟨D, h1, h2, h3, h4'⟩ := C37_delete h (fun k => k == x.pk)
  have h4 : data (delete db (fun r => r.pk == x.pk)).rows = (data db.rows).filter (fun e => !D e.1) := by
    unfold data
    rw [h4', List.filter_map]
    rfl
  rw [← keys_eq] at h1
  obtain ⟨n, en, hnd, htops, hlab, hG⟩ := cut_grafted hF hkx hd h1 (p := some parent) (by rintro q ⟨⟩; exact hpb) keys
  have hkeys : (delete db (fun r => r.pk == x.pk)).rows.map Row.pk = ((data db.rows).map Prod.fst).filter (fun k => !D k) := by
    rw [← keys_eq, h4, keys_filter]
  obtain ⟨p, ef, hpk, hpm⟩ := fetchParent_ok (pk := Row.pk) (rows := (delete db (fun r => r.pk == x.pk)).rows) (parent := some parent) (by
    rintro q ⟨⟩
    rw [hkeys, List.mem_filter, keys_eq]
    refine ⟨hp, ?_⟩
    rw [Bool.not_eq_true', ← Bool.not_eq_true, goes_branch hF hkx h1]
    exact hpb)
  obtain ⟨p, rfl, hpe⟩ := Option.map_eq_some_iff.1 hpk
  rw [← h3] at hG
  obtain ⟨db', el, hc', hf', hd'⟩ := C19_lt_load (cfg := cfg) ho h2 (parent := p) (hpm p rfl) hnd
    (by
      rintro k hk r hr rfl
      have : r.pk ∈ (delete db (fun r => r.pk == x.pk)).rows.map Row.pk := List.mem_map_of_mem hr
      rw [hkeys, List.mem_filter] at this
      rw [(hlab _).1 hk] at this
      exact absurd this.2 (by simp))
    (V := valsIn (data db.rows))
    (by
      intro r hr
      have : (r.pk, r.vals) ∈ data (delete db (fun r => r.pk == x.pk)).rows := List.mem_map_of_mem (f := fun r : Row => (r.pk, r.vals)) hr
      rw [h4] at this
      exact valsIn_mem hkn (List.mem_filter.1 this).1)
    (T := (forest db).move x.pk (some parent) .last) (by rw [hpe]; exact hG)
  refine ⟨db', n.labels, ?_, hc', hf', ?_⟩
  · unfold cutPaste
    rw [ed]
    dsimp only
    rw [show fetchParent (delete db (fun r => r.pk == x.pk)).get? (some parent) = .ok (some p) from ef]
    dsimp only
    rw [en]
    exact el
  · rw [hd', h4]
    exact cut_data hkn (fun e he => valsIn_mem hkn he) hnd hlab (fun k hk => ((h1 k).1 ((hlab k).1 hk)).1)

/-- the branch of 3 goes below 5 -/
example : Consistent exDB ∧ ¬ (forest exDB).Branch 3 5 ∧ ((cutPaste ⟨[]⟩ exDB ⟨3, [[65], [66]], []⟩ (some 5) id).toOption.map (fun a => (forest a.1 (some 5), forest a.1 (some 3), forest a.1 (some 1)))) = some ([3], [4], [2]) := by
  refine ⟨consistent_iff.2 exDB_inv, ?_, ?_⟩
  · rintro (e | hd)
    · cases e
    · rw [forest_eq exDB_inv.inv] at hd
      have := (desc_PF (a := ⟨3, [[65], [66]], []⟩) (d := ⟨5, [[66]], []⟩) exDB_inv.inv (by decide) (by decide)).1 hd
      revert this
      decide
  · decide +kernel

/-- the same for a branch that becomes the last root, when the labels of the other roots are the first letters of the alphabet and one is left -/
theorem C86_lt_root_partial (h : Consistent db) (ho : cfg.ordered = false) {x : Row} (hx : x ∈ db.rows) 
    (hfl : FirstLetters (delete db (fun r => r.pk == x.pk)) none) (hsmall : (forest (delete db (fun r => r.pk == x.pk)) none).length < 26) (keys : Nat → Nat) :
    ∃ db' added, cutPaste cfg db x none keys = .ok (db', added) ∧ Consistent db' ∧ forest db' = (forest db).move x.pk none .last ∧ (data db'.rows).Perm (data db.rows) := by
  have hF := isForestOn h
  have hkn : ((data db.rows).map Prod.fst).Nodup := by rw [keys_eq]; exact h.pks
  have hkx : x.pk ∈ (data db.rows).map Prod.fst := by rw [keys_eq]; exact List.mem_map_of_mem hx
  obtain ⟨d, ed, hd⟩ := C19_lt_dump h (parent := some x) (by rintro p ⟨⟩; exact hx) true
  obtain ⟨D, h1, h2, h3, h4'⟩ := C37_delete h (fun k => k == x.pk)
  have h4 : data (delete db (fun r => r.pk == x.pk)).rows = (data db.rows).filter (fun e => !D e.1) := by
    unfold data
    rw [h4', List.filter_map]
    rfl
  rw [← keys_eq] at h1
  obtain ⟨n, en, hnd, htops, hlab, hG⟩ := cut_grafted hF hkx hd h1 (p := none) (fun q e => by cases e) keys
  have hkeys : (delete db (fun r => r.pk == x.pk)).rows.map Row.pk = ((data db.rows).map Prod.fst).filter (fun k => !D k) := by
    rw [← keys_eq, h4, keys_filter]
  rw [← h3] at hG
  obtain ⟨db', el, hc', hf', hd'⟩ := C19_lt_load_partial (cfg := cfg) h2 (parent := none) (fun _ e => by cases e) hnd
    (by
      rintro k hk r hr rfl
      have : r.pk ∈ (delete db (fun r => r.pk == x.pk)).rows.map Row.pk := List.mem_map_of_mem hr
      rw [hkeys, List.mem_filter] at this
      rw [(hlab _).1 hk] at this
      exact absurd this.2 (by simp))
    (V := valsIn (data db.rows))
    (by
      intro r hr
      have : (r.pk, r.vals) ∈ data (delete db (fun r => r.pk == x.pk)).rows := List.mem_map_of_mem (f := fun r : Row => (r.pk, r.vals)) hr
      rw [h4] at this
      exact valsIn_mem hkn (List.mem_filter.1 this).1)
    (T := (forest db).move x.pk none .last) hG (fun hc => by rw [ho] at hc; cases hc) hfl (by
      rintro p (rfl | hc) _
      · rw [hG.tops, List.length_append, htops, List.length_singleton]; omega
      · rw [ho] at hc; cases hc)
  refine ⟨db', n.labels, ?_, hc', hf', ?_⟩
  · unfold cutPaste
    rw [ed]
    dsimp only
    rw [show fetchParent (delete db (fun r => r.pk == x.pk)).get? none = .ok none from rfl]
    dsimp only
    rw [en]
    exact el
  · rw [hd', h4]
    exact cut_data hkn (fun e he => valsIn_mem hkn he) hnd hlab (fun k hk => ((h1 k).1 ((hlab k).1 hk)).1)

/-- the branch of 3 becomes the last root -/
example : FirstLetters (delete exDB (fun r => r.pk == 3)) none ∧ (forest (delete exDB (fun r => r.pk == 3)) none).length < 26 ∧
    (cutPaste ⟨[]⟩ exDB ⟨3, [[65], [66]], []⟩ none id).toOption.map (fun a => (a.2, forest a.1 none)) = some ([3, 4], [1, 5, 3]) := by
  refine ⟨?_, by decide, by decide +kernel⟩
  have : forest (delete exDB (fun r => r.pk == 3)) none = [1, 5] := by decide +kernel
  intro i r hr e
  rw [this] at e
  have hr' : r ∈ ([⟨5, [[66]], []⟩, ⟨1, [[65]], []⟩, ⟨2, [[65], [65]], []⟩] : List Row) := hr
  match i with
  | 0 => revert r; decide
  | 1 => revert r; decide
  | i + 2 => cases e

/-- **A root is not the last one** (violation): the roots have the labels A and C.  The first one, cut out and loaded again as a root, gets the label A again and is the first root, not the last. -/
theorem C86_lt_root_fails : Consistent exGap ∧ forest exGap none = [1, 2] ∧
    (cutPaste ⟨[]⟩ exGap ⟨1, [[65]], []⟩ none id).toOption.map (fun a => (a.2, forest a.1 none)) = some ([1], [1, 2]) ∧ (forest exGap).move 1 none .last none = [2, 1] :=
  ⟨consistent_iff.2 (inv_of_check (by decide)), by decide, by decide +kernel, by decide⟩

end LT

namespace MP

variable {cfg : Cfg} {db : DB}

/-- **C86 for MP** (partial: see `C86_mp_fails`): if there is a position after the last child of the new parent and the new paths fit in the column. -/
theorem C86_mp_partial (hok : cfg.Ok) (h : Consistent cfg db) (ho : cfg.ordered = false) {x : Row} (hx : x ∈ db.rows) {parent : Option Nat}
    (hp : ∀ q, parent = some q → q ∈ db.rows.map Row.pk ∧ ¬ (forest cfg db).Branch x.pk q) (keys : Nat → Nat)
    (hroom : ∀ p : Option Row, p.map Row.pk = parent → (∀ r, p = some r → r ∈ (delete cfg db (fun r => r.pk == x.pk)).rows) →
      RoomAfter cfg (delete cfg db (fun r => r.pk == x.pk)).rows ((p.map Row.path).getD []) 1)
    (hdeep : ∀ k, (forest cfg db).Branch x.pk k → ∀ l, ((forest cfg db).move x.pk parent .last).Level k l → l = 1 ∨ l * cfg.steplen ≤ cfg.maxLen) :
    ∃ db' added, cutPaste cfg db x parent keys = .ok (db', added) ∧ Consistent cfg db' ∧ forest cfg db' = (forest cfg db).move x.pk parent .last ∧ (data db'.rows).Perm (data db.rows) := by
  have hi := (consistent_iff hok).1 h
  have hpks : ∀ rows : List Row, (data rows).map Prod.fst = rows.map Row.pk := fun rows => by simp [data, Function.comp_def]
  have hF : (forest cfg db).IsForestOn ((data db.rows).map Prod.fst) := by rw [hpks]; exact isForestOn_forest hok h
  have hkn : ((data db.rows).map Prod.fst).Nodup := by rw [hpks]; exact h.pks
  have hkx : x.pk ∈ (data db.rows).map Prod.fst := by rw [hpks]; exact List.mem_map_of_mem hx
  obtain ⟨d, ed, hd⟩ := C19_mp_dump hok h (parent := some x) (by rintro p ⟨⟩; exact hx) true
  obtain ⟨D, h1, h2, h3, h4⟩ := C09_delete hok h (fun k => k == x.pk)
  rw [← hpks] at h1
  obtain ⟨n, en, hnd, htops, hlab, hG⟩ := cut_grafted hF hkx hd h1 (p := parent) (fun q e => (hp q e).2) keys
  have hkeys : (delete cfg db (fun r => r.pk == x.pk)).rows.map Row.pk = ((data db.rows).map Prod.fst).filter (fun k => !D k) := by
    rw [← hpks, h4, keys_filter]
  obtain ⟨p, ef, hpk, hpm⟩ := fetchParent_ok (pk := Row.pk) (rows := (delete cfg db (fun r => r.pk == x.pk)).rows) (parent := parent) (by
    intro q e
    rw [hkeys, List.mem_filter, hpks]
    refine ⟨(hp q e).1, ?_⟩
    rw [Bool.not_eq_true', ← Bool.not_eq_true, goes_branch hF hkx h1]
    exact (hp q e).2)
  rw [← h3] at hG
  have hvals : ∀ e ∈ data db.rows, valsOf db e.1 = e.2 := by
    intro e he
    obtain ⟨r, hr, rfl⟩ := List.mem_map.1 he
    exact valsOf_row hi.inv hr
  obtain ⟨db', el, hc', hf', hd'⟩ := C19_mp_load (cfg := cfg) hok h2 (parent := p) hpm hnd
    (by
      rintro k hk r hr rfl
      have : r.pk ∈ (delete cfg db (fun r => r.pk == x.pk)).rows.map Row.pk := List.mem_map_of_mem hr
      rw [hkeys, List.mem_filter] at this
      rw [(hlab _).1 hk] at this
      exact absurd this.2 (by simp))
    (V := valsOf db)
    (by
      intro r hr
      have : (r.pk, r.vals) ∈ data (delete cfg db (fun r => r.pk == x.pk)).rows := List.mem_map_of_mem (f := fun r : Row => (r.pk, r.vals)) hr
      rw [h4] at this
      exact hvals _ (List.mem_filter.1 this).1)
    (T := (forest cfg db).move x.pk parent .last) (by rw [hpk]; exact hG)
    (by rw [htops]; exact hroom p hpk hpm)
    (by
      intro k hk
      have hb := (goes_branch hF hkx h1 k).1 ((hlab k).1 hk)
      have : (forest cfg db).move x.pk parent .last (some k) = (forest cfg db).remove x.pk (some k) := by
        unfold Forest.move Forest.put
        rw [if_neg (fun e => (hp k e.symm).2 hb)]
      rw [this]
      refine Nat.lt_of_le_of_lt (List.length_filter_le _ _) ?_
      rw [forest_eq hi hok]
      exact PF_length_lt hok hi.toPInv _)
    (by
      intro k hk l hl
      exact hdeep k ((goes_branch hF hkx h1 k).1 ((hlab k).1 hk)) l hl)
    (fun e => by rw [ho] at e; cases e)
  refine ⟨db', n.labels, ?_, hc', hf', ?_⟩
  · unfold cutPaste
    rw [ed]
    dsimp only
    rw [show fetchParent (delete cfg db (fun r => r.pk == x.pk)).get? parent = .ok p from ef]
    dsimp only
    rw [en]
    exact el
  · rw [hd', h4]
    exact cut_data hkn hvals hnd hlab (fun k hk => ((h1 k).1 ((hlab k).1 hk)).1)

/-- the branch of 3 goes below 5, and becomes a root -/
example : Consistent exCfg loopDB ∧ ¬ (forest exCfg loopDB).Branch 3 5 ∧ ((cutPaste exCfg loopDB ⟨3, [49, 50], 2, 1, []⟩ (some 5) id).toOption.map (fun a => (forest exCfg a.1 (some 5), forest exCfg a.1 (some 3), forest exCfg a.1 (some 1)))) = some ([3], [4], [2, 6]) ∧
    ((cutPaste exCfg loopDB ⟨3, [49, 50], 2, 1, []⟩ none id).toOption.map (fun a => (a.2, forest exCfg a.1 none))) = some ([3, 4], [1, 5, 3]) := by
  refine ⟨loopDB_consistent, ?_, ?_, ?_⟩
  · rintro (e | hd)
    · cases e
    · have := (loopDB_desc (a := ⟨3, [49, 50], 2, 1, []⟩) (b := ⟨5, [50], 1, 0, []⟩) (by decide) (by decide)).1 hd
      revert this
      decide
  all_goals decide +kernel

/-- **No position after the last one** (violation): the only root has the last position.  Its child, cut out, is not loaded as a root, though eight positions are free; unless the caller has
opened a transaction around both calls it is lost, for it was deleted before. -/
theorem C86_mp_fails : ∃ db : DB, Consistent exCfg db ∧ forest exCfg db none = [1] ∧ forest exCfg db (some 1) = [2] ∧
    cutPaste exCfg db ⟨2, [57, 49], 2, 0, []⟩ none id = .error .pathOverflow ∧ (delete exCfg db (fun r => r.pk == 2)).rows.map Row.pk = [1] := by
  refine ⟨{ rows := [⟨1, [57], 1, 1, []⟩, ⟨2, [57, 49], 2, 0, []⟩] }, ?_, by decide +kernel, by decide +kernel, by decide +kernel, by decide +kernel⟩
  exact ⟨by decide, by decide, by intro p; cases p <;> decide, by decide, by decide⟩

end MP

end Verif
