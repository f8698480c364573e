/-
C101: deleting a node takes the same away, wherever the node was moved before.
-/
import Verif.Props.Wander

namespace Verif

namespace Forest

variable {F G : Forest} {x : Nat} {S : Nat → Bool}

theorem doomed_imp (hmem : ∀ p k, k ≠ x → k ∈ F p → k ∈ G p) (hx : S x = true) {k : Nat} (h : Tree.Doomed F S k) : Tree.Doomed G S k := by
  rcases h with h | ⟨q, hq, h⟩
  · exact Or.inl h
  induction h with
  | @child d h =>
    by_cases hd : d = x
    · exact Or.inl (hd ▸ hx)
    · exact Or.inr ⟨q, hq, .child (hmem _ _ hd h)⟩
  | @step m d _ h ih =>
    by_cases hd : d = x
    · exact Or.inl (hd ▸ hx)
    · rcases ih with ih | ⟨q', hq', ih⟩
      · exact Or.inr ⟨m, ih, .child (hmem _ _ hd h)⟩
      · exact Or.inr ⟨q', hq', .step ih (hmem _ _ hd h)⟩

theorem mem_of_remove (hg : G.remove x = F.remove x) {p : Option Nat} {k : Nat} (hk : k ≠ x) (h : k ∈ F p) : k ∈ G p := by
  have : k ∈ F.remove x p := List.mem_filter.2 ⟨h, by simpa using hk⟩
  rw [← hg] at this
  exact (List.mem_filter.1 this).1

/-- what goes is the same -/
theorem doomed_of_remove (hg : G.remove x = F.remove x) (hx : S x = true) {k : Nat} : Tree.Doomed G S k ↔ Tree.Doomed F S k :=
  ⟨doomed_imp (fun _ _ hk h => mem_of_remove hg.symm hk h) hx, doomed_imp (fun _ _ hk h => mem_of_remove hg hk h) hx⟩

/-- and what stays -/
theorem prune_of_remove (hg : G.remove x = F.remove x) {D : Nat → Bool} (hx : D x = true) : G.prune D = F.prune D := by
  have key : ∀ p, (G p).filter (fun y => !D y) = (F p).filter (fun y => !D y) := by
    intro p
    have h : ∀ H : Forest, (H p).filter (fun y => !D y) = (H.remove x p).filter (fun y => !D y) := by
      intro H
      unfold remove
      rw [List.filter_filter]
      refine List.filter_congr fun y _ => ?_
      by_cases hy : y = x
      · subst hy; simp [hx]
      · simp [hy]
    rw [h G, h F, hg]
  funext p
  cases p with
  | none => exact key none
  | some q =>
    show (if D q then [] else (G (some q)).filter (fun y => !D y)) = if D q then [] else (F (some q)).filter (fun y => !D y)
    rw [key]

/-- both for tables with the same keys -/
theorem same_deletion {ids ids' : List Nat} (hids : ids' = ids) (hg : G.remove x = F.remove x) (hx : S x = true) (hxi : x ∈ ids) {D D' : Nat → Bool}
    (hD : ∀ k, D k = true ↔ k ∈ ids ∧ Tree.Doomed F S k) (hD' : ∀ k, D' k = true ↔ k ∈ ids' ∧ Tree.Doomed G S k) : D' = D ∧ G.prune D' = F.prune D := by
  have e : D' = D := by
    funext k
    rw [Bool.eq_iff_iff, hD, hD', hids, doomed_of_remove hg hx]
  exact ⟨e, by rw [e]; exact prune_of_remove hg ((hD x).2 ⟨hxi, Or.inl hx⟩)⟩

end Forest

namespace NS

variable {cfg : Cfg} {db : DB}

/-- deleting after moves that left the rest as it was -/
theorem deletion_of_roamed (h : Consistent db) {x : Row} (hx : x ∈ db.rows) {db' : DB} {x' : Row} (hR : Roamed db x db' x') {S : Nat → Bool} (hS : S x.pk = true) :
    Consistent (delete db' (fun r => S r.pk)) ∧ forest (delete db' (fun r => S r.pk)) = forest (delete db (fun r => S r.pk)) ∧
      data (delete db' (fun r => S r.pk)).rows = data (delete db (fun r => S r.pk)).rows := by
  obtain ⟨D, hD, -, hf, hd⟩ := C24_delete h S
  obtain ⟨D', hD', hc, hf', hd'⟩ := C24_delete hR.consistent S
  have hids : db'.rows.map Row.pk = db.rows.map Row.pk := by rw [← keys_eq, ← keys_eq, hR.data]
  obtain ⟨e, e'⟩ := Forest.same_deletion hids hR.rest hS (List.mem_map_of_mem hx) hD hD'
  exact ⟨hc, by rw [hf', hf, e'], by rw [hd', hd, e, hR.data]⟩

/-- **C101 for NS, unsorted**: `S` chooses the nodes that are deleted, `x` among them. -/
theorem C101_ns (h : Consistent db) (ho : cfg.ordered = false) {x : Row} (hx : x ∈ db.rows) {l : List (Nat × Option Pos)} {db' : DB} {x' : Row}
    (e : wander cfg l db x = .ok (db', x')) {S : Nat → Bool} (hS : S x.pk = true) :
    Consistent (delete db' (fun r => S r.pk)) ∧ forest (delete db' (fun r => S r.pk)) = forest (delete db (fun r => S r.pk)) ∧
      data (delete db' (fun r => S r.pk)).rows = data (delete db (fun r => S r.pk)).rows :=
  deletion_of_roamed h hx (wander_roamed h ho hx e) hS

/-- **C101 for NS, sorted.** -/
theorem C101_ns_sorted (h : Consistent db) (ho : cfg.ordered = true) {x : Row} (hx : x ∈ db.rows) (hnn : ∀ e ∈ data db.rows, NonNull cfg.orderBy e.2)
    (hs : ((forest db).remove x.pk).SortedBy cfg.orderBy (valsIn (data db.rows))) {l : List (Nat × Option Pos)} {db' : DB} {x' : Row}
    (e : wander cfg l db x = .ok (db', x')) {S : Nat → Bool} (hS : S x.pk = true) :
    Consistent (delete db' (fun r => S r.pk)) ∧ forest (delete db' (fun r => S r.pk)) = forest (delete db (fun r => S r.pk)) ∧
      data (delete db' (fun r => S r.pk)).rows = data (delete db (fun r => S r.pk)).rows :=
  deletion_of_roamed h hx (wander_roamed_sorted h ho hx hnn hs e) hS

/-- 3 goes below 2 and is deleted, with 4 and 5 -/
example : Consistent loopDB ∧ ((wander ⟨[]⟩ [(2, some .firstChild)] loopDB ⟨3, 1, 6, 11, 2, []⟩).toOption.map (fun a =>
      let b := delete a.1 (fun r => [3].contains r.pk); (forest b none, forest b (some 1), forest b (some 2), forest b (some 3)))) = some ([1], [2, 6], [7], []) ∧
    (let b := delete loopDB (fun r => [3].contains r.pk); (forest b none, forest b (some 1), forest b (some 2), forest b (some 3))) = ([1], [2, 6], [7], []) :=
  ⟨loopDB_inv, by decide +kernel, by decide +kernel⟩

end NS

namespace AL

variable {cfg : Cfg} {db : DB}

/-- **C101 for AL, unsorted.** -/
theorem C101_al (h : Consistent cfg db) (ho : cfg.ordered = false) {x : Row} (hx : x ∈ db.rows) {l : List (Nat × Option Pos)} {db' : DB} {x' : Row}
    (e : wander cfg l db x = .ok (db', x')) {S : Nat → Bool} (hS : S x.pk = true) :
    Consistent cfg (delete db' (fun r => S r.pk)) ∧ forest cfg (delete db' (fun r => S r.pk)) = forest cfg (delete db (fun r => S r.pk)) ∧
      data (delete db' (fun r => S r.pk)).rows = data (delete db (fun r => S r.pk)).rows := by
  have hR := wander_roamed h ho hx e
  obtain ⟨D, hD, -, hf, hd⟩ := C31_delete ho h S
  obtain ⟨D', hD', hc, hf', hd'⟩ := C31_delete ho hR.consistent S
  have hids : db'.rows.map Row.pk = db.rows.map Row.pk := by rw [← keys_of_data, ← keys_of_data, hR.data]
  obtain ⟨e, e'⟩ := Forest.same_deletion hids hR.rest hS (List.mem_map_of_mem hx) hD hD'
  exact ⟨hc, by rw [hf', hf, e'], by rw [hd', hd, e, hR.data]⟩

/-- **C101 for AL, sorted**: the very same rows are stored. -/
theorem C101_al_sorted (h : Wf cfg db) (ho : cfg.ordered = true) {x : Row} (hx : x ∈ db.rows) {l : List (Nat × Option Pos)} {db' : DB} {x' : Row}
    (e : wander cfg l db x = .ok (db', x')) {S : Nat → Bool} (hS : S x.pk = true) :
    (delete db' (fun r => S r.pk)).rows = (delete db (fun r => S r.pk)).rows := by
  obtain ⟨hw, -, q, hxx, hrows⟩ := wander_sorted h ho hx e
  have hkx : x'.pk = x.pk := by rw [hxx]
  have hids : db'.rows.map Row.pk = db.rows.map Row.pk := by
    rw [hrows, List.map_map]
    refine List.map_congr_left fun r _ => ?_
    simp only [Function.comp_apply]
    split
    · rename_i hr; rw [hkx, hr]
    · rfl
  have hgone : gone db' (fun r => S r.pk) = gone db (fun r => S r.pk) := by
    funext k
    rw [Bool.eq_iff_iff, gone_iff (cfg := cfg) hw.ai S, gone_iff (cfg := cfg) h.ai S, hids, ← forest_eq hw.ai, ← forest_eq h.ai]
    have one : ∀ {a : DB} (_ : Wf cfg a) {p : Option Nat} {k : Nat}, k ∈ forest cfg a p → ∃ r ∈ a.rows, r.pk = k ∧ r.parent = p := by
      intro a ha p k hk
      have := (isForestOn (cfg := cfg) ha.ai).good.sub _ _ hk
      rw [keys_of_data] at this
      obtain ⟨r, hr, rfl⟩ := List.mem_map.1 this
      exact ⟨r, hr, rfl, (mem_forest ha.ai hr).1 hk⟩
    refine and_congr Iff.rfl ⟨Forest.doomed_imp ?_ hS, Forest.doomed_imp ?_ hS⟩
    · intro p k hk hm
      obtain ⟨r, hr, rfl, rfl⟩ := one hw hm
      have hr' : r ∈ db.rows := by
        rw [hrows] at hr
        obtain ⟨r0, h0, er⟩ := List.mem_map.1 hr
        split at er
        · exact absurd (er ▸ hkx) hk
        · exact er ▸ h0
      exact (mem_forest h.ai hr').2 rfl
    · intro p k hk hm
      obtain ⟨r, hr, rfl, rfl⟩ := one h hm
      exact (mem_forest hw.ai (by rw [hrows]; exact List.mem_map.2 ⟨r, hr, if_neg hk⟩)).2 rfl
  rw [delete_rows, delete_rows, hgone, hrows]
  have hgx : gone db (fun r => S r.pk) x.pk = true := (gone_iff (cfg := cfg) h.ai S).2 ⟨List.mem_map_of_mem hx, Or.inl hS⟩
  generalize db.rows = rows
  induction rows with
  | nil => rfl
  | cons r rows ih =>
    rw [List.map_cons, List.filter_cons, List.filter_cons, ih]
    by_cases hr : r.pk = x.pk
    · simp [hr, hkx, hgx]
    · simp [hr]

/-- 2 goes below 5 and is deleted -/
example : Wf exSorted exSDB ∧ ((wander exSorted [(5, some .sortedChild)] exSDB ⟨2, some 1, 0, [some 1]⟩).toOption.map (fun a => (delete a.1 (fun r => [2].contains r.pk)).rows)) =
    some (delete exSDB (fun r => [2].contains r.pk)).rows ∧ (delete exSDB (fun r => [2].contains r.pk)).rows.map Row.pk = [1, 3, 4, 5] :=
  ⟨wf_of_ai exSDB_inv.toAI, by decide +kernel, by decide +kernel⟩

example : Consistent exPlain exDB ∧ ((wander exPlain [(5, some .lastChild)] exDB ⟨3, some 1, 2, []⟩).toOption.map (fun a =>
      forest exPlain (delete a.1 (fun r => [3].contains r.pk)) (some 5))) = some (forest exPlain (delete exDB (fun r => [3].contains r.pk)) (some 5)) :=
  ⟨consistent_of_inv rfl exDB_inv, by decide +kernel⟩

end AL

namespace MP

variable {cfg : Cfg} {db : DB}

theorem deletion_of_roamed (hok : cfg.Ok) (h : Consistent cfg db) {x : Row} (hx : x ∈ db.rows) {db' : DB} {x' : Row} (hR : Roamed cfg db x db' x') {S : Nat → Bool} (hS : S x.pk = true) :
    Consistent cfg (delete cfg db' (fun r => S r.pk)) ∧ forest cfg (delete cfg db' (fun r => S r.pk)) = forest cfg (delete cfg db (fun r => S r.pk)) ∧
      data (delete cfg db' (fun r => S r.pk)).rows = data (delete cfg db (fun r => S r.pk)).rows := by
  obtain ⟨D, hD, -, hf, hd⟩ := C09_delete hok h S
  obtain ⟨D', hD', hc, hf', hd'⟩ := C09_delete hok hR.consistent S
  have hids : db'.rows.map Row.pk = db.rows.map Row.pk := by
    have := congrArg (List.map Prod.fst) hR.data
    simpa [MP.data, List.map_map, Function.comp_def] using this
  obtain ⟨e, e'⟩ := Forest.same_deletion hids hR.rest hS (List.mem_map_of_mem hx) hD hD'
  exact ⟨hc, by rw [hf', hf, e'], by rw [hd', hd, e, hR.data]⟩

/-- **C101 for MP, unsorted** (partial: while there is room for the moves, as in C100). -/
theorem C101_mp_partial (hok : cfg.Ok) (h : Consistent cfg db) (ho : cfg.ordered = false) {x : Row} (hx : x ∈ db.rows) {l : List (Nat × Option Pos)} {M : Nat}
    (hM : M + l.length + 2 < cfg.cap) (hroom : PosIn cfg M db) {db' : DB} {x' : Row} (e : wander cfg l db x = .ok (db', x')) {S : Nat → Bool} (hS : S x.pk = true) :
    Consistent cfg (delete cfg db' (fun r => S r.pk)) ∧ forest cfg (delete cfg db' (fun r => S r.pk)) = forest cfg (delete cfg db (fun r => S r.pk)) ∧
      data (delete cfg db' (fun r => S r.pk)).rows = data (delete cfg db (fun r => S r.pk)).rows :=
  deletion_of_roamed hok h hx (wander_roamed hok h ho hx (n := 0) hM hroom e).1 hS

/-- **C101 for MP, sorted.** -/
theorem C101_mp_sorted (hok : cfg.Ok) (h : Consistent cfg db) (ho : cfg.ordered = true) (hs : SortedTree cfg db) {x : Row} (hx : x ∈ db.rows) {l : List (Nat × Option Pos)}
    {db' : DB} {x' : Row} (e : wander cfg l db x = .ok (db', x')) {S : Nat → Bool} (hS : S x.pk = true) :
    Consistent cfg (delete cfg db' (fun r => S r.pk)) ∧ forest cfg (delete cfg db' (fun r => S r.pk)) = forest cfg (delete cfg db (fun r => S r.pk)) ∧
      data (delete cfg db' (fun r => S r.pk)).rows = data (delete cfg db (fun r => S r.pk)).rows :=
  deletion_of_roamed hok h hx (wander_roamed_sorted hok h ho hs hx e).1 hS

/-- 3 goes below 5 and is deleted, with 4 -/
example : Consistent exCfg exDB ∧ ((wander exCfg [(5, some .lastChild)] exDB ⟨3, [49, 51], 2, 1, []⟩).toOption.map (fun a =>
      (delete exCfg a.1 (fun r => [3].contains r.pk)).rows.map (fun r => (r.pk, r.numchild)))) = some [(1, 1), (5, 0), (2, 0)] ∧
    (delete exCfg exDB (fun r => [3].contains r.pk)).rows.map (fun r => (r.pk, r.numchild)) = [(1, 1), (5, 0), (2, 0)] :=
  ⟨exDB_consistent, by decide +kernel, by decide +kernel⟩

end MP

namespace LT

variable {cfg : Cfg} {db : DB}

/-- **C101 for LT** (partial: unsorted, all the moves to a last place; see `C101_lt_fails`). -/
theorem C101_lt_partial (h : Consistent db) (ho : cfg.ordered = false) {x : Row} (hx : x ∈ db.rows) {l : List (Nat × Option Pos)} (hl : ∀ e ∈ l, LastPlace e.2) {db' : DB} {x' : Row}
    (e : wander cfg l db x = .ok (db', x')) {S : Nat → Bool} (hS : S x.pk = true) :
    Consistent (delete db' (fun r => S r.pk)) ∧ forest (delete db' (fun r => S r.pk)) = forest (delete db (fun r => S r.pk)) ∧
      data (delete db' (fun r => S r.pk)).rows = data (delete db (fun r => S r.pk)).rows := by
  have hR := wander_roamed h ho hx hl e
  obtain ⟨D, hD, -, hf, hd⟩ := C37_delete h S
  obtain ⟨D', hD', hc, hf', hd'⟩ := C37_delete hR.consistent S
  have hids : db'.rows.map Row.pk = db.rows.map Row.pk := by rw [← keys_eq, ← keys_eq, hR.data]
  obtain ⟨e, e'⟩ := Forest.same_deletion hids hR.rest hS (List.mem_map_of_mem hx) hD hD'
  have hdata : ∀ rows : List Row, data (rows.filter (fun r => !D r.pk)) = (data rows).filter (fun e => !D e.1) := by
    intro rows
    unfold data
    rw [List.filter_map]
    rfl
  exact ⟨hc, by rw [hf', hf, e'], by rw [hd', hd, e, hdata, hdata, hR.data]⟩

/-- **The others are not left alone** (violation): the roots are 4, 1, 3, 2; 2 goes to the first place and is deleted; then they are 4, 3, 1. -/
theorem C101_lt_fails : ∃ db : DB, Consistent db ∧ ∃ x ∈ db.rows, x.pk = 2 ∧
    ∃ db' x', wander ⟨[]⟩ [(1, some .firstSibling)] db x = .ok (db', x') ∧ forest (delete db' (fun r => r.pk == 2)) none = [4, 3, 1] ∧ forest (delete db (fun r => r.pk == 2)) none = [4, 1, 3] := by
  refine ⟨⟨[⟨1, [[65]], []⟩, ⟨2, [[66]], []⟩, ⟨3, [[65, 48]], []⟩, ⟨4, [[48]], []⟩], []⟩, consistent_iff.2 (inv_of_check (by decide)), ⟨2, [[66]], []⟩, by decide, rfl,
    _, _, rfl, by decide +kernel, by decide +kernel⟩

/-- 3 goes below 5 and is deleted, with 4 -/
example : Consistent exDB ∧ ((wander ⟨[]⟩ [(5, some .lastChild)] exDB ⟨3, [[65], [66]], []⟩).toOption.map (fun a => (delete a.1 (fun r => [3].contains r.pk)).rows.map Row.pk)) = some [5, 1, 2] :=
  ⟨consistent_iff.2 exDB_inv, by decide +kernel⟩

end LT

end Verif
