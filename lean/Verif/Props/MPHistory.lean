/-
C04, and C41 for MP: whole histories on the materialized path backend.
-/
import Verif.MP.History

namespace Verif

open MP

variable {cfg : Cfg} {db : DB}

theorem sortedTree_delete (hok : cfg.Ok) (h : Consistent cfg db) (hs : SortedTree cfg db) (S : Nat → Bool) :
    SortedTree cfg (delete cfg db (fun r => S r.pk)) := by
  obtain ⟨D, hD, hc, hf, hd⟩ := C09_delete hok h S
  have hi := ((consistent_iff hok).1 hc).inv
  have hi0 := ((consistent_iff hok).1 h).inv
  refine ⟨?_, ?_⟩
  · rw [allNonNull_data, hd]
    intro e he
    exact (allNonNull_data db).1 hs.nonNull e (List.mem_of_mem_filter he)
  · have hv : ∀ p, ∀ k ∈ forest cfg (delete cfg db (fun r => S r.pk)) p, valsOf (delete cfg db (fun r => S r.pk)) k = valsOf db k := by
      intro p k hk
      have hk' : k ∈ (delete cfg db (fun r => S r.pk)).rows.map Row.pk := by
        rw [forest_eq ((consistent_iff hok).1 hc) hok, mem_PF ((consistent_iff hok).1 hc).toPInv] at hk
        obtain ⟨r, hr, _, rfl⟩ := hk
        exact List.mem_map_of_mem hr
      obtain ⟨r, hr, rfl⟩ := List.mem_map.1 hk'
      rw [valsOf_row hi hr]
      have : (r.pk, r.vals) ∈ data db.rows := by
        have : (r.pk, r.vals) ∈ data (delete cfg db (fun r => S r.pk)).rows := List.mem_map_of_mem (f := fun r : Row => (r.pk, r.vals)) hr
        rw [hd] at this
        exact List.mem_of_mem_filter this
      obtain ⟨r0, hr0, e⟩ := List.mem_map.1 this
      simp only [Prod.mk.injEq] at e
      rw [← e.1, valsOf_row hi0 hr0, e.2]
    intro p
    have h1 := SortedBy.prune hs.sorted D p
    rw [← hf] at h1
    exact h1.imp_of_mem (fun ha hb hab => by rw [hv p _ ha, hv p _ hb]; exact hab)

/-- One operation with `node_order_by` keeps the table consistent and sorted. -/
theorem step_sorted (hok : cfg.Ok) (ho : cfg.ordered = true) (h : Consistent cfg db) (hs : SortedTree cfg db) {op : Op}
    (hg : Guard cfg db op) : Consistent cfg (step cfg db op) ∧ SortedTree cfg (step cfg db op) := by
  cases op with
  | addRoot k v =>
    simp only [step, exec]
    cases e : db.get? k with
    | some r => exact ⟨h, hs⟩
    | none =>
      rcases C16_add_root hok h ho hs (fresh_of e (v := v)) (hg ho) with ⟨db', obj, e, ⟨_, hadd⟩, hst, _⟩ | ⟨e, _⟩
      · rw [e]; exact ⟨hadd.consistent, hst⟩
      · rw [e]; exact ⟨h, hs⟩
  | addChild t k v =>
    simp only [step, exec]
    cases e1 : db.get? t with
    | none => cases db.get? k <;> exact ⟨h, hs⟩
    | some target =>
      cases e : db.get? k with
      | some r => exact ⟨h, hs⟩
      | none =>
        obtain ⟨ht, _⟩ := row_of h hok e1
        rcases C16_add_child hok h ho hs ht rfl (fresh_of e (v := v)) (hg ho) with ⟨db', obj, t', e, ⟨_, hadd⟩, hst, _⟩ | ⟨e, _⟩
        · dsimp only; rw [e]; exact ⟨hadd.consistent, hst⟩
        · dsimp only; rw [e]; exact ⟨h, hs⟩
  | addSibling t pos k v =>
    simp only [step, exec]
    cases e1 : db.get? t with
    | none => cases db.get? k <;> exact ⟨h, hs⟩
    | some target =>
      cases e : db.get? k with
      | some r => exact ⟨h, hs⟩
      | none =>
        obtain ⟨ht, _⟩ := row_of h hok e1
        dsimp only
        cases hp : preparePosForAddSibling true pos with
        | error er =>
          have : addSibling cfg db target pos ⟨k, [], 0, 0, v⟩ = .error er := by
            unfold addSibling; rw [ho, hp]
          rw [this]; exact ⟨h, hs⟩
        | ok q =>
          obtain ⟨p, _, ⟨db', obj, e, ⟨_, hadd⟩, hst, _⟩ | ⟨e, _⟩⟩ :=
            C16_add_sibling hok h ho hs ht (prepAddSorted_arg hp).2 (fresh_of e (v := v)) (hg ho)
          · rw [e]; exact ⟨hadd.consistent, hst⟩
          · rw [e]; exact ⟨h, hs⟩
  | move x t pos =>
    simp only [step, exec]
    cases e1 : db.get? t with
    | none => cases db.get? x <;> exact ⟨h, hs⟩
    | some target =>
      cases e : db.get? x with
      | none => exact ⟨h, hs⟩
      | some node =>
        dsimp only
        obtain ⟨ht, htk⟩ := row_of h hok e1
        obtain ⟨hx, hxk⟩ := row_of h hok e
        cases hp : preparePosForMove true pos with
        | error er =>
          have : move cfg db node target pos = .error er := by
            unfold move; rw [ho, hp]
          rw [this]; exact ⟨h, hs⟩
        | ok q =>
          by_cases hr : (forest cfg db).MoveRefused node.pk target.pk q
          · rw [C08_mp hok h hx ht (by rw [ho]; exact hp) hr]
            exact ⟨h, hs⟩
          · obtain ⟨p, hmem, hmv⟩ := C16_move hok h ho hs hx ht hp hr
            rw [htk] at hmem
            rcases hmv with ⟨res, s, e, hm, hst, _⟩ | ⟨e, _⟩
            · rw [e]; exact ⟨hm.consistent, hst⟩
            · rw [e]; exact ⟨h, hs⟩
  | delete S =>
    exact ⟨(C09_delete hok h S.contains).choose_spec.2.1, sortedTree_delete hok h hs S.contains⟩

/-- consistency and, with `node_order_by`, sortedness are kept by every guarded operation -/
theorem HInv.step (hok : cfg.Ok) (h : HInv cfg db) {op : Op} (hg : Guard cfg db op) : HInv cfg (MP.step cfg db op) := by
  cases ho : cfg.ordered with
  | true =>
    obtain ⟨h1, h2⟩ := step_sorted hok ho h.consistent (h.sorted ho) hg
    exact ⟨h1, fun _ => h2⟩
  | false =>
    refine ⟨(step_sim hok ho h.consistent hg (s := ⟨db.rows.map Row.pk, forest cfg db⟩) ⟨rfl, fun _ => Iff.rfl⟩).1, ?_⟩
    intro e; rw [ho] at e; cases e

theorem HInv.run (hok : cfg.Ok) : ∀ {ops : List Op} {db : DB}, HInv cfg db → Guarded cfg db ops → HInv cfg (runOps cfg db ops) := by
  intro ops
  induction ops with
  | nil => intro db h _; exact h
  | cons op ops ih => intro db h hg; exact ih (HInv.step hok h hg.1) hg.2

theorem HInv.empty (cfg : Cfg) : HInv cfg { rows := [] } := by
  refine ⟨⟨by simp, by simp, ?_, by simp, by simp⟩, fun _ => ⟨(by intro r hr; cases hr), ?_⟩⟩
  · intro p; cases p <;> rfl
  · intro p
    cases p with
    | none => exact List.Pairwise.nil
    | some k => exact List.Pairwise.nil

/-! ### C04 -/

/-- **C04** (partial).  From the empty table, after every history of operations on freshly fetched nodes — calls that
raise included —, `find_problems()` returns five empty lists, no two nodes share a path, and every path longer than
one step has its parent path in the table; with `node_order_by` every group of siblings is sorted as well.

Missing for the full statement: the guard `Guarded`.  Without `node_order_by` it asks that a move to the left within a group
of siblings finds two free positions after the last one (without it the code corrupts the table, `C12_move_corrupts`).  With
`node_order_by` it asks only that no order field of a new node is null (with nulls the sorted place is not well defined). -/
theorem C04_history_partial (hok : cfg.Ok) {ops : List Op} (hg : Guarded cfg { rows := [] } ops) {db : DB}
    (hdb : db = runOps cfg { rows := [] } ops) :
    (∀ p, findProblems cfg db none p = []) ∧ (db.rows.map Row.path).Nodup ∧ (db.rows.map Row.pk).Nodup ∧
    (∀ r ∈ db.rows, cfg.steplen < r.path.length → ∃ q ∈ db.rows, q.path = r.path.take (r.path.length - cfg.steplen)) ∧
    (cfg.ordered = true → (forest cfg db).SortedBy cfg.orderBy (valsOf db)) := by
  subst hdb
  have h := HInv.run hok (HInv.empty cfg) hg
  refine ⟨h.consistent.problems, h.consistent.paths, h.consistent.pks, ?_, fun ho => (h.sorted ho).sorted⟩
  intro r hr hl
  exact ((consistent_iff hok).1 h.consistent).inv.closed r hr hl

/-- a history with additions, a move, a refused move, an addition below a missing node, and a deletion -/
def exOps : List Op := [.addRoot 1 [], .addChild 1 2 [], .addSibling 2 (some .left) 3 [], .addRoot 4 [], .addChild 9 5 [],
  .addChild 3 5 [], .move 4 2 (some .firstChild), .move 1 5 (some .left), .delete [3]]

theorem guard_trivial (hx : ∀ p pos', t ∈ forest cfg db p → preparePosForMove false pos = .ok pos' → x ∉ forest cfg db (pos'.dest p t)) :
    Guard cfg db (.move x t pos) := fun _ p pos' h1 h2 _ h3 => absurd h3 (hx p pos' h1 h2)

theorem exOps_guarded : Guarded exCfg { rows := [] } exOps := by
  have ho : exCfg.ordered = false := rfl
  refine ⟨fun h => by simp [ho] at h, fun h => by simp [ho] at h, fun h => by simp [ho] at h, fun h => by simp [ho] at h,
    fun h => by simp [ho] at h, fun h => by simp [ho] at h, guard_trivial ?_, guard_trivial ?_, trivial, trivial⟩
  · intro p pos' _ hp
    obtain rfl : pos' = .firstChild := by
      have : preparePosForMove false (some .firstChild) = .ok .firstChild := rfl
      rw [this] at hp; cases hp; rfl
    show 4 ∉ forest exCfg _ (some 2)
    decide
  · intro p pos' ht hp
    obtain rfl : pos' = .left := by
      have : preparePosForMove false (some .left) = .ok .left := rfl
      rw [this] at hp; cases hp; rfl
    have h1 : forest exCfg (step exCfg (step exCfg (step exCfg (step exCfg (step exCfg (step exCfg (step exCfg { rows := [] } (.addRoot 1 []))
      (.addChild 1 2 [])) (.addSibling 2 (some .left) 3 [])) (.addRoot 4 [])) (.addChild 9 5 [])) (.addChild 3 5 [])) (.move 4 2 (some .firstChild))) none = [1] := by decide
    intro h
    cases p with
    | none => rw [h1] at ht; simp at ht
    | some q =>
      revert ht h
      simp only [Pos.dest, Pos.isChild]
      intro ht h
      exact absurd (parent_unique exCfg_ok (p := none) (q := some q) ⟨by decide, by decide, by intro p; cases p <;> decide, by decide, by decide⟩ (by rw [h1]; simp) h) (by simp)

example : Guarded exCfg { rows := [] } exOps ∧ Roomy exCfg { rows := [] } exOps ∧
    (runOps exCfg { rows := [] } exOps).rows.map (fun r => (r.pk, r.path, r.numchild)) = [(1, [49], 1), (2, [49, 50], 1), (4, [49, 50, 49], 0)] :=
  ⟨exOps_guarded, by simp only [Roomy, exOps]; decide, by decide⟩

/-! ### C41 for MP -/

/-- **C41 for MP** (without `node_order_by`): a history that meets its guards and does not run out of positions gives
the forest and the nodes that the specification `Tree.run` gives. -/
theorem C41_mp (hok : cfg.Ok) (ho : cfg.ordered = false) {ops : List Op} (hg : Guarded cfg { rows := [] } ops)
    (hr : Roomy cfg { rows := [] } ops) : Abs cfg (runOps cfg { rows := [] } ops) (Tree.run Tree.empty ops) := by
  suffices ∀ (db : DB) (s : Tree), Consistent cfg db → Abs cfg db s → Guarded cfg db ops → Roomy cfg db ops →
      Abs cfg (runOps cfg db ops) (s.run ops) from
    this _ _ (HInv.empty cfg).consistent ⟨by funext p; cases p <;> rfl, by simp [Tree.empty]⟩ hg hr
  clear hg hr
  induction ops with
  | nil => intro db s _ ha _ _; exact ha
  | cons op ops ih =>
    intro db s h ha hg hr
    obtain ⟨h1, h2 | ⟨h2, _⟩⟩ := step_sim hok ho h hg.1 ha
    · exact ih _ _ h1 h2 hg.2 hr.2
    · exact absurd h2 hr.1

end Verif
