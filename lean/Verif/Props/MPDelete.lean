/-
C09 and C18: `delete` of the materialized path backend.
-/
import Verif.Props.MPAdd
import Verif.MP.Delete

namespace Verif

open MP

variable {cfg : Cfg} {db : DB}

/-! ### C09 -/

/-- only stored nodes have descendants -/
theorem desc_stored (h : PInv cfg db.rows) {a d : Nat} (hd : (PF cfg db.rows).Desc a d) : ∃ q ∈ db.rows, q.pk = a := by
  induction hd with
  | child hm =>
    obtain ⟨r, hr, hp, _⟩ := (mem_PF h).1 hm
    obtain ⟨q, hq, e⟩ := Option.map_eq_some_iff.1 hp
    exact ⟨q, List.mem_of_find?_eq_some hq, e⟩
  | step _ _ ih => exact ih

theorem doomed_spec (hok : cfg.Ok) (h : Inv cfg db.rows) (S : Nat → Bool) (k : Nat) :
    doomedPk db.rows (fun r => S r.pk) k = true ↔ k ∈ db.rows.map Row.pk ∧ Tree.Doomed (forest cfg db) S k := by
  have hstep : 0 < cfg.steplen := by have := hok.step; omega
  rw [doomedPk_iff, forest_eq h hok]
  unfold Tree.Doomed
  constructor
  · rintro ⟨r, hr, rfl, hd⟩
    obtain ⟨q, hq, hs, hp⟩ := doomed_iff.1 hd
    refine ⟨List.mem_map_of_mem hr, ?_⟩
    by_cases e : q = r
    · subst e; exact Or.inl hs
    · exact Or.inr ⟨q.pk, hs, (desc_PF h.toPInv hok hq hr).2 ⟨hp, e⟩⟩
  · rintro ⟨hk, hS⟩
    obtain ⟨r, hr, rfl⟩ := List.mem_map.1 hk
    refine ⟨r, hr, rfl, doomed_iff.2 ?_⟩
    rcases hS with hS | ⟨k', hS, hd⟩
    · exact ⟨r, hr, hS, List.prefix_refl _⟩
    · obtain ⟨q, hq, rfl⟩ := desc_stored h.toPInv hd
      exact ⟨q, hq, hS, ((desc_PF h.toPInv hok hq hr).1 hd).1⟩

/-- **C09.** For every consistent tree and every set `S` of nodes — overlapping or not — `delete` leaves a consistent
tree (so every children count is right), whose forest is the old one without the doomed nodes and whose data
are the old ones without those of the doomed nodes. -/
theorem C09_delete (hok : cfg.Ok) (h : Consistent cfg db) (S : Nat → Bool) :
    ∃ D : Nat → Bool, (∀ k, D k = true ↔ k ∈ db.rows.map Row.pk ∧ Tree.Doomed (forest cfg db) S k) ∧
      Consistent cfg (delete cfg db (fun r => S r.pk)) ∧
      forest cfg (delete cfg db (fun r => S r.pk)) = (forest cfg db).prune D ∧
      data (delete cfg db (fun r => S r.pk)).rows = (data db.rows).filter (fun e => !D e.1) := by
  have h := (consistent_iff hok).1 h
  obtain ⟨h1, h2, h3⟩ := delete_spec hok h (fun r => S r.pk)
  refine ⟨doomedPk db.rows (fun r => S r.pk), doomed_spec hok h S, (consistent_iff hok).2 h1, ?_, ?_⟩
  · rw [forest_eq h1 hok, forest_eq h hok]; exact h2
  · rw [h3]
    unfold data
    rw [List.filter_map]
    congr 1
    apply List.filter_congr
    intro r hr
    simp only [Function.comp]
    rw [doomedPk_pk h.toPInv _ hr]

/-- ancestor and descendant both chosen -/
example : Consistent exCfg exDB ∧ forest exCfg (delete exCfg exDB (fun r => [3, 4, 5].contains r.pk)) none = [1] ∧
    forest exCfg (delete exCfg exDB (fun r => [3, 4, 5].contains r.pk)) (some 1) = [2] ∧
    (delete exCfg exDB (fun r => [3, 4, 5].contains r.pk)).rows = [⟨1, [49], 1, 1, []⟩, ⟨2, [49, 49], 2, 0, []⟩] :=
  ⟨exDB_consistent, by decide, by decide, by decide⟩

/-! ### C18 -/

/-- The table when the process dies after `k` statements of `delete` (in autocommit mode every statement is
committed at once, mp_tree.py:32-86 opens no transaction). -/
def crashed (cfg : Cfg) (db : DB) (sel : Row → Bool) (k : Nat) : DB :=
  ((deleteStmts cfg db sel).take k).foldl execDel db

/-- what cannot be wrong after a crash: keys, paths, depths, values -/
def skeleton (rows : List Row) : List (Nat × List Nat × Nat × Vals) := rows.map (fun r => (r.pk, r.path, r.depth, r.vals))

theorem fixTree_onlyNum (hok : cfg.Ok) (h : Inv cfg db.rows) {db' : DB} {g : Row → Row} (og : OnlyNum g)
    (e : db'.rows = db.rows.map g) : (fixTree cfg db' none).rows = db.rows := by
  have hs : 0 < cfg.steplen := by have := hok.step; omega
  have hp : PInv cfg db'.rows := e ▸ og.pinv h.toPInv
  have hfix := fixTree_inv hok hp.pathsOk
  have hdep : ∀ r ∈ db.rows, (fixedRow cfg db'.rows (g r)).depth = r.depth := by
    intro r hr
    simp only [fixedRow]
    rw [og.path, h.depth r hr, Nat.mul_div_cancel _ hs]
  have hfe : PF cfg (fixTree cfg db' none).rows = PF cfg db.rows := by
    have e2 : (fixTree cfg db' none).rows = db.rows.map (fun r => fixedRow cfg db'.rows (g r)) := by
      rw [fixTree_rows]; simp only [inBranch, if_true]
      generalize hR : db'.rows = R
      conv => lhs; arg 2; rw [← hR, e]
      rw [List.map_map]; rfl
    rw [e2]
    exact PF_map_path h.toPInv (fun r _ => og.pk r) (fun r _ => og.path r) hdep
  rw [fixTree_rows] at hfix hfe ⊢
  simp only [inBranch, if_true] at hfix hfe ⊢
  have hall : ∀ r ∈ db.rows, fixedRow cfg db'.rows (g r) = r := by
    intro r hr
    have hm : fixedRow cfg db'.rows (g r) ∈ db'.rows.map (fixedRow cfg db'.rows) :=
      List.mem_map_of_mem (by rw [e]; exact List.mem_map_of_mem hr)
    have hn := hfix.num _ hm
    rw [hfe] at hn
    have hpk : (fixedRow cfg db'.rows (g r)).pk = r.pk := og.pk r
    rw [hpk, ← h.num r hr] at hn
    have h1 : (fixedRow cfg db'.rows (g r)).path = r.path := og.path r
    have h2 : (fixedRow cfg db'.rows (g r)).vals = r.vals := og.vals r
    have h3 := hdep r hr
    generalize fixedRow cfg db'.rows (g r) = q at *
    cases q; cases r; simp_all
  generalize hR : db'.rows = R at hall
  conv => lhs; arg 2; rw [← hR, e]
  rw [List.map_map]
  conv => rhs; rw [← List.map_id db.rows]
  exact List.map_congr_left (fun r hr => hall r hr)

/-- a deletion that selects nothing changes nothing -/
theorem delete_none {sel : Row → Bool} (h : ∀ r ∈ db.rows, sel r = false) : (delete cfg db sel).rows = db.rows := by
  have e : db.rows.filter sel = [] := by
    rw [List.filter_eq_nil_iff]; intro r hr; simp [h r hr]
  unfold delete deleteStmts
  rw [e]
  simp [orderByDepthPath, sortBy, removedLoop, deletePlan, execDel, delMatches]

theorem delete_rows_congr {db₁ db₂ : DB} (h : db₁.rows = db₂.rows) (sel : Row → Bool) :
    (delete cfg db₁ sel).rows = (delete cfg db₂ sel).rows := by
  have : ∀ (l : List DelStmt) (d₁ d₂ : DB), d₁.rows = d₂.rows → (l.foldl execDel d₁).rows = (l.foldl execDel d₂).rows := by
    intro l
    induction l with
    | nil => intro d₁ d₂ h; exact h
    | cons s l ih =>
      intro d₁ d₂ h
      refine ih _ _ ?_
      cases s <;> simp [execDel, h]
  unfold delete deleteStmts
  rw [h]
  exact this _ _ _ h

/-- **C18.** For every consistent tree, every set `S` and every crash point `k`: either the deletion was complete, or
keys, paths, depths and values are all as before the deletion (only children counts may be wrong); and `fix_tree()`
followed by the same `delete()` gives exactly the table that the uninterrupted `delete()` gives. -/
theorem C18_crash (hok : cfg.Ok) (h : Consistent cfg db) (S : Nat → Bool) (k : Nat) :
    (crashed cfg db (fun r => S r.pk) k = delete cfg db (fun r => S r.pk) ∨
      (skeleton (crashed cfg db (fun r => S r.pk) k).rows = skeleton db.rows ∧
       (fixTree cfg (crashed cfg db (fun r => S r.pk) k) none).rows = db.rows)) ∧
    (delete cfg (fixTree cfg (crashed cfg db (fun r => S r.pk) k) none) (fun r => S r.pk)).rows =
      (delete cfg db (fun r => S r.pk)).rows := by
  have h := (consistent_iff hok).1 h
  obtain ⟨E, R, -, hst, -⟩ := deleteStmts_eq cfg db (fun r => S r.pk)
  by_cases hk : E.length < k
  · have e : crashed cfg db (fun r => S r.pk) k = delete cfg db (fun r => S r.pk) := by
      unfold crashed delete
      rw [List.take_of_length_le]
      rw [hst]; simp; omega
    refine ⟨Or.inl e, ?_⟩
    rw [e]
    obtain ⟨h1, h2, h3⟩ := delete_spec hok h (fun r => S r.pk)
    have hfix : (fixTree cfg (delete cfg db (fun r => S r.pk)) none).rows = (delete cfg db (fun r => S r.pk)).rows :=
      fixTree_onlyNum hok h1 .id (by simp)
    rw [delete_rows_congr hfix, delete_none]
    intro r hr
    have hd : (r.pk, r.vals) ∈ data (delete cfg db (fun r => S r.pk)).rows := List.mem_map.2 ⟨r, hr, rfl⟩
    rw [h3] at hd
    obtain ⟨q, hq, e⟩ := List.mem_map.1 hd
    have hpk : q.pk = r.pk := congrArg Prod.fst e
    obtain ⟨hq1, hq2⟩ := List.mem_filter.1 hq
    rw [← hpk]
    by_contra hS
    rw [Bool.not_eq_false] at hS
    rw [Bool.not_eq_true', Bool.eq_false_iff] at hq2
    exact hq2 (doomed_iff.2 ⟨q, hq1, hS, List.prefix_refl _⟩)
  · obtain ⟨g, hg, og, -⟩ := exec_lose (E.take k) db
    have e : (crashed cfg db (fun r => S r.pk) k).rows = db.rows.map g := by
      unfold crashed
      rw [hst, List.take_append_of_le_length (by simp; omega), ← List.map_take, hg]
    have hfix := fixTree_onlyNum hok h og e
    refine ⟨Or.inr ⟨?_, hfix⟩, delete_rows_congr hfix _⟩
    rw [e]
    unfold skeleton
    rw [List.map_map]
    apply List.map_congr_left
    intro r _
    simp [og.pk, og.path, og.depth, og.vals]

/-- the only child 4 of node 3, and node 3 itself, chosen: the process dies after the first statement -/
example : (crashed exCfg exDB (fun r => r.pk == 4) 1).rows = [⟨4, [49, 51, 49], 3, 0, []⟩, ⟨1, [49], 1, 2, []⟩, ⟨5, [51], 1, 0, []⟩,
    ⟨2, [49, 49], 2, 0, []⟩, ⟨3, [49, 51], 2, 0, []⟩] ∧
    (delete exCfg (fixTree exCfg (crashed exCfg exDB (fun r => r.pk == 4) 1) none) (fun r => r.pk == 4)).rows =
      (delete exCfg exDB (fun r => r.pk == 4)).rows := by decide

/-- **`fix_tree` is really needed after a crash.** A deletion interrupted after its first statement, followed by the deletion of
the parent without `fix_tree`, leaves an orphan: node 3 already counts no children, so it is deleted by its key alone
(mp_tree.py:65-68) and its child 4 stays. -/
theorem C18_needs_fix_tree : Consistent exCfg exDB ∧
    (4 ∈ (delete exCfg (crashed exCfg exDB (fun r => r.pk == 4) 1) (fun r => r.pk == 3)).rows.map Row.pk) ∧
    findProblems exCfg (delete exCfg (crashed exCfg exDB (fun r => r.pk == 4) 1) (fun r => r.pk == 3)) none .orphan = [4] :=
  ⟨exDB_consistent, by decide, by decide⟩

end Verif
