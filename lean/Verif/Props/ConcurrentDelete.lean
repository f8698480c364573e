/-
C78: deletions that run at the same time, outside of transactions.
-/
import Verif.MP.ConcurrentDelete
import Verif.NS.ConcurrentDelete
import Verif.AL.ConcurrentDelete
import Verif.LT.ConcurrentDelete
import Verif.SpecTogether
import Verif.NS.Nav
import Verif.Props.MPDelete
import Verif.Props.NSTree
import Verif.Props.ALTree
import Verif.Props.LTTree

namespace Verif

open Auto

variable {ι : Type} [DecidableEq ι]

/-! ### ltree -/

namespace LT

/-- The program makes the statements of `delete`. -/
theorem C78_lt_alone (fast : Bool) (S : Nat → Bool) {db : DB} (h : Consistent db) :
    Alone (delProg fast (fun r => S r.pk)) db .start (delete db (fun r => S r.pk)) .over := delProg_alone _ _ _ h.pks

/-- **C78, ltree**: any number of deletions of any sets of nodes, their statements in any order, some of them dying on the way: at every moment the table is consistent, and
what is missing is what the deletions that are through chose, and what was below. -/
theorem C78_lt {db : DB} (h : Consistent db) {S : ι → Nat → Bool} {fast : ι → Bool} {s : State ι DB DelPlace}
    (hr : Reach (fun i => delProg (fast i) (fun r => S i r.pk)) (.init .start db) s) :
    ∃ D : Nat → Bool, (forest db).DoomedBy (db.rows.map Row.pk) S (fun i => s.place i = .over) D ∧ Consistent s.db ∧ forest s.db = (forest db).prune D ∧
      s.db.rows = db.rows.filter (fun r => !D r.pk) := by
  classical
  have hi := delInv_reach (S := fun i r => S i r.pk) h.inv.inv rfl hr
  refine ⟨fun k => decide (k ∈ db.rows.map Row.pk ∧ ∃ i, s.place i = .over ∧ Tree.Doomed (forest db) (S i) k), fun k => decide_eq_true_iff, ?_⟩
  have hD : ∀ r ∈ db.rows, goneBy db.rows (fun i r => S i r.pk) s.place r = decide (r.pk ∈ db.rows.map Row.pk ∧ ∃ i, s.place i = .over ∧ Tree.Doomed (forest db) (S i) r.pk) := by
    intro r hr
    rw [Bool.eq_iff_iff, goneBy_iff, decide_eq_true_iff]
    have hm := List.mem_map_of_mem (f := Row.pk) hr
    have key : ∀ i, doomed db.rows (fun r => S i r.pk) r = true ↔ Tree.Doomed (forest db) (S i) r.pk := by
      intro i
      rw [← doomedPk_pk h.inv.inv _ hr, doomed_spec h.inv.inv]
      exact ⟨fun h => h.2, fun h => ⟨hm, h⟩⟩
    simp only [key]
    exact ⟨fun h => ⟨hm, h⟩, fun h => h.2⟩
  have hrows : s.db.rows = db.rows.filter (fun r => !decide (r.pk ∈ db.rows.map Row.pk ∧ ∃ i, s.place i = .over ∧ Tree.Doomed (forest db) (S i) r.pk)) := by
    rw [hi.left]
    refine List.filter_congr (fun r hr => ?_)
    rw [hD r hr]
  have hpi : PI s.db.rows := by rw [hi.left]; exact pi_filter h.inv.inv _
  refine ⟨consistent_iff.2 ⟨hpi, ?_⟩, ?_, hrows⟩
  · intro r hr
    rw [hrows] at hr
    exact h.inv.labels r (List.mem_filter.1 hr).1
  · rw [forest_eq hpi, forest_eq h.inv.inv]
    have hp := pi_filter (S := fun i r => S i r.pk) h.inv.inv s.place
    have hc : ∀ r ∈ db.rows, ∀ q ∈ db.rows, q.path = pp 1 r.path → (!goneBy db.rows (fun i r => S i r.pk) s.place r) = true →
        (!goneBy db.rows (fun i r => S i r.pk) s.place q) = true := by
      intro r hr q hq e hk
      rw [Bool.not_eq_true', Bool.eq_false_iff] at hk ⊢
      exact fun hg => hk (goneBy_down hg (e ▸ pp_prefix _))
    rw [hi.left]
    refine del_prune h.inv.inv hc ?_ (shows_pforest h.inv.inv) (shows_pforest hp)
    intro r hr
    rw [Bool.not_not, hD r hr, forest_eq h.inv.inv]

/-- **C78, ltree, among other calls**: when Django deletes with one statement, every statement of `delete` keeps the table consistent, whatever other calls did since the call began. -/
theorem C78_lt_any {db db' : DB} (h : Consistent db) {sel : Row → Bool} {l l' : DelPlace} (hl : ∀ paths ks, l ≠ .collected paths ks)
    (e : delProg true sel db l = some (db', l')) : Consistent db' := by
  cases l with
  | start => cases e; exact h
  | over => cases e
  | collected paths ks => exact absurd rfl (hl _ _)
  | todo paths =>
    cases e
    refine consistent_iff.2 ⟨del_inv h.inv.inv ?_, fun r hr => h.inv.labels r (List.mem_filter.1 hr).1⟩
    intro r _ q _ e hk
    rw [Bool.not_eq_true', Bool.eq_false_iff] at hk ⊢
    intro hq
    refine hk ?_
    unfold delMatches at hq ⊢
    rw [List.any_eq_true] at hq ⊢
    obtain ⟨p, hp, hx⟩ := hq
    rw [List.isPrefixOf_iff_prefix] at hx
    exact ⟨p, hp, List.isPrefixOf_iff_prefix.2 (hx.trans (e ▸ pp_prefix _))⟩

/-- one deletes 3 (with 4 below), the other 4 and 5, in between; one is left under way -/
example : Consistent exDB ∧ ∃ s, Reach (fun i : Bool => delProg i (fun r => (if i then [3] else [4, 5]).contains r.pk)) (.init .start exDB) s ∧
    s.place true = .over ∧ s.place false = .over ∧ s.db.rows.map Row.pk = [1, 2] :=
  ⟨consistent_iff.2 exDB_inv, _, run_reach [false, true, false, true, false] .refl, by decide, by decide, by decide⟩

/-- what other clients do: `add_child` -/
def addsChild (k : Nat) (new : Row) : Prog DB DelPlace := atomic (fun db => match db.get? k with
  | none => .error .doesNotExist
  | some t => (addChild ⟨[]⟩ db t new).map (·.1)) .start .over

/-- **C78, ltree, against `add_child`**: when Django reads the keys of the rows first, a child that comes after that is left without its parent. -/
theorem C78_lt_orphan : Consistent exDB ∧ ∃ s, Reach (fun i : Bool => if i then delProg false (fun r => r.pk == 3) else addsChild 4 ⟨9, [], []⟩) (.init .start exDB) s ∧
    s.place true = .over ∧ s.place false = .over ∧ ¬ Consistent s.db := by
  refine ⟨consistent_iff.2 exDB_inv, _, run_reach [true, true, false, true] .refl, by decide, by decide, ?_⟩
  intro h
  exact absurd h.inv.inv.closed (by decide)

end LT

/-! ### Adjacency lists -/

namespace AL

variable {cfg : Cfg}

/-- The program makes the statements of `delete`. -/
theorem C78_al_alone (S : Nat → Bool) {db : DB} (h : Wf cfg db) : Alone (delProg (fun r => S r.pk)) db .start (delete db (fun r => S r.pk)) .over := delProg_alone _ h.ai _

theorem together {db : DB} (h : AInv cfg db.rows) {S : ι → Nat → Bool} {s : State ι DB DelPlace} (hr : Reach (fun i => delProg (fun r => S i r.pk)) (.init .start db) s) :
    ∃ D : Nat → Bool, (forest cfg db).DoomedBy (db.rows.map Row.pk) S (fun i => s.place i = .over) D ∧ AInv cfg s.db.rows ∧ forest cfg s.db = (forest cfg db).prune D ∧
      s.db.rows = db.rows.filter (fun r => !D r.pk) ∧ ∀ i, s.place i ≠ .failed := by
  classical
  have hi := delInv_reach (cfg := cfg) (S := S) h.toAI rfl hr
  let D : Nat → Bool := fun k => decide (k ∈ db.rows.map Row.pk ∧ ∃ i, s.place i = .over ∧ Tree.Doomed (forest cfg db) (S i) k)
  have hDi : ∀ k, D k = true ↔ k ∈ db.rows.map Row.pk ∧ ∃ i, s.place i = .over ∧ Tree.Doomed (forest cfg db) (S i) k := fun k => decide_eq_true_iff
  have hrows : s.db.rows = db.rows.filter (fun r => !D r.pk) := by
    rw [hi.left]
    refine List.filter_congr (fun r hr => ?_)
    congr 1
    rw [Bool.eq_iff_iff, goneBy_iff, hDi, forest_eq h.toAI]
    exact ⟨fun h => ⟨List.mem_map_of_mem hr, h⟩, fun h => h.2⟩
  obtain ⟨h1, h2⟩ := filter_spec (D := D) h (by
    intro r hr p hp hd
    obtain ⟨_, i, ho, hd⟩ := (hDi p).1 hd
    refine (hDi _).2 ⟨List.mem_map_of_mem hr, i, ho, doomed_child hd ?_⟩
    rw [forest_eq h.toAI]
    exact mem_PF.2 ⟨r, hr, hp, rfl⟩)
  rw [← hrows] at h1 h2
  exact ⟨D, hDi, h1, by rw [forest_eq h1.toAI, forest_eq h.toAI]; exact h2, hrows, hi.ok⟩

/-- **C78, adjacency lists**: the same, and none of the deletions is refused by the database. -/
theorem C78_al (ho : cfg.ordered = false) {db : DB} (h : Consistent cfg db) {S : ι → Nat → Bool} {s : State ι DB DelPlace}
    (hr : Reach (fun i => delProg (fun r => S i r.pk)) (.init .start db) s) :
    ∃ D : Nat → Bool, (forest cfg db).DoomedBy (db.rows.map Row.pk) S (fun i => s.place i = .over) D ∧ Consistent cfg s.db ∧ forest cfg s.db = (forest cfg db).prune D ∧
      s.db.rows = db.rows.filter (fun r => !D r.pk) ∧ ∀ i, s.place i ≠ .failed := by
  obtain ⟨D, h1, h2, h3⟩ := together (h.inv ho) hr
  exact ⟨D, h1, consistent_of_inv ho h2, h3⟩

/-- **C78, sorted adjacency lists.** -/
theorem C78_al_sorted (ho : cfg.ordered = true) {db : DB} (h : Wf cfg db) (hn : NoTies cfg db) {S : ι → Nat → Bool} {s : State ι DB DelPlace}
    (hr : Reach (fun i => delProg (fun r => S i r.pk)) (.init .start db) s) :
    ∃ D : Nat → Bool, (forest cfg db).DoomedBy (db.rows.map Row.pk) S (fun i => s.place i = .over) D ∧ Wf cfg s.db ∧ forest cfg s.db = (forest cfg db).prune D ∧
      s.db.rows = db.rows.filter (fun r => !D r.pk) ∧ ∀ i, s.place i ≠ .failed := by
  obtain ⟨D, h1, h2, h3⟩ := together (inv_of_noTies ho h hn) hr
  exact ⟨D, h1, wf_of_ai h2.toAI, h3⟩

/-- **C78, adjacency lists, among other calls**: every statement of `delete` keeps the table well-formed, whatever other calls did since the call began: the database refuses what does not. -/
theorem C78_al_any {db db' : DB} (h : Wf cfg db) {sel : Row → Bool} {l l' : DelPlace} (e : delProg sel db l = some (db', l')) : Wf cfg db' := by
  unfold delProg at e
  split at e
  · cases e; exact h
  · split at e
    · cases e; exact h
    · rename_i seen hany
      cases e
      have hi := h.ai
      refine wf_of_ai ⟨hi.pks.sublist (List.filter_sublist.map _), ?_, ?_⟩
      · intro r hr p ep
        obtain ⟨h1, h2⟩ := List.mem_filter.1 hr
        obtain ⟨q, hq, rfl⟩ := hi.exist r h1 p ep
        refine ⟨q, List.mem_filter.2 ⟨hq, ?_⟩, rfl⟩
        rw [Bool.not_eq_true', Bool.eq_false_iff]
        intro hc
        refine hany (List.any_eq_true.2 ⟨r, h1, ?_⟩)
        rw [Bool.and_eq_true, refersTo_iff]
        exact ⟨⟨q.pk, List.contains_iff_mem.1 hc, ep⟩, h2⟩
      · obtain ⟨rank, hrk⟩ := hi.rank
        exact ⟨rank, fun r hr => hrk r (List.mem_filter.1 hr).1⟩
  · cases e; exact h
  · cases e
  · cases e

/-- one deletes 3 (with 4 below), the other 4 and 5, in between -/
example : exPlain.ordered = false ∧ Consistent exPlain exDB ∧ ∃ s, Reach (fun i : Bool => delProg (fun r => (if i then [3] else [4, 5]).contains r.pk)) (.init .start exDB) s ∧
    s.place true = .over ∧ s.place false = .over ∧ s.db.rows.map Row.pk = [1, 2] :=
  ⟨rfl, consistent_of_inv rfl exDB_inv, _, run_reach [false, true, false, true, false, true, true, false] .refl, by decide, by decide, by decide⟩

/-- what other clients do: `add_child` -/
def addsChild (k : Nat) (new : Row) : Prog DB DelPlace := atomic (fun db => match db.get? k with
  | none => .error .doesNotExist
  | some t => (addChild exPlain db t none new).map (·.1)) .start .over

/-- a child that comes too late: the database refuses the deletion -/
example : ∃ s, Reach (fun i : Bool => if i then delProg (fun r => r.pk == 3) else addsChild 4 ⟨9, none, 0, []⟩) (.init .start exDB) s ∧
    s.place true = .failed ∧ s.place false = .over ∧ s.db.rows.map Row.pk = [1, 3, 2, 4, 5, 9] :=
  ⟨_, run_reach [true, true, true, false, true] .refl, by decide, by decide, by decide⟩

end AL

/-! ### Materialized paths -/

namespace MP

variable {cfg : Cfg}

/-- The program makes the statements of `delete`. -/
theorem C78_mp_alone (fast : Bool) (S : Nat → Bool) {db : DB} (h : Consistent cfg db) :
    Alone (delProg cfg fast (fun r => S r.pk)) db .start (delete cfg db (fun r => S r.pk)) (.todo []) := delProg_alone _ _ _ _ h.pks

/-- **C78, materialized paths**: any number of deletions, their statements in any order, no node chosen by two of them (one may choose nodes below those of another): when none is
under way, the table is consistent, with exact numbers of children, and what is missing is what the deletions that have begun chose, and what was below. -/
theorem C78_mp_partial (hok : cfg.Ok) {db : DB} (h : Consistent cfg db) {S : ι → Nat → Bool} (hS : ChosenOnce S) {fast : ι → Bool} {s : State ι DB DelPlace}
    (hr : Reach (fun i => delProg cfg (fast i) (fun r => S i r.pk)) (.init .start db) s) (hq : Quiet s.place) :
    ∃ D : Nat → Bool, (forest cfg db).DoomedBy (db.rows.map Row.pk) S (fun i => s.place i ≠ .start) D ∧ Consistent cfg s.db ∧ forest cfg s.db = (forest cfg db).prune D ∧
      data s.db.rows = (data db.rows).filter (fun e => !D e.1) := by
  classical
  have hI := (consistent_iff hok).1 h
  obtain ⟨G, hi⟩ := delInv_reach hok hS hI hr
  let D : Nat → Bool := fun k => decide (k ∈ db.rows.map Row.pk ∧ ∃ i, s.place i ≠ .start ∧ Tree.Doomed (forest cfg db) (S i) k)
  have hDi : ∀ k, D k = true ↔ k ∈ db.rows.map Row.pk ∧ ∃ i, s.place i ≠ .start ∧ Tree.Doomed (forest cfg db) (S i) k := fun k => decide_eq_true_iff
  obtain ⟨h1, h2, h3⟩ := hi.quiet_spec hok hI.toPInv hq (D := D) (by
    intro r hr
    rw [hDi]
    have hm := List.mem_map_of_mem (f := Row.pk) hr
    have key : ∀ i, doomed db.rows (fun r => S i r.pk) r = true ↔ Tree.Doomed (forest cfg db) (S i) r.pk := by
      intro i
      rw [← doomedPk_pk hI.toPInv _ hr, doomed_spec hok hI]
      exact ⟨fun h => h.2, fun h => ⟨hm, h⟩⟩
    simp only [key]
    exact ⟨fun h => h.2, fun h => ⟨hm, h⟩⟩)
  refine ⟨D, hDi, (consistent_iff hok).2 h1, ?_, ?_⟩
  · rw [forest_eq h1 hok, forest_eq hI hok]; exact h2
  · rw [h3]
    unfold data
    rw [List.filter_map]
    rfl

/-- one deletes 3 (with 4 below), the other 4 and 5, in between -/
example : exCfg.Ok ∧ Consistent exCfg exDB ∧ ChosenOnce (fun (i : Bool) k => (if i then [3] else [4, 5]).contains k) ∧
    ∃ s, Reach (fun i : Bool => delProg exCfg i (fun r => (if i then [3] else [4, 5]).contains r.pk)) (.init .start exDB) s ∧
    Quiet s.place ∧ s.db.rows = [⟨1, [49], 1, 1, []⟩, ⟨2, [49, 49], 2, 0, []⟩] := by
  refine ⟨exCfg_ok, exDB_consistent, ?_, _, run_reach [false, true, false, false, true, true, false] .refl, ?_, by decide⟩
  · intro i j k hi hj
    cases i <;> cases j <;> simp at hi hj ⊢ <;> omega
  · intro i; cases i <;> exact Or.inr (by decide)

/-- **C78 fails for materialized paths when two deletions choose one node**: both take it from the number of children of its parent. -/
theorem C78_mp_twice : Consistent exCfg exDB ∧ ∃ s, Reach (fun _ : Bool => delProg exCfg true (fun r => r.pk == 2)) (.init .start exDB) s ∧ Quiet s.place ∧
    ¬ Consistent exCfg s.db ∧ (⟨1, [49], 1, 0, []⟩ ∈ s.db.rows) ∧ ⟨3, [49, 51], 2, 1, []⟩ ∈ s.db.rows := by
  refine ⟨exDB_consistent, _, run_reach [true, false, true, false, true, false] .refl, ?_, ?_, by decide, by decide⟩
  · intro i; cases i <;> exact Or.inr (by decide)
  · intro h
    exact absurd (h.problems .wrongNumchild) (by decide)

/-- what other clients do: `add_child` -/
def addsChild (k : Nat) (new : Row) : Prog DB DelPlace := atomic (fun db => match db.get? k with
  | none => .error .doesNotExist
  | some t => (addChild exCfg db t new).map (·.1)) .start (.todo [])

/-- `add_sibling` -/
def addsSibling (k : Nat) (pos : Pos) (new : Row) : Prog DB DelPlace := atomic (fun db => match db.get? k with
  | none => .error .doesNotExist
  | some t => (addSibling exCfg db t (some pos) new).map (·.1)) .start (.todo [])

/-- **C78 fails for materialized paths against `add_child`**: a leaf is deleted by its key, and the child it has got in between is left without its parent. -/
theorem C78_mp_orphan : Consistent exCfg exDB ∧ ∃ s, Reach (fun i : Bool => if i then delProg exCfg true (fun r => r.pk == 5) else addsChild 5 ⟨9, [], 0, 0, []⟩) (.init .start exDB) s ∧
    Quiet s.place ∧ ¬ Consistent exCfg s.db ∧ (⟨9, [51, 49], 2, 0, []⟩ ∈ s.db.rows) ∧ s.db.get? 5 = none := by
  refine ⟨exDB_consistent, _, run_reach [true, false, true] .refl, ?_, ?_, by decide, by decide⟩
  · intro i; cases i <;> exact Or.inr (by decide)
  · intro h
    exact absurd (h.problems .orphan) (by decide)

/-- **C78 fails for materialized paths against `add_sibling`**: the branch is deleted by its path, which is another node's in the meantime: the new node goes, the chosen branch stays. -/
theorem C78_mp_wrong_branch : Consistent exCfg exDB ∧ ∃ s, Reach (fun i : Bool => if i then delProg exCfg true (fun r => r.pk == 3) else addsSibling 3 .left ⟨9, [], 0, 0, []⟩) (.init .start exDB) s ∧
    Quiet s.place ∧ s.db.get? 9 = none ∧ ∃ r, s.db.get? 3 = some r := by
  refine ⟨exDB_consistent, _, run_reach [true, true, false, true] .refl, ?_, by decide, ⟨3, [49, 52], 2, 1, []⟩, by decide⟩
  intro i; cases i <;> exact Or.inr (by decide)

end MP

/-! ### Nested sets -/

namespace NS

/-- The program makes the statements of `delete`. -/
theorem C78_ns_alone (fast : Bool) (S : Nat → Bool) {db : DB} (h : Consistent db) :
    Alone (delProg fast (fun r => S r.pk)) db .start (delete db (fun r => S r.pk)) (.todo []) := delProg_alone _ _ _ h.pks

omit [DecidableEq ι] in
theorem owns_once {db : DB} (h : NI db.rows) {S : ι → Nat → Bool} (hS : (forest db).TreesOnce S) : ∀ i j t, Owns db.rows S i t → Owns db.rows S j t → i = j := by
  rintro i j t ⟨a, ha, hsa, hta⟩ ⟨b, hb, hsb, htb⟩
  have hroot : ∀ x ∈ db.rows, ∃ q ∈ db.rows, q.lft = 1 ∧ q.tree = x.tree ∧ (x.pk = q.pk ∨ (forest db).Desc q.pk x.pk) := by
    intro x hx
    by_cases hl : x.lft = 1
    · exact ⟨x, hx, hl, rfl, Or.inl rfl⟩
    · obtain ⟨q, hq, hl, he⟩ := h.root x hx hl
      refine ⟨q, hq, hl, he.1, Or.inr ?_⟩
      rw [forest_eq h]
      exact (desc_PF h hq hx).2 he
  obtain ⟨p, hp, hpl, hpt, hpa⟩ := hroot a ha
  obtain ⟨q, hq, hql, hqt, hqb⟩ := hroot b hb
  have hpq : p = q := by
    by_contra hne
    exact (h.dist p hp q hq hne (by rw [hpt, hqt, hta, htb])).1 (by rw [hpl, hql])
  subst hpq
  refine hS i j p.pk a.pk b.pk ?_ hpa hqb hsa hsb
  rw [forest_eq h, ← rootNodes_PF h]
  exact List.mem_map_of_mem (mem_rootNodes.2 ⟨hp, hpl⟩)

/-- **C78, nested sets**: any number of deletions, their statements in any order, no two of them choosing nodes of one tree: when none is under way, the table is consistent, without
gaps, and what is missing is what the deletions that have begun chose, and what was below. -/
theorem C78_ns_partial {db : DB} (h : Consistent db) {S : ι → Nat → Bool} (hS : (forest db).TreesOnce S) {fast : ι → Bool} {s : State ι DB DelPlace}
    (hr : Reach (fun i => delProg (fast i) (fun r => S i r.pk)) (.init .start db) s) (hq : Quiet s.place) :
    ∃ D : Nat → Bool, (forest db).DoomedBy (db.rows.map Row.pk) S (fun i => s.place i ≠ .start) D ∧ Consistent s.db ∧ forest s.db = (forest db).prune D ∧
      data s.db.rows = (data db.rows).filter (fun e => !D e.1) := by
  classical
  have hone := owns_once h.toNI hS
  obtain ⟨A, f, hi⟩ := delInv_reach h.pks hone hr
  have hrows := hi.quiet_rows hone hq
  obtain ⟨D, h1, h2, h3, h4⟩ := C24_delete h (fun k => decide (∃ i, s.place i ≠ .start ∧ S i k = true))
  have hc : Consistent s.db := by
    show NInv s.db.rows
    rw [hrows]
    exact h2
  refine ⟨D, ?_, hc, ?_, by rw [hrows]; exact h4⟩
  · intro k
    rw [h1 k]
    refine and_congr_right fun _ => ?_
    unfold Tree.Doomed
    simp only [decide_eq_true_eq]
    constructor
    · rintro (⟨i, hi, hs⟩ | ⟨q, ⟨i, hi, hs⟩, hd⟩)
      · exact ⟨i, hi, Or.inl hs⟩
      · exact ⟨i, hi, Or.inr ⟨q, hs, hd⟩⟩
    · rintro ⟨i, hi, hs | ⟨q, hs, hd⟩⟩
      · exact Or.inl ⟨i, hi, hs⟩
      · exact Or.inr ⟨q, ⟨i, hi, hs⟩, hd⟩
  · rw [forest_eq hc.toNI, hrows, ← forest_eq h2.toNI]
    exact h3

/-- one deletes 3 (with 4 below) in the first tree, the other the second tree, in between -/
example : Consistent exDB ∧ (forest exDB).TreesOnce (fun (i : Bool) k => (if i then [3] else [5]).contains k) ∧
    ∃ s, Reach (fun i : Bool => delProg i (fun r => (if i then [3] else [5]).contains r.pk)) (.init .start exDB) s ∧
    Quiet s.place ∧ s.db.rows = [⟨1, 1, 1, 4, 1, []⟩, ⟨2, 1, 2, 3, 2, []⟩] := by
  refine ⟨exDB_inv, ?_, _, run_reach [false, true, false, true, false, true, false] .refl, ?_, by decide⟩
  · have hd : ∀ r ∈ exDB.rows, ∀ k, (k = r.pk ∨ (forest exDB).Desc r.pk k) → ∃ q ∈ exDB.rows, q.pk = k ∧ q.tree = r.tree := by
      rintro r hr k (rfl | hk)
      · exact ⟨r, hr, rfl, rfl⟩
      · rw [forest_eq exDB_inv.toNI] at hk
        obtain ⟨q, hq, e, he⟩ := desc_row exDB_inv.toNI hr hk
        exact ⟨q, hq, e, he.1.symm⟩
    have h35 : ∀ q ∈ exDB.rows, (q.pk = 3 → q.tree = 1) ∧ (q.pk = 5 → q.tree = 2) := by decide
    intro i j r a b hr ha hb hi hj
    have hr' : ∃ x ∈ exDB.rows, x.pk = r := by
      rw [forest_eq exDB_inv.toNI, ← rootNodes_PF exDB_inv.toNI] at hr
      obtain ⟨x, hx, e⟩ := List.mem_map.1 hr
      exact ⟨x, (mem_rootNodes.1 hx).1, e⟩
    obtain ⟨x, hx, rfl⟩ := hr'
    obtain ⟨p, hp, ep, tp⟩ := hd x hx a ha
    obtain ⟨q, hq, eq, tq⟩ := hd x hx b hb
    have h1 := h35 p hp
    have h2 := h35 q hq
    cases i <;> cases j <;> simp at hi hj ⊢ <;> subst hi <;> subst hj <;> have := h1.1 <;> have := h1.2 <;> have := h2.1 <;> have := h2.2 <;> simp_all <;> omega
  · intro i; cases i <;> exact Or.inr (by decide)

/-- a root with the children 2, 3, 4 -/
def threeDB : DB := { rows := [⟨1, 1, 1, 8, 1, []⟩, ⟨2, 1, 2, 3, 2, []⟩, ⟨3, 1, 4, 5, 2, []⟩, ⟨4, 1, 6, 7, 2, []⟩] }

theorem threeDB_inv : NInv threeDB.rows := by
  refine ⟨⟨by decide, by decide, by decide, by decide, by decide, by decide, by decide, by decide⟩, ?_⟩
  intro r hr
  refine full_of_range 8 ?_ ?_
  · revert r; decide
  · revert r; decide

/-- **C78 fails for nested sets when two deletions choose nodes of one tree**: the second goes by numbers that the first has changed, and deletes a node that nobody chose. -/
theorem C78_ns_wrong_node : Consistent threeDB ∧ ChosenOnce (fun (i : Bool) k => k == if i then 2 else 3) ∧
    ∃ s, Reach (fun i : Bool => delProg true (fun r => r.pk == if i then 2 else 3)) (.init .start threeDB) s ∧ Quiet s.place ∧
    s.db.get? 4 = none ∧ ∃ r, s.db.get? 3 = some r := by
  refine ⟨threeDB_inv, ?_, _, run_reach [true, false, true, true, false, false] .refl, ?_, by decide, ⟨3, 1, 2, 3, 2, []⟩, by decide⟩
  · intro i j k hi hj
    cases i <;> cases j <;> simp at hi hj ⊢ <;> omega
  · intro i; cases i <;> exact Or.inr (by decide)

/-- **C78 fails for nested sets: broken numbers.** -/
theorem C78_ns_broken : Consistent exDB ∧ ∃ s, Reach (fun i : Bool => delProg true (fun r => r.pk == if i then 2 else 3)) (.init .start exDB) s ∧ Quiet s.place ∧ ¬ Consistent s.db := by
  refine ⟨exDB_inv, _, run_reach [true, false, true, true, false, false] .refl, ?_, ?_⟩
  · intro i; cases i <;> exact Or.inr (by decide)
  · intro h
    exact absurd h.lr (by decide)

/-- what other clients do: `add_child` -/
def addsChild (k : Nat) (new : Row) : Prog DB DelPlace := atomic (fun db => match db.get? k with
  | none => .error .doesNotExist
  | some t => (addChild ⟨[]⟩ db t new).map (·.1)) .start (.todo [])

/-- **C78 fails for nested sets against `add_child`**: a child for 2 moves the numbers of 3, so that the deletion of 3 (4 to 5) deletes that child, and not 3. -/
theorem C78_ns_wrong_branch : Consistent threeDB ∧ ∃ s, Reach (fun i : Bool => if i then delProg true (fun r => r.pk == 3) else addsChild 2 ⟨9, 0, 0, 0, 0, []⟩) (.init .start threeDB) s ∧
    Quiet s.place ∧ ∃ r, s.db.get? 3 = some r := by
  refine ⟨threeDB_inv, _, run_reach [true, false, true, true] .refl, ?_, ⟨3, 1, 4, 5, 2, []⟩, by decide⟩
  intro i; cases i <;> exact Or.inr (by decide)

end NS

end Verif
