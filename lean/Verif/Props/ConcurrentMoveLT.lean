/-
C69: concurrent calls of `move` in ltree trees.
-/
import Verif.LT.Concurrent
import Verif.LT.History
import Verif.LT.Example
import Verif.Props.ConcurrentMove

namespace Verif.LT

open Txn

variable {ι : Type} [DecidableEq ι]

/-- the objects of the calls, as fetched from the table at the start -/
structure Fetched (db : DB) (m : ι → MoveCall) (x t : ι → Row) : Prop where
  node : ∀ i, x i ∈ db.rows ∧ (x i).pk = (m i).node
  target : ∀ i, t i ∈ db.rows ∧ (t i).pk = (m i).target

/-- the clients -/
def movers (cfg : Cfg) (key : ι → Nat) (m : ι → MoveCall) (x t : ι → Row) (i : ι) : Client DB CallVars :=
  moveClient cfg (key i) (x i) (t i) (m i).pos

variable {cfg : Cfg} {db₀ : DB}

omit [DecidableEq ι] in
/-- the calls are in different trees of the table -/
theorem trees_of_own (h : Consistent db₀) {m : ι → MoveCall} {x t : ι → Row} (hf : Fetched db₀ m x t)
    (ho : (forest db₀).OwnTrees cfg.ordered m) :
    ∃ R : ι → Path, Parts.Disjoint (fun i => inTree (R i)) ∧ ∀ i, OwnTree (R i) (treeRows (R i) db₀) (x i) (t i) ∧ Inside cfg (t i) (m i).pos := by
  have hi := h.inv.inv
  obtain ⟨root, hinj, hall⟩ := ho
  have hroot : ∀ i, ∃ r ∈ db₀.rows, r.pk = root i ∧ r.path.length = 1 := by
    intro i
    obtain ⟨r, h2, h3⟩ := List.mem_map.1 (hall i).1
    unfold rootNodes orderByPath at h2
    rw [mem_sortBy, List.mem_filter, beq_iff_eq] at h2
    exact ⟨r, h2.1, h3, h2.2⟩
  choose r hr hrk hr1 using hroot
  have hin : ∀ i k, ∀ q ∈ db₀.rows, q.pk = k → (forest db₀).InTreeOf (root i) k → q ∈ treeRows (r i).path db₀ := by
    rintro i k q hq rfl h1
    refine List.mem_filter.2 ⟨hq, inTree_iff.2 ?_⟩
    rcases h1 with e | e
    · rw [hi.pk_inj hq (hr i) (by rw [e, hrk i])]
    · rw [← hrk i, forest_eq hi, desc_iff (L := 1) hi (by omega) (hr i) hq] at e
      exact e.1
  refine ⟨fun i => (r i).path, ?_, fun i => ⟨⟨hr1 i, fun q hq => inTree_iff.1 (List.mem_filter.1 hq).2, ?_, ?_, ?_⟩, fun p hp => ?_⟩⟩
  · intro i j q h1 h2
    rw [inTree_iff] at h1 h2
    have h3 : (r i).path = (r j).path := (List.prefix_of_prefix_length_le h1 h2 (by rw [hr1, hr1])).eq_of_length (by rw [hr1, hr1])
    have h4 := hi.path_inj (hr i) (hr j) h3
    exact hinj _ _ (by rw [← hrk i, ← hrk j, h4])
  · exact hi.pkNodup.sublist (List.filter_sublist.map _)
  · exact hin i _ _ (hf.node i).1 (hf.node i).2 (hall i).2.1
  · exact hin i _ _ (hf.target i).1 (hf.target i).2 (hall i).2.2.1
  · by_cases h1 : (t i).path.length = 1
    · refine Or.inl ?_
      rw [isChildPos_eq]
      refine (hall i).2.2.2 ?_ p hp
      rw [← (hf.target i).2]
      refine List.mem_map.2 ⟨t i, ?_, rfl⟩
      unfold rootNodes orderByPath
      rw [mem_sortBy, List.mem_filter, beq_iff_eq]
      exact ⟨(hf.target i).1, h1⟩
    · have := (hi.len _ (hf.target i).1).2
      exact Or.inr (by omega)

/-- **C69, LT**: any number of clients call `move` concurrently, each in a tree of its own (`Forest.OwnTrees`), with or without `node_order_by`.
Nothing is locked.  In every interleaving of their statements the committed table is at every moment the one that the calls that
committed give one after the other, and every call ends as it would alone on the table at the start. -/
theorem C69_lt_trees (h : Consistent db₀) {m : ι → MoveCall} {x t : ι → Row} (hf : Fetched db₀ m x t)
    (ho : (forest db₀).OwnTrees cfg.ordered m) (key : ι → Nat) {s : State ι DB CallVars} (hs : Reach (movers cfg key m x t) (.init db₀) s) :
    MovedInTurn (runOps cfg) (fun i => (move cfg db₀ (x i) (t i) (m i).pos).map fun res => .over res.2) m db₀ s := by
  have hi := h.inv.inv
  obtain ⟨R, hR, hown⟩ := trees_of_own (cfg := cfg) h hf ho
  let K : ι → Nat → Prop := fun i k => ∃ r ∈ db₀.rows, r.pk = k ∧ inTree (R i) r = true
  have hKB : ∀ i, ∀ r ∈ treeRows (R i) db₀, K i r.pk := fun i r hr => ⟨r, (List.mem_filter.1 hr).1, rfl, (List.mem_filter.1 hr).2⟩
  have hget : ∀ {db : DB} {i : ι}, Parts.Keyed DB.rows Row.pk (fun i => inTree (R i)) K db → treeRows (R i) db = treeRows (R i) db₀ →
      ∀ q ∈ treeRows (R i) db₀, db.get? q.pk = some q := by
    intro db i hG hV q hq
    have h1 : db.get? q.pk = (treeRows (R i) db).find? (fun r => r.pk == q.pk) := Parts.find?_part (hKB i q hq) hG
    rw [h1, hV, List.find?_eq_some_iff_append]
    obtain ⟨as, bs, e⟩ := List.append_of_mem hq
    refine ⟨by simp, as, bs, e, fun r hr => ?_⟩
    have hn : ((treeRows (R i) db₀).map Row.pk).Nodup := hi.pkNodup.sublist (List.filter_sublist.map _)
    rw [e, List.map_append, List.nodup_append] at hn
    simpa using hn.2.2 r.pk (List.mem_map_of_mem hr) q.pk (by simp)
  have hres := movedInTurn_of_parts (step := step cfg) (m := m) (c := movers cfg key m x t)
    (P := fun i => Relies R K i (treeRows (R i) db₀) (x i)) (V := fun i => treeRows (R i))
    (G := fun db => Parts.Keyed DB.rows Row.pk (fun i => inTree (R i)) K db ∧ (db.rows.map Row.path).Nodup) (db₀ := db₀)
    (fun i => moveClient_local (key i) hR (hown i).1 (hKB i) (hown i).2) (fun i l a b ha hb hab => check_local (key i) ha hb hab) ?_ ?_ ?_ ?_ hs
  · refine ⟨hres.table, hres.nodup, hres.log, fun i l hi => ?_, fun i e hi => ?_⟩
    · have := hres.result i l hi
      simp only [movers, moveClient_alone] at this
      rw [← this]
      cases move cfg db₀ (x i) (t i) (m i).pos <;> rfl
    · have := hres.raised i e hi
      simp only [movers, moveClient_alone] at this
      rw [← this]
      cases move cfg db₀ (x i) (t i) (m i).pos <;> rfl
  · intro i db hG hV
    refine ⟨hG.1, hG.2.sublist (List.filter_sublist.map _), ⟨x i, ?_, rfl⟩, trivial, fun _ _ => nofun, fun _ => hV⟩
    rw [hV]
    exact (hown i).1.node
  · intro i l ops db hP hc _
    refine ⟨hP.keyed, ?_⟩
    simp only [movers, moveClient] at hc
    split at hc
    · rename_i hu
      exact of_decide_eq_true hu
    · cases hc
  · intro i db db' l hG hV e
    have e1 : db.get? (m i).node = some (x i) := by rw [← (hf.node i).2]; exact hget hG.1 hV _ (hown i).1.node
    have e2 : db.get? (m i).target = some (t i) := by rw [← (hf.target i).2]; exact hget hG.1 hV _ (hown i).1.target
    simp only [movers, moveClient_alone] at e
    simp only [step, exec, MoveCall.op, e1, e2]
    cases hm : move cfg db (x i) (t i) (m i).pos with
    | error e' => rw [hm] at e; cases e
    | ok r => rw [hm] at e; cases e; rfl
  · refine ⟨?_, hi.pathNodup⟩
    intro i r hr
    refine ⟨fun e => ⟨r, hr, rfl, e⟩, ?_⟩
    rintro ⟨q, hq, e1, e2⟩
    rwa [← hi.pk_inj hq hr e1]

/-- the row with a key, in an example -/
def rowOf (db : DB) (k : Nat) : Row := (db.get? k).getD ⟨0, [], []⟩

/-- no order -/
def exPlain : Cfg := ⟨[]⟩

/-- the two clients of an example -/
def exMovers (db : DB) (m : Bool → MoveCall) : Bool → Client DB CallVars :=
  movers exPlain (fun b => if b then 1 else 0) m (fun b => rowOf db (m b).node) (fun b => rowOf db (m b).target)

/-- two trees: 1 with the children 2 and 6, and 3 with the children 4 and 5 -/
def exTrees : DB := { rows := [⟨1, [[65]], []⟩, ⟨2, [[65], [65]], []⟩, ⟨6, [[65], [66]], []⟩, ⟨3, [[66]], []⟩, ⟨4, [[66], [65]], []⟩,
  ⟨5, [[66], [66]], []⟩] }

theorem exTrees_inv : Inv exTrees.rows := inv_of_check (by decide)

/-- one call in each tree: 6 to the front of the children of 1, and 4 below 5 -/
def exOwn : Bool → MoveCall := fun b => if b then ⟨4, 5, some .lastChild⟩ else ⟨6, 1, some .firstChild⟩

/-- a case of the theorem: both calls commit, the statements of one between those of the other -/
example : Fetched exTrees exOwn (fun b => rowOf exTrees (exOwn b).node) (fun b => rowOf exTrees (exOwn b).target) ∧
    (forest exTrees).OwnTrees false exOwn ∧ (runs (exMovers exTrees exOwn) [false, true] (.init exTrees)
      ([true, true, false, true, false, true] ++ List.replicate 16 false ++ List.replicate 14 true)).map (fun s => (s.log, s.db.rows)) =
      some ([false, true], [⟨1, [[65]], []⟩, ⟨2, [[65], [65]], []⟩, ⟨6, [[65], [48]], []⟩, ⟨3, [[66]], []⟩, ⟨4, [[66], [66], [65]], []⟩,
        ⟨5, [[66], [66]], []⟩]) := by
  refine ⟨⟨by decide, by decide⟩, ⟨fun b => if b then 3 else 1, by decide, ?_⟩, by decide⟩
  intro b
  have h4 : (forest exTrees).Desc 3 4 := .child (by decide)
  have h5 : (forest exTrees).Desc 3 5 := .child (by decide)
  have h6 : (forest exTrees).Desc 1 6 := .child (by decide)
  cases b
  · refine ⟨by decide, Or.inr h6, Or.inl rfl, fun _ p hp => ?_⟩
    cases hp; rfl
  · refine ⟨by decide, Or.inr h4, Or.inr h5, fun _ p hp => ?_⟩
    cases hp; rfl

/-- in a table with these rows the key is in no group of siblings -/
theorem lost_of_rows {db : DB} {rows : List Row} (e : db.rows = rows) {k : Nat} (h0 : k ∉ (rows.filter fun r => r.path.length == 1).map Row.pk)
    (h1 : ∀ q ∈ rows, k ∉ (rows.filter fun r => q.path.isPrefixOf r.path && r.path.length == q.path.length + 1).map Row.pk) : ∀ p, k ∉ forest db p := by
  intro p hp
  unfold forest at hp
  cases p with
  | none =>
    obtain ⟨r, hr, hk⟩ := List.mem_map.1 hp
    unfold rootNodes orderByPath at hr
    rw [mem_sortBy, e] at hr
    exact h0 (List.mem_map.2 ⟨r, hr, hk⟩)
  | some j =>
    dsimp only at hp
    cases hg : db.get? j with
    | none => rw [hg] at hp; cases hp
    | some q =>
      rw [hg] at hp
      have hq : q ∈ db.rows := List.mem_of_find?_eq_some hg
      obtain ⟨r, hr, hk⟩ := List.mem_map.1 hp
      unfold children below orderByPath at hr
      rw [mem_sortBy, e] at hr
      exact h1 q (e ▸ hq) (List.mem_map.2 ⟨r, hr, hk⟩)

/-- 2 below 3, and 3 below 5 -/
def exLost : Bool → MoveCall := fun b => if b then ⟨2, 3, some .lastChild⟩ else ⟨3, 5, some .firstChild⟩

/-- **Concurrent moves lose a node**: one client looks up the place below the target, the other moves the target away, both commit, and the
node is at a path below which nothing is: no node of the tree has it as a child, and it is no root. -/
theorem C69_lt_orphan : ∃ s, Reach (exMovers exDB exLost) (.init exDB) s ∧ s.log = [false, true] ∧ (∃ r ∈ s.db.rows, r.pk = 2) ∧
    ∀ p, 2 ∉ forest s.db p := by
  obtain ⟨s, hs, e⟩ := exists_run (c := exMovers exDB exLost) (db₀ := exDB) (js := [false, true]) (by decide)
    ([true, true] ++ List.replicate 18 false ++ List.replicate 16 true) (fun s => (s.log, s.db.rows))
    (a := ([false, true], [⟨5, [[66]], []⟩, ⟨1, [[65]], []⟩, ⟨2, [[65], [66], [66]], []⟩, ⟨3, [[66], [65]], []⟩, ⟨4, [[66], [65], [65]], []⟩])) (by decide)
  simp only [Prod.mk.injEq] at e
  exact ⟨s, hs, e.1, ⟨⟨2, [[65], [66], [66]], []⟩, by rw [e.2]; decide⟩, lost_of_rows e.2 (by decide) (by decide)⟩

/-- the roots 1 and 3 without a label free before the first; 2 is below 1, and 4 and 5 are below 3 -/
def exTight : DB := { rows := [⟨1, [[48]], []⟩, ⟨2, [[48], [65]], []⟩, ⟨3, [[65]], []⟩, ⟨4, [[65], [65]], []⟩, ⟨5, [[65], [66]], []⟩] }

theorem exTight_inv : Inv exTight.rows := inv_of_check (by decide)

/-- 2 becomes the first root, and 4 goes below 5 in the other tree -/
def exRoot : Bool → MoveCall := fun b => if b then ⟨4, 5, some .lastChild⟩ else ⟨2, 1, some .left⟩

/-- **A move that makes a root upsets moves in other trees**: it shifts the labels of the roots, and the concurrent call in another tree puts its
node below a path that no node has any more. -/
theorem C69_lt_roots : ∃ s, Reach (exMovers exTight exRoot) (.init exTight) s ∧ s.log = [false, true] ∧ (∃ r ∈ s.db.rows, r.pk = 4) ∧
    ∀ p, 4 ∉ forest s.db p := by
  obtain ⟨s, hs, e⟩ := exists_run (c := exMovers exTight exRoot) (db₀ := exTight) (js := [false, true]) (by decide)
    ([true, true] ++ List.replicate 18 false ++ List.replicate 16 true) (fun s => (s.log, s.db.rows))
    (a := ([false, true], [⟨1, [[48, 65]], []⟩, ⟨2, [[48]], []⟩, ⟨3, [[65, 65]], []⟩, ⟨4, [[65], [66], [65]], []⟩, ⟨5, [[65, 65], [66]], []⟩])) (by decide)
  simp only [Prod.mk.injEq] at e
  exact ⟨s, hs, e.1, ⟨⟨4, [[65], [66], [65]], []⟩, by rw [e.2]; decide⟩, lost_of_rows e.2 (by decide) (by decide)⟩

end Verif.LT
