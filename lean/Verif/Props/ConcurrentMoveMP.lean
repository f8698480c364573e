/-
C69: concurrent calls of `move` in MP trees.
-/
import Verif.MP.ConcurrentMove
import Verif.MP.History
import Verif.MP.Example
import Verif.Props.ConcurrentMove

namespace Verif.MP

open Txn

variable {ι : Type} [DecidableEq ι]

/-- the objects of the calls, as fetched from the table at the start -/
structure Fetched (db : DB) (m : ι → MoveCall) (x t : ι → Row) : Prop where
  node : ∀ i, x i ∈ db.rows ∧ (x i).pk = (m i).node
  target : ∀ i, t i ∈ db.rows ∧ (t i).pk = (m i).target

/-- the clients; the first `n i` UPDATEs of paths of client `i` are statements of their own -/
def movers (cfg : Cfg) (key n : ι → Nat) (m : ι → MoveCall) (x t : ι → Row) (i : ι) : Client DB CallVars :=
  moveClient cfg (key i) (n i) (x i) (t i) (m i).pos

variable {cfg : Cfg} {db₀ : DB}

theorem has_child {F : Forest} {a k : Nat} (h : F.Desc a k) : ∃ c, c ∈ F (some a) := by
  induction h with
  | child hm => exact ⟨_, hm⟩
  | step _ _ ih => exact ih

omit [DecidableEq ι] in
/-- the calls are in different trees of the table -/
theorem trees_of_own (hok : cfg.Ok) (h : Consistent cfg db₀) {m : ι → MoveCall} {x t : ι → Row} (hf : Fetched db₀ m x t)
    (ho : (forest cfg db₀).OwnTrees cfg.ordered m) :
    ∃ R : ι → List Nat, Parts.Disjoint (fun i => inTree (R i)) ∧ ∀ i, OwnTree cfg (R i) (treeRows (R i) db₀) (x i) (t i) ∧ Inside cfg (t i) (m i).pos := by
  have hi := (consistent_iff hok).1 h
  obtain ⟨root, hinj, hall⟩ := ho
  have hroot : ∀ i, ∃ r ∈ db₀.rows, r.pk = root i ∧ r.depth = 1 := by
    intro i
    obtain ⟨r, h2, h3⟩ := List.mem_map.1 (hall i).1
    unfold rootNodes orderByPath at h2
    rw [mem_sortBy, List.mem_filter, beq_iff_eq] at h2
    exact ⟨r, h2.1, h3, h2.2⟩
  choose r hr hrk hr1 using hroot
  have hlen : ∀ i, (r i).path.length = cfg.steplen := fun i => by rw [hi.depth _ (hr i), hr1 i, Nat.one_mul]
  have hin : ∀ i k, ∀ q ∈ db₀.rows, q.pk = k → (forest cfg db₀).InTreeOf (root i) k → q ∈ treeRows (r i).path db₀ := by
    rintro i k q hq rfl h1
    refine List.mem_filter.2 ⟨hq, ?_⟩
    unfold inTree
    rw [List.isPrefixOf_iff_prefix]
    rcases h1 with e | e
    · rw [hi.inv.pk_inj hq (hr i) (by rw [e, hrk i])]
    · rw [← hrk i, forest_eq hi hok, desc_PF hi.toPInv hok (hr i) hq] at e
      exact e.1
  refine ⟨fun i => (r i).path, ?_, fun i => ⟨⟨hok.step, hlen i, fun q hq => ?_, fun q hq hd hn p hp => ?_, ?_, ?_⟩, fun p hp => ?_⟩⟩
  · intro i j q h1 h2
    unfold inTree at h1 h2
    rw [List.isPrefixOf_iff_prefix] at h1 h2
    have h3 : (r i).path = (r j).path := (List.prefix_of_prefix_length_le h1 h2 (by rw [hlen, hlen])).eq_of_length (by rw [hlen, hlen])
    have h4 := hi.inv.path_inj (hr i) (hr j) h3
    exact hinj _ _ (by rw [← hrk i, ← hrk j, h4])
  · have hm := List.mem_filter.1 hq
    exact ⟨List.isPrefixOf_iff_prefix.1 hm.2, hi.depth q hm.1⟩
  · have hmq := List.mem_filter.1 hq
    have hmp := List.mem_filter.1 hp
    have hpre := List.isPrefixOf_iff_prefix.1 hmq.2
    have h3 : (r i).path = q.path := by
      refine hpre.eq_of_length_le ?_
      rw [hi.depth q hmq.1, hlen]
      have : q.depth * cfg.steplen ≤ 1 * cfg.steplen := Nat.mul_le_mul_right _ hd
      omega
    by_contra hne
    have hqp : q ≠ p := fun e => hne (by rw [e])
    have hdesc : (PF cfg db₀.rows).Desc q.pk p.pk := (desc_PF hi.toPInv hok hmq.1 hmp.1).2 ⟨h3 ▸ List.isPrefixOf_iff_prefix.1 hmp.2, hqp⟩
    obtain ⟨c, hc⟩ := has_child hdesc
    have h4 := hi.num q hmq.1
    rw [hn] at h4
    have h5 := List.length_pos_of_mem hc
    omega
  · exact hin i _ _ (hf.node i).1 (hf.node i).2 (hall i).2.1
  · exact hin i _ _ (hf.target i).1 (hf.target i).2 (hall i).2.2.1
  · by_cases h1 : (t i).depth = 1
    · refine Or.inl ?_
      have : p.isChild = true → isChildPos p = true := by cases p <;> simp [Pos.isChild, isChildPos]
      refine this ((hall i).2.2.2 ?_ p hp)
      rw [← (hf.target i).2]
      refine List.mem_map.2 ⟨t i, ?_, rfl⟩
      unfold rootNodes orderByPath
      rw [mem_sortBy, List.mem_filter, beq_iff_eq]
      exact ⟨(hf.target i).1, h1⟩
    · have := hi.toPInv.depth_pos hok (hf.target i).1
      exact Or.inr (by omega)

/-- **C69, MP**: any number of clients call `move` concurrently, each in a tree of its own (`Forest.OwnTrees`), with or without `node_order_by`.
Nothing is locked.  In every interleaving of their statements the committed table is at every moment the one that the calls that
committed give one after the other, and every call ends as it would alone on the table at the start. -/
theorem C69_mp_trees (hok : cfg.Ok) (h : Consistent cfg db₀) {m : ι → MoveCall} {x t : ι → Row} (hf : Fetched db₀ m x t)
    (ho : (forest cfg db₀).OwnTrees cfg.ordered m) (key n : ι → Nat) {s : State ι DB CallVars} (hs : Reach (movers cfg key n m x t) (.init db₀) s) :
    MovedInTurn (runOps cfg) (fun i => (move cfg db₀ (x i) (t i) (m i).pos).map fun res => .over res.node res.target) m db₀ s := by
  have hi := (consistent_iff hok).1 h
  obtain ⟨R, hR, hown⟩ := trees_of_own hok h hf ho
  let K : ι → Nat → Prop := fun i k => ∃ r ∈ db₀.rows, r.pk = k ∧ inTree (R i) r = true
  have hKB : ∀ i, ∀ r ∈ treeRows (R i) db₀, K i r.pk := fun i r hr => ⟨r, (List.mem_filter.1 hr).1, rfl, (List.mem_filter.1 hr).2⟩
  have hget : ∀ {db : DB} {i : ι}, Parts.Keyed DB.rows Row.pk (fun i => inTree (R i)) K db → treeRows (R i) db = treeRows (R i) db₀ →
      ∀ q ∈ treeRows (R i) db₀, db.get? q.pk = some q := by
    intro db i hG hV q hq
    have h1 : db.get? q.pk = (treeRows (R i) db).find? (fun r => r.pk == q.pk) := Parts.find?_part (hKB i q hq) hG
    rw [h1, hV, List.find?_eq_some_iff_append]
    obtain ⟨as, bs, e⟩ := List.append_of_mem hq
    refine ⟨by simp, as, bs, e, fun r hr => ?_⟩
    have hr' : r ∈ db₀.rows := (List.mem_filter.1 (show r ∈ treeRows (R i) db₀ by rw [e]; simp [hr])).1
    have hn : ((treeRows (R i) db₀).map Row.pk).Nodup := hi.inv.pkNodup.sublist (List.filter_sublist.map _)
    rw [e, List.map_append, List.nodup_append] at hn
    simpa using hn.2.2 r.pk (List.mem_map_of_mem hr) q.pk (by simp)
  have hres := movedInTurn_of_parts (step := step cfg) (m := m) (c := movers cfg key n m x t)
    (P := fun i => Relies cfg R K i (treeRows (R i) db₀) (x i)) (V := fun i => treeRows (R i))
    (G := fun db => Parts.Keyed DB.rows Row.pk (fun i => inTree (R i)) K db ∧ Uniq db) (db₀ := db₀)
    (fun i => moveClient_local (key i) (n i) hR (hown i).1 (hKB i) (hown i).2) (fun _ _ _ _ _ _ _ => rfl) ?_ ?_ ?_ ?_ hs
  · refine ⟨hres.table, hres.nodup, hres.log, fun i l hi => ?_, fun i e hi => ?_⟩
    · have := hres.result i l hi
      simp only [movers, moveClient_alone] at this
      rw [← this]
      cases move cfg db₀ (x i) (t i) (m i).pos <;> rfl
    · have := hres.raised i e hi
      simp only [movers, moveClient_alone] at this
      rw [← this]
      cases move cfg db₀ (x i) (t i) (m i).pos <;> rfl
  · exact fun i db hG hV => ⟨hG.1, hG.2, trivial, hKB i _ (hown i).1.node, fun _ => hV⟩
  · exact fun i l ops db hP _ _ => ⟨hP.keyed, hP.uniq⟩
  · intro i db db' l hG hV e
    have e1 : db.get? (m i).node = some (x i) := by rw [← (hf.node i).2]; exact hget hG.1 hV _ (hown i).1.node
    have e2 : db.get? (m i).target = some (t i) := by rw [← (hf.target i).2]; exact hget hG.1 hV _ (hown i).1.target
    simp only [movers, moveClient_alone] at e
    simp only [step, exec, MoveCall.op, e1, e2]
    cases hm : move cfg db (x i) (t i) (m i).pos with
    | error e' => rw [hm] at e; cases e
    | ok r => rw [hm] at e; cases e; rfl
  · refine ⟨?_, hi.inv.pathNodup⟩
    intro i r hr
    refine ⟨fun e => ⟨r, hr, rfl, e⟩, ?_⟩
    rintro ⟨q, hq, e1, e2⟩
    rwa [← hi.inv.pk_inj hq hr e1]

/-- the row with a key, in an example -/
def rowOf (db : DB) (k : Nat) : Row := (db.get? k).getD ⟨0, [], 0, 0, []⟩

/-- the two clients of an example -/
def exMovers (n : Nat) (db : DB) (m : Bool → MoveCall) : Bool → Client DB CallVars :=
  movers exCfg (fun b => if b then 1 else 0) (fun _ => n) m (fun b => rowOf db (m b).node) (fun b => rowOf db (m b).target)

/-- two trees: 1 with the children 2 and 6, and 3 with the children 4 and 5 -/
def exPair : DB := { rows := [⟨1, [49], 1, 2, []⟩, ⟨2, [49, 49], 2, 0, []⟩, ⟨6, [49, 50], 2, 0, []⟩, ⟨3, [50], 1, 2, []⟩, ⟨4, [50, 49], 2, 0, []⟩,
  ⟨5, [50, 50], 2, 0, []⟩] }

theorem exPair_consistent : Consistent exCfg exPair :=
  ⟨by decide, by decide, by intro p; cases p <;> decide, by decide, by decide⟩

/-- one call in each tree: 6 to the front of the children of 1, and 4 below 5 -/
def exOwn : Bool → MoveCall := fun b => if b then ⟨4, 5, some .lastChild⟩ else ⟨6, 1, some .firstChild⟩

/-- a case of the theorem: both calls commit, the statements of one between those of the other -/
example : Fetched exPair exOwn (fun b => rowOf exPair (exOwn b).node) (fun b => rowOf exPair (exOwn b).target) ∧
    (forest exCfg exPair).OwnTrees false exOwn ∧ (runs (exMovers 1 exPair exOwn) [false, true] (.init exPair)
      ([true, true, false, true, false, true] ++ List.replicate 6 false ++ List.replicate 4 true)).map (fun s => (s.log, s.db.rows)) =
      some ([false, true], [⟨1, [49], 1, 2, []⟩, ⟨2, [49, 50], 2, 0, []⟩, ⟨6, [49, 49], 2, 0, []⟩, ⟨3, [50], 1, 1, []⟩, ⟨4, [50, 50, 49], 3, 0, []⟩,
        ⟨5, [50, 50], 2, 1, []⟩]) := by
  refine ⟨⟨by decide, by decide⟩, ⟨fun b => if b then 3 else 1, by decide, ?_⟩, by decide⟩
  intro b
  have h4 : (forest exCfg exPair).Desc 3 4 := .child (by decide)
  have h5 : (forest exCfg exPair).Desc 3 5 := .child (by decide)
  have h6 : (forest exCfg exPair).Desc 1 6 := .child (by decide)
  cases b
  · refine ⟨by decide, Or.inr h6, Or.inl rfl, fun _ p hp => ?_⟩
    cases hp; rfl
  · refine ⟨by decide, Or.inr h4, Or.inr h5, fun _ p hp => ?_⟩
    cases hp; rfl

/-- 2 below 3, and 3 below 5 -/
def exLost : Bool → MoveCall := fun b => if b then ⟨2, 3, some .lastChild⟩ else ⟨3, 5, some .firstChild⟩

/-- **Concurrent moves lose a node**: one client looks up the path of the target, the other moves the target away, both commit, and the node
is at a path below which nothing is: no node of the tree has it as a child, and it is no root. -/
theorem C69_mp_orphan : ∃ s, Reach (exMovers 0 exDB exLost) (.init exDB) s ∧ s.log = [false, true] ∧ (∃ r ∈ s.db.rows, r.pk = 2) ∧
    ∀ p, 2 ∉ forest exCfg s.db p := by
  obtain ⟨s, hs, e⟩ := exists_run (c := exMovers 0 exDB exLost) (db₀ := exDB) (js := [false, true]) (by decide)
    ([true, true] ++ List.replicate 7 false ++ List.replicate 5 true) (fun s => (s.log, s.db.rows))
    (a := ([false, true], [⟨4, [51, 49, 49], 3, 0, []⟩, ⟨1, [49], 1, 0, []⟩, ⟨5, [51], 1, 1, []⟩, ⟨2, [49, 51, 50], 3, 0, []⟩, ⟨3, [51, 49], 2, 1, []⟩])) (by decide)
  simp only [Prod.mk.injEq] at e
  refine ⟨s, hs, e.1, ⟨⟨2, [49, 51, 50], 3, 0, []⟩, by rw [e.2]; decide⟩, fun p hp => ?_⟩
  unfold forest at hp
  cases p with
  | none =>
    dsimp only at hp
    unfold rootNodes at hp
    rw [e.2] at hp
    revert hp
    decide
  | some k =>
    dsimp only at hp
    cases hg : s.db.get? k with
    | none => rw [hg] at hp; cases hp
    | some r =>
      rw [hg] at hp
      have hr : r ∈ s.db.rows := List.mem_of_find?_eq_some hg
      unfold children at hp
      rw [e.2] at hr hp
      clear hg
      dsimp only at hp
      revert hp
      revert hr
      revert r
      decide

/-- 2 becomes the first root, and 4 goes below 5 in the other tree -/
def exRoot : Bool → MoveCall := fun b => if b then ⟨4, 5, some .lastChild⟩ else ⟨2, 1, some .left⟩

/-- **A move that makes a root upsets moves in other trees**: it gives the other roots new paths, and the concurrent call in another tree writes
to the nodes that have got the old ones: 1 has the child 6 but counts as a leaf, and the node 4 has not been moved. -/
theorem C69_mp_roots : ∃ s, Reach (exMovers 0 exPair exRoot) (.init exPair) s ∧ s.log = [false, true] ∧
    (∃ r ∈ s.db.rows, r.pk = 1 ∧ r.isLeaf = true ∧ ∃ q ∈ s.db.rows, q.pk = 6 ∧ q.isChildOf r = true) ∧ 4 ∈ forest exCfg s.db (some 3) := by
  obtain ⟨s, hs, e⟩ := exists_run (c := exMovers 0 exPair exRoot) (db₀ := exPair) (js := [false, true]) (by decide)
    ([true, true] ++ List.replicate 7 false ++ List.replicate 5 true) (fun s => (s.log, s.db.rows))
    (a := ([false, true], [⟨1, [50], 1, 0, []⟩, ⟨2, [49], 1, 0, []⟩, ⟨6, [50, 50], 2, 1, []⟩, ⟨3, [51], 1, 2, []⟩, ⟨4, [51, 49], 2, 0, []⟩,
      ⟨5, [51, 50], 2, 0, []⟩])) (by decide)
  simp only [Prod.mk.injEq] at e
  refine ⟨s, hs, e.1, ⟨⟨1, [50], 1, 0, []⟩, by rw [e.2]; decide, rfl, rfl, ⟨6, [50, 50], 2, 1, []⟩, by rw [e.2]; decide, rfl, by decide⟩, ?_⟩
  unfold forest DB.get? children
  dsimp only
  rw [e.2]
  decide

end Verif.MP
