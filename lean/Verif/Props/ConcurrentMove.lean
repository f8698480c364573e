/-
C69: concurrent calls of `move`, which lock nothing.
-/
import Verif.NS.Concurrent
import Verif.NS.History
import Verif.NS.Example
import Verif.AL.Concurrent
import Verif.AL.Example
import Verif.Props.ALTree
import Verif.SpecParts

namespace Verif

open Txn

variable {ι : Type} [DecidableEq ι]

/-! ### NS: calls that stay in different trees -/

namespace NS

/-- the objects of the calls, as fetched from the table at the start -/
structure Fetched (db : DB) (m : ι → MoveCall) (x t : ι → Row) : Prop where
  node : ∀ i, x i ∈ db.rows ∧ (x i).pk = (m i).node
  target : ∀ i, t i ∈ db.rows ∧ (t i).pk = (m i).target

/-- the clients -/
def movers (cfg : Cfg) (key : ι → Nat) (m : ι → MoveCall) (x t : ι → Row) (i : ι) : Client DB MoveVars := moveClient cfg (key i) (x i) (t i) none (m i).pos

end NS

/-- What every interleaving of concurrent calls leads to, at every moment: the table is the one that the calls that committed give one after
the other, in the order of the commits; and each of them ends, with a result or an exception, as it would at the start, alone. -/
structure MovedInTurn {σ ℓ : Type} (run : σ → List Op → σ) (alone : ι → Except Err ℓ) (m : ι → MoveCall) (db₀ : σ) (s : State ι σ ℓ) : Prop where
  table : s.db = run db₀ (s.log.map fun i => (m i).op)
  nodup : s.log.Nodup
  log : ∀ i, i ∈ s.log ↔ ∃ l, s.phase i = .committed l
  result : ∀ i l, s.phase i = .committed l → alone i = .ok l
  raised : ∀ i e, s.phase i = .raised e → alone i = .error e

/-- If the calls are local to parts of the table, each has a part of its own, and alone they are the operations, then this is what every
interleaving leads to.  `G` is what all the calls rely on. -/
theorem movedInTurn_of_parts {σ ℓ τ : Type} {step : σ → Op → σ} {m : ι → MoveCall} {c : ι → Client σ ℓ} {P : ι → ℓ → σ → Prop} {V : ι → σ → τ}
    {G : σ → Prop} {db₀ : σ} (hloc : ∀ i, (c i).Local (P i) (V i) (fun X => ∃ j, j ≠ i ∧ X = V j))
    (hcheck : ∀ i l a b, P i l a → P i l b → V i a = V i b → (c i).check a = (c i).check b)
    (hstart : ∀ i db, G db → V i db = V i db₀ → P i (c i).start db)
    (hkeep : ∀ i l (ops : List Op) db, P i l db → (c i).check db = none → db = ops.foldl step db₀ → G db)
    (hstep : ∀ i db db' l, G db → V i db = V i db₀ → (c i).alone db = .ok (db', l) → step db (m i).op = db')
    (h0 : G db₀) {s : State ι σ ℓ} (hs : Reach c (.init db₀) s) :
    MovedInTurn (fun db ops => ops.foldl step db) (fun i => ((c i).alone db₀).map Prod.snd) m db₀ s := by
  let J : List ι → σ → Prop := fun log db => db = (log.map fun i => (m i).op).foldl step db₀ ∧ G db ∧ ∀ i, i ∉ log → V i db = V i db₀
  have hP : ∀ log db i, J log db → i ∉ log → P i (c i).start db := fun log db i hJ hi => hstart i db hJ.2.1 (hJ.2.2 i hi)
  have hk : Keeps c J := by
    intro log db db' i l hJ hi e
    have h1 := Client.alone_frame (hloc i) (hP _ _ _ hJ hi) e
    have h2 : (c i).check db' = none := by
      unfold Client.alone Client.finish at e
      split at e
      · cases e
      · split at e
        · cases e
        · rename_i h; cases e; exact h
    have h3 : db' = ((log ++ [i]).map fun i => (m i).op).foldl step db₀ := by
      rw [← hstep i db db' l hJ.2.1 (hJ.2.2 i hi) e]
      conv_lhs => rw [hJ.1]
      rw [List.map_append, List.foldl_append]
      rfl
    refine ⟨h3, hkeep i _ _ _ h1.1 h2 h3, fun j hj => ?_⟩
    · simp only [List.mem_append, List.mem_singleton, not_or] at hj
      rw [h1.2 _ ⟨j, hj.2, rfl⟩, hJ.2.2 j hj.1]
  have hJ0 : J [] db₀ := ⟨rfl, h0, fun _ _ => rfl⟩
  have hinv := serial_of_parts hloc hk hP hJ0 hs
  have hback : ∀ {log : List ι} {db : σ} {i : ι}, J log db → i ∉ log → ((c i).alone db).map Prod.snd = ((c i).alone db₀).map Prod.snd :=
    fun hJ hi => Client.alone_moved (hloc _) (hcheck _) (hP _ _ _ hJ hi) (hP _ _ _ hJ0 (by simp)) (hJ.2.2 _ hi)
  refine ⟨hinv.keeps.1, hinv.nodup, hinv.logged, fun i l hi => ?_, fun i e hi => ?_⟩
  · obtain ⟨pre, post, db, db', e1, -, e3, e4⟩ := hinv.result i l hi
    have hni : i ∉ pre := by
      have := hinv.nodup
      rw [e1, List.nodup_append] at this
      exact fun hm => this.2.2 i hm i (by simp) rfl
    rw [← hback e3 hni, e4]; rfl
  · obtain ⟨pre, db, e1, -, e3, e4⟩ := (hinv.raised i e hi).resolve_left id
    have hni : i ∉ pre := by
      intro hm
      obtain ⟨l, e'⟩ := (hinv.logged i).1 (e1.subset hm)
      rw [e'] at hi
      cases hi
    rw [← hback e3 hni, e4]; rfl

namespace NS

variable {cfg : Cfg} {db₀ : DB}

omit [DecidableEq ι] in
/-- the roots of the calls are in different trees of the table -/
theorem trees_of_own (h : Consistent db₀) {m : ι → MoveCall} {x t : ι → Row} (hf : Fetched db₀ m x t) (ho : (forest db₀).OwnTrees cfg.ordered m) :
    (∀ i, (x i).tree = (t i).tree) ∧ (∀ i j, (t i).tree = (t j).tree → i = j) ∧ ∀ i, Inside cfg (t i) (m i).pos := by
  obtain ⟨root, hinj, hall⟩ := ho
  have hroot : ∀ i, ∃ r ∈ db₀.rows, r.pk = root i ∧ r.lft = 1 := by
    intro i
    have h1 := (hall i).1
    rw [forest_eq h.toNI] at h1
    obtain ⟨r, h2, h3⟩ := List.mem_map.1 h1
    have h4 := List.mem_filter.1 (mem_order.1 h2)
    exact ⟨r, h4.1, h3, (par_eq_none h.toNI h4.1).1 (by simpa using h4.2)⟩
  choose r hr hrk hr1 using hroot
  have hin : ∀ i k, ∀ q ∈ db₀.rows, q.pk = k → (forest db₀).InTreeOf (root i) k → q.tree = (r i).tree := by
    rintro i k q hq rfl (e | e)
    · rw [h.toNI.pk_inj hq (hr i) (by rw [e, hrk i])]
    · rw [← hrk i, forest_eq h.toNI, desc_PF h.toNI (hr i) hq] at e
      exact e.1.symm
  have hx := fun i => hin i _ _ (hf.node i).1 (hf.node i).2 (hall i).2.1
  have ht := fun i => hin i _ _ (hf.target i).1 (hf.target i).2 (hall i).2.2.1
  refine ⟨fun i => (hx i).trans (ht i).symm, fun i j e => ?_, fun i p hp => ?_⟩
  · rw [ht, ht] at e
    apply hinj
    by_contra hne
    have hne' : r i ≠ r j := fun e' => hne (by rw [← hrk i, ← hrk j, e'])
    exact (h.toNI.dist _ (hr i) _ (hr j) hne' e).1 ((hr1 i).trans (hr1 j).symm)
  · by_cases h1 : (t i).lft = 1
    · refine Or.inl ?_
      have : p.isChild = true → isChildPos p = true := by cases p <;> simp [Pos.isChild, isChildPos]
      refine this ((hall i).2.2.2 ?_ p hp)
      rw [forest_eq h.toNI, ← (hf.target i).2]
      refine List.mem_map.2 ⟨t i, mem_order.2 (List.mem_filter.2 ⟨(hf.target i).1, ?_⟩), rfl⟩
      simpa using (par_eq_none h.toNI (hf.target i).1).2 h1
    · exact Or.inr h1

/-- **C69, NS**: any number of clients call `move` concurrently, each in a tree of its own (`Forest.OwnTrees`), with or without `node_order_by`.
Nothing is locked.  In every interleaving of their statements the committed table is at every moment the one that the calls that
committed give one after the other, and every call ends as it would alone on the table at the start. -/
theorem C69_ns_trees (h : Consistent db₀) {m : ι → MoveCall} {x t : ι → Row} (hf : Fetched db₀ m x t) (ho : (forest db₀).OwnTrees cfg.ordered m)
    (key : ι → Nat) {s : State ι DB MoveVars} (hs : Reach (movers cfg key m x t) (.init db₀) s) :
    MovedInTurn (runOps cfg) (fun i => (move cfg db₀ (x i) (t i) none (m i).pos).map fun res => .over res.node res.target) m db₀ s := by
  obtain ⟨hxt, hinj, hin⟩ := trees_of_own h hf ho
  let T : ι → Int := fun i => (t i).tree
  let K : ι → Nat → Prop := fun i k => ∃ r ∈ db₀.rows, r.pk = k ∧ r.tree = T i
  have hmem : ∀ {db : DB} {i : ι}, treeRows (T i) db = treeRows (T i) db₀ → ∀ r ∈ db₀.rows, r.tree = T i → r ∈ db.rows := by
    intro db i hV r hr hT
    have : r ∈ treeRows (T i) db₀ := List.mem_filter.2 ⟨hr, by simpa using hT⟩
    rw [← hV] at this
    exact (List.mem_filter.1 this).1
  have hres := movedInTurn_of_parts (step := step cfg) (m := m) (c := movers cfg key m x t) (P := fun i => Relies T K i (x i) (t i))
    (V := fun i => treeRows (T i)) (G := fun db => Keyed T K db ∧ Consistent db) (db₀ := db₀)
    (fun i => moveClient_local cfg (key i) (fun j hj e => hj (hinj _ _ e)) (hin i)) (fun _ _ _ _ _ _ _ => rfl) ?_ ?_ ?_ ?_ hs
  · refine ⟨hres.table, hres.nodup, hres.log, fun i l hi => ?_, fun i e hi => ?_⟩
    · have := hres.result i l hi
      simp only [movers, moveClient_alone] at this
      rw [← this]
      cases move cfg db₀ (x i) (t i) none (m i).pos <;> rfl
    · have := hres.raised i e hi
      simp only [movers, moveClient_alone] at this
      rw [← this]
      cases move cfg db₀ (x i) (t i) none (m i).pos <;> rfl
  · exact fun i db hG hV => ⟨hG.1, trivial, ⟨x i, (hf.node i).1, rfl, hxt i⟩, ⟨t i, (hf.target i).1, rfl, rfl⟩, hG.2.toNI,
      hmem hV _ (hf.target i).1 rfl, hxt i, rfl⟩
  · exact fun i l ops db hP _ e => ⟨hP.1, e ▸ runOps_consistent _ h⟩
  · intro i db db' l hG hV e
    have e1 : db.get? (m i).node = some (x i) := (get?_eq_some hG.2.toNI).2 ⟨hmem hV _ (hf.node i).1 (hxt i), (hf.node i).2⟩
    have e2 : db.get? (m i).target = some (t i) := (get?_eq_some hG.2.toNI).2 ⟨hmem hV _ (hf.target i).1 rfl, (hf.target i).2⟩
    simp only [movers, moveClient_alone] at e
    simp only [step, exec, MoveCall.op, e1, e2]
    cases hm : move cfg db (x i) (t i) none (m i).pos with
    | error e' => rw [hm] at e; cases e
    | ok r => rw [hm] at e; cases e; rfl
  · refine ⟨?_, h⟩
    intro i r hr
    refine ⟨fun e => ⟨r, hr, rfl, e⟩, ?_⟩
    rintro ⟨q, hq, e1, e2⟩
    rwa [← h.toNI.pk_inj hq hr e1]

/-- the row with a key, in an example -/
def rowOf (db : DB) (k : Nat) : Row := (db.get? k).getD ⟨0, 0, 0, 0, 0, []⟩

/-- the two clients of an example -/
def exMovers (db : DB) (m : Bool → MoveCall) : Bool → Client DB MoveVars :=
  movers ⟨[]⟩ (fun b => if b then 1 else 0) m (fun b => rowOf db (m b).node) (fun b => rowOf db (m b).target)

/-- two trees: 1 with the child 2, and 3 with the children 4 and 5 -/
def exPair : DB := { rows := [⟨1, 1, 1, 4, 1, []⟩, ⟨2, 1, 2, 3, 2, []⟩, ⟨3, 2, 1, 6, 1, []⟩, ⟨4, 2, 2, 3, 2, []⟩, ⟨5, 2, 4, 5, 2, []⟩] }

theorem exPair_inv : NInv exPair.rows := by
  refine ⟨by decide, ?_⟩
  intro r hr
  refine full_of_range 8 ?_ ?_
  · revert r; decide
  · revert r; decide

/-- one call in each tree: 2 to the front of the children of 1, and 4 below 5 -/
def exOwn : Bool → MoveCall := fun b => if b then ⟨4, 5, some .lastChild⟩ else ⟨2, 1, some .firstChild⟩

/-- a case of the theorem: both calls commit, the statements of one between those of the other -/
example : Fetched exPair exOwn (fun b => rowOf exPair (exOwn b).node) (fun b => rowOf exPair (exOwn b).target) ∧
    (forest exPair).OwnTrees false exOwn ∧ (runs (exMovers exPair exOwn) [false, true] (.init exPair)
      ([true, true] ++ List.replicate 8 false ++ List.replicate 6 true)).map (fun s => (s.log, s.db.rows)) =
      some ([false, true], [⟨1, 1, 1, 4, 1, []⟩, ⟨2, 1, 2, 3, 2, []⟩, ⟨3, 2, 1, 6, 1, []⟩, ⟨4, 2, 3, 4, 3, []⟩, ⟨5, 2, 2, 5, 2, []⟩]) := by
  refine ⟨⟨?_, ?_⟩, ⟨fun b => if b then 3 else 1, by decide, ?_⟩, by decide⟩
  · decide
  · decide
  · intro b
    have h4 : (forest exPair).Desc 3 4 := .child (by decide)
    have h5 : (forest exPair).Desc 3 5 := .child (by decide)
    have h2 : (forest exPair).Desc 1 2 := .child (by decide)
    cases b
    · refine ⟨by decide, Or.inr h2, Or.inl rfl, fun _ p hp => ?_⟩
      cases hp; rfl
    · refine ⟨by decide, Or.inr h4, Or.inr h5, fun _ p hp => ?_⟩
      cases hp; rfl

/-- in one tree: 2 to the end of the children of 1, and 3 below 2 -/
def exSame : Bool → MoveCall := fun b => if b then ⟨2, 1, some .lastChild⟩ else ⟨3, 2, some .lastChild⟩

/-- **Concurrent moves in one tree corrupt it**: one client reads the tree and waits until the other has moved its node.  Both commit, and the
interval of the root no longer encloses those of the others. -/
theorem C69_ns_corrupts : ∃ s, Reach (exMovers exDB exSame) (.init exDB) s ∧ s.log = [false, true] ∧ ¬ Consistent s.db := by
  obtain ⟨s, hs, e⟩ := exists_run (c := exMovers exDB exSame) (db₀ := exDB) (js := [false, true]) (by decide)
    ([true, true] ++ List.replicate 8 false ++ List.replicate 6 true) (fun s => (s.log, s.db.rows))
    (a := ([false, true], [⟨4, 1, 4, 5, 4, []⟩, ⟨1, 1, 1, 4, 1, []⟩, ⟨5, 2, 1, 2, 1, []⟩, ⟨2, 1, 2, 7, 2, []⟩, ⟨3, 1, 3, 6, 3, []⟩])) (by decide)
  simp only [Prod.mk.injEq] at e
  refine ⟨s, hs, e.1, fun h => ?_⟩
  have h : NInv s.db.rows := h
  rw [e.2] at h
  exact absurd h.toNI (by decide)

/-- one call in each tree, but one makes a new root: 2 before 1, and 4 below 5 -/
def exRoot : Bool → MoveCall := fun b => if b then ⟨4, 5, some .lastChild⟩ else ⟨2, 1, some .left⟩

/-- **A move that makes a root upsets moves in other trees**: it gives the other trees new numbers, and a client that has read the old
number moves its node into another tree, where nothing encloses it. -/
theorem C69_ns_roots : ∃ s, Reach (exMovers exPair exRoot) (.init exPair) s ∧ s.log = [false, true] ∧
    (⟨4, 2, 5, 6, 3, []⟩ : Row) ∈ s.db.rows ∧ (∀ q ∈ s.db.rows, ¬ encl q ⟨4, 2, 5, 6, 3, []⟩) := by
  obtain ⟨s, hs, e⟩ := exists_run (c := exMovers exPair exRoot) (db₀ := exPair) (js := [false, true]) (by decide)
    ([true, true] ++ List.replicate 8 false ++ List.replicate 6 true) (fun s => (s.log, s.db.rows))
    (a := ([false, true], [⟨1, 2, 1, 2, 1, []⟩, ⟨2, 1, 1, 2, 1, []⟩, ⟨3, 3, 1, 4, 1, []⟩, ⟨4, 2, 5, 6, 3, []⟩, ⟨5, 3, 2, 3, 2, []⟩])) (by decide)
  simp only [Prod.mk.injEq] at e
  refine ⟨s, hs, e.1, ?_⟩
  rw [e.2]
  decide

end NS

/-! ### AL: calls that do not move anything into a branch that is moved -/

namespace AL

/-- the objects of the calls, as fetched from the table at the start -/
structure Fetched (db : DB) (m : ι → MoveCall) (x t : ι → Row) : Prop where
  node : ∀ i, x i ∈ db.rows ∧ (x i).pk = (m i).node
  target : ∀ i, t i ∈ db.rows ∧ (t i).pk = (m i).target

/-- the clients -/
def movers (cfg : Cfg) (key : ι → Nat) (m : ι → MoveCall) (x t : ι → Row) (cached : ι → Option Int) (i : ι) : Client DB MoveVars :=
  moveClient cfg (key i) (x i) (t i) (cached i) (m i).pos

/-- What every interleaving of concurrent calls leads to, at every moment. -/
structure MovedApart (cfg : Cfg) (m : ι → MoveCall) (dst : ι → Option Nat) (db₀ : DB) (s : State ι DB MoveVars) : Prop where
  /-- no cycles, no orphans -/
  wf : Wf cfg s.db
  data : data s.db.rows = data db₀.rows
  nodup : s.log.Nodup
  log : ∀ i, i ∈ s.log ↔ ∃ l, s.phase i = .committed l
  /-- every node is where it was, or where a call that committed moved it -/
  place : ∀ k p, k ∈ forest cfg s.db p → k ∈ forest cfg db₀ p ∨ ∃ i ∈ s.log, (m i).node = k ∧ dst i = p
  /-- if no two calls move the same node, all the calls that committed took effect -/
  moved : (∀ i j, (m i).node = (m j).node → i = j) → ∀ i ∈ s.log, (m i).node ∈ forest cfg s.db (dst i)
  /-- ... and the other nodes are where they were -/
  kept : ∀ k p, (∀ i ∈ s.log, (m i).node ≠ k) → (k ∈ forest cfg s.db p ↔ k ∈ forest cfg db₀ p)

/-- **C69, AL**: any number of clients call `move` concurrently, with or without `node_order_by`, and none moves its node into a branch that
another moves.  Nothing is locked.  In every interleaving of their statements the committed table is at every moment a forest: no
cycles, no orphans, every node that is not moved below its parent, and every node that is moved below a parent asked for. -/
theorem C69_al_apart {cfg : Cfg} {db₀ : DB} (h : Wf cfg db₀) {m : ι → MoveCall} {x t : ι → Row} (hf : Fetched db₀ m x t) {dst : ι → Option Nat}
    (hd : ∀ i, (forest cfg db₀).GoesTo cfg.ordered (m i) (dst i)) (ha : (forest cfg db₀).Apart m dst) (cached : ι → Option Int) (key : ι → Nat)
    {s : State ι DB MoveVars} (hs : Reach (movers cfg key m x t cached) (.init db₀) s) : MovedApart cfg m dst db₀ s := by
  have hai : AI db₀.rows := h.ai
  let D : ι → Option Nat := fun i => destOf cfg.ordered (t i) (m i).pos
  have hD : ∀ i, D i = dst i ∨ ∃ e, preparePosForMove cfg.ordered (m i).pos = .error e := by
    intro i
    obtain ⟨p, h1, h2⟩ := hd i
    rw [forest_eq hai, ← (hf.target i).2, key_iff hai (hf.target i).1] at h1
    simp only [D, destOf]
    cases hp : preparePosForMove cfg.ordered (m i).pos with
    | error e => exact Or.inr ⟨e, rfl⟩
    | ok pos =>
      refine Or.inl ?_
      rw [h2 pos hp, ← (hf.target i).2, ← h1]
      cases pos <;> rfl
  let inj : Prop := ∀ i j, (m i).node = (m j).node → i = j
  let G : List ι → DB → Prop := fun log db => ∃ f : Row → Row, db.rows = db₀.rows.map f ∧ (∀ i ∈ log, D i = dst i) ∧
    ∀ r ∈ db₀.rows, (f r).pk = r.pk ∧ (f r).vals = r.vals ∧
    ((f r).parent = r.parent ∨ ∃ i ∈ log, (x i).pk = r.pk ∧ (f r).parent = dst i) ∧ ((∀ i ∈ log, (x i).pk ≠ r.pk) → (f r).parent = r.parent) ∧
    (inj → ∀ i ∈ log, (x i).pk = r.pk → (f r).parent = dst i)
  have hxm : ∀ i, (x i).pk = (m i).node := fun i => (hf.node i).2
  have hG0 : G [] db₀ := ⟨id, by simp, by simp, fun r hr => by simp⟩
  let stays : ι → Prop := fun i => (x i).parent = D i ∨ ¬ inj
  have hres := reach_progress (c := movers cfg key m x t cached) (G := G)
    (Q := fun i rest l w => Progress cfg (key i) (x i) (t i) (cached i) (m i).pos (stays i) rest l w)
    hG0 (fun i => progress_start ..) ?_ ?_ hs
  · obtain ⟨⟨f, h1, h2, h3⟩, -, h4, h5⟩ := hres
    have hai' : AI s.db.rows := by
      rw [h1]
      refine ai_moved (cfg := cfg) hai (fun r hr => (h3 r hr).1) (X := fun k => ∃ i, (m i).node = k) (D := fun p => ∃ i, dst i = p ∧ D i = dst i) ?_ ?_ ?_
      · intro r hr
        refine (h3 r hr).2.2.1.imp id ?_
        rintro ⟨i, hi, e1, e2⟩
        exact ⟨⟨i, (hxm i).symm.trans e1⟩, i, e2.symm, h2 i hi⟩
      · rintro p ⟨i, e1, e2⟩
        rw [e1] at e2
        simp only [D, destOf] at e2
        cases hp : preparePosForMove cfg.ordered (m i).pos with
        | error e => rw [hp] at e2; cases e2
        | ok pos =>
          rw [hp] at e2
          dsimp only at e2
          split at e2
          · cases e2; exact ⟨t i, (hf.target i).1, rfl⟩
          · exact hai.exist _ (hf.target i).1 p e2
      · rintro k p ⟨j, rfl⟩ ⟨i, e1, -⟩
        have := ha i j p e1
        rw [forest_eq hai] at this
        exact ⟨fun e => this (Or.inl e), fun e => this (Or.inr e)⟩
    have hmem : ∀ k p, k ∈ forest cfg s.db p ↔ ∃ r ∈ db₀.rows, r.pk = k ∧ (f r).parent = p := by
      intro k p
      rw [forest_eq hai', mem_PF, h1]
      constructor
      · rintro ⟨r', hr', e1, e2⟩
        obtain ⟨r, hr, rfl⟩ := List.mem_map.1 hr'
        exact ⟨r, hr, (h3 r hr).1.symm.trans e2, e1⟩
      · rintro ⟨r, hr, e1, e2⟩
        exact ⟨f r, List.mem_map_of_mem hr, e2, (h3 r hr).1.trans e1⟩
    have hmem₀ : ∀ k p, k ∈ forest cfg db₀ p ↔ ∃ r ∈ db₀.rows, r.parent = p ∧ r.pk = k := by
      intro k p
      rw [forest_eq hai, mem_PF]
    refine ⟨wf_of_ai hai', ?_, h4, h5, fun k p hk => ?_, fun hinj i hi => ?_, fun k p hno => ?_⟩
    · unfold AL.data
      rw [h1, List.map_map]
      refine List.map_congr_left fun r hr => ?_
      simp only [Function.comp, (h3 r hr).1, (h3 r hr).2.1]
    · obtain ⟨r, hr, rfl, e⟩ := (hmem k p).1 hk
      rcases (h3 r hr).2.2.1 with e1 | ⟨i, hi, e1, e2⟩
      · exact Or.inl ((hmem₀ _ _).2 ⟨r, hr, by rw [← e1, e], rfl⟩)
      · exact Or.inr ⟨i, hi, (hxm i).symm.trans e1, by rw [← e2, e]⟩
    · exact (hmem _ _).2 ⟨x i, (hf.node i).1, hxm i, (h3 _ (hf.node i).1).2.2.2.2 hinj i hi rfl⟩
    · rw [hmem, hmem₀]
      constructor
      · rintro ⟨r, hr, rfl, e⟩
        exact ⟨r, hr, by rw [← e, (h3 r hr).2.2.2.1 (fun i hi e => hno i hi ((hxm i).symm.trans e))], rfl⟩
      · rintro ⟨r, hr, e, rfl⟩
        exact ⟨r, hr, rfl, by rw [← e, (h3 r hr).2.2.2.1 (fun i hi e => hno i hi ((hxm i).symm.trans e))]⟩
  · intro log db i st rest l w u l' hG hi hQ e
    obtain ⟨f, h1, h2, h3⟩ := hG
    refine progress_step ?_ hQ e
    intro r hr hk hp heff
    by_cases hinj : inj
    · refine Or.inl ?_
      rcases hr with rfl | hr
      · rw [hai.pk_inj (hf.node i).1 (hf.target i).1 hk.symm]
        exact hp
      · have hx : ∃ r ∈ db.rows, r.pk = (x i).pk := by
          rw [h1]
          exact ⟨f (x i), List.mem_map_of_mem (hf.node i).1, (h3 _ (hf.node i).1).1⟩
        obtain ⟨g, g1, g2⟩ := heff db hx
        rw [g1, h1, List.map_map] at hr
        obtain ⟨r₀, hr₀, rfl⟩ := List.mem_map.1 hr
        simp only [Function.comp] at hk hp
        have e0 : r₀ = x i := hai.pk_inj hr₀ (hf.node i).1 (by rw [← hk, (g2 _).1, (h3 _ hr₀).1])
        subst e0
        have := (g2 (f (x i))).2.2 (h3 _ hr₀).1
        rw [if_neg (by simp)] at this
        rw [this.1] at hp
        have hno := (h3 _ hr₀).2.2.2.1 (fun j hj e => hi (by
          have := hinj j i (by rw [← hxm, ← hxm, e])
          rwa [this] at hj))
        rw [← hno]
        exact hp
    · exact Or.inr hinj
  · intro log db i l w hG hi hQ _
    obtain ⟨f, h1, h2, h3⟩ := hG
    obtain ⟨mv, e1, e2, pos, e3⟩ := progress_end hQ
    have hDi : D i = dst i := (hD i).resolve_right (by rintro ⟨e, e'⟩; rw [e3] at e'; cases e')
    have hx : ∃ r ∈ db.rows, r.pk = (x i).pk := by
      rw [h1]
      exact ⟨f (x i), List.mem_map_of_mem (hf.node i).1, (h3 _ (hf.node i).1).1⟩
    obtain ⟨g, g1, g2⟩ := e1 db hx
    refine ⟨g ∘ f, by rw [g1, h1, List.map_map], ?_, fun r hr => ?_⟩
    · intro j hj
      rcases List.mem_append.1 hj with hj | hj
      · exact h2 j hj
      · rw [List.mem_singleton.1 hj]; exact hDi
    · obtain ⟨k1, k2, k3, k4, k5⟩ := h3 r hr
      obtain ⟨l1, l2, l3⟩ := g2 (f r)
      simp only [Function.comp]
      by_cases hk : (x i).pk = r.pk
      · have l4 := l3 (by rw [k1, hk])
        have hrx : r = x i := hai.pk_inj hr (hf.node i).1 hk.symm
        cases mv with
        | true =>
          rw [if_pos rfl] at l4
          have l5 : (g (f r)).parent = dst i := l4.1.trans hDi
          refine ⟨l1.trans k1, by rw [l4.2, hrx], Or.inr ⟨i, by simp, hk, l5⟩, fun hno => absurd hk (hno i (by simp)), fun hinj j hj e => ?_⟩
          rw [hinj j i (by rw [← hxm, ← hxm, e, hk])]
          exact l5
        | false =>
          rw [if_neg (by simp)] at l4
          refine ⟨l1.trans k1, l4.2.trans k2, ?_, fun hno => absurd hk (hno i (by simp)), fun hinj j hj e => ?_⟩
          · rw [l4.1]
            exact k3.imp id (fun ⟨j, hj, e⟩ => ⟨j, by simp [hj], e⟩)
          · have hji := hinj j i (by rw [← hxm, ← hxm, e, hk])
            subst hji
            have hno := k4 (fun q hq e => hi (by
              have := hinj q j (by rw [← hxm, ← hxm, e, hk])
              rwa [this] at hq))
            have := (e2 rfl).resolve_right (fun h => h hinj)
            rw [l4.1, hno, hrx, this, hDi]
      · obtain ⟨l4, l5⟩ := l2 (by rw [k1]; exact fun e => hk e.symm)
        refine ⟨l1.trans k1, l5.trans k2, ?_, fun hno => ?_, fun hinj j hj e => ?_⟩
        · rw [l4]
          exact k3.imp id (fun ⟨j, hj, e⟩ => ⟨j, by simp [hj], e⟩)
        · rw [l4]; exact k4 (fun j hj => hno j (by simp [hj]))
        · rcases List.mem_append.1 hj with hj | hj
          · rw [l4]; exact k5 hinj j hj e
          · rw [List.mem_singleton.1 hj] at e; exact absurd e hk

/-- the row with a key, in an example -/
def rowOf (db : DB) (k : Nat) : Row := (db.get? k).getD ⟨0, none, 0, []⟩

/-- the two clients of an example -/
def exMovers (m : Bool → MoveCall) : Bool → Client DB MoveVars :=
  movers exPlain (fun b => if b then 1 else 0) m (fun b => rowOf exDB (m b).node) (fun b => rowOf exDB (m b).target) (fun _ => none)

/-- 2 below 5, and 3 before 2 -/
def exApart : Bool → MoveCall := fun b => if b then ⟨2, 5, some .lastChild⟩ else ⟨3, 2, some .left⟩

/-- a case of the theorem: both calls commit, the statements of one between those of the other -/
example : Fetched exDB exApart (fun b => rowOf exDB (exApart b).node) (fun b => rowOf exDB (exApart b).target) ∧
    (∀ b, (forest exPlain exDB).GoesTo false (exApart b) (if b then some 5 else some 1)) ∧
    (forest exPlain exDB).Apart exApart (fun b => if b then some 5 else some 1) ∧
    (runs (exMovers exApart) [false, true] (.init exDB) ([true, true, true, false, true, false] ++ List.replicate 4 true ++ List.replicate 6 false)).map
      (fun s => (s.log, s.db.rows.map fun r => (r.pk, r.parent))) = some ([true, false], [(1, none), (3, some 1), (2, some 5), (4, some 3), (5, none)]) := by
  have hd : ∀ a k, (forest exPlain exDB).Desc a k → (a = 1 ∨ a = 3) ∧ (k = 2 ∨ k = 3 ∨ k = 4) := by
    intro a k hk
    rw [forest_eq exDB_inv.toAI] at hk
    induction hk with
    | child hm =>
      obtain ⟨r, hr, hp, rfl⟩ := mem_PF.1 hm
      simp only [exDB, List.mem_cons, List.not_mem_nil, or_false] at hr
      rcases hr with rfl | rfl | rfl | rfl | rfl <;> simp at hp <;> subst hp <;> decide
    | step _ hm ih =>
      refine ⟨ih.1, ?_⟩
      obtain ⟨r, hr, hp, rfl⟩ := mem_PF.1 hm
      simp only [exDB, List.mem_cons, List.not_mem_nil, or_false] at hr
      rcases hr with rfl | rfl | rfl | rfl | rfl <;> simp at hp <;> decide
  refine ⟨⟨by decide, by decide⟩, ?_, ?_, by decide⟩
  · intro b
    cases b
    · exact ⟨some 1, by decide, fun p hp => by cases hp; rfl⟩
    · exact ⟨none, by decide, fun p hp => by cases hp; rfl⟩
  · intro i j p hp
    rintro (e | e)
    · cases i <;> cases j <;> simp [exApart] at hp e <;> omega
    · have := hd _ _ e
      cases i <;> cases j <;> simp [exApart] at hp this <;> omega

/-- 2 below 3, and 3 below 2 -/
def exSwap : Bool → MoveCall := fun b => if b then ⟨2, 3, some .lastChild⟩ else ⟨3, 2, some .lastChild⟩

/-- **Concurrent moves make a cycle**: both clients check that the target is not below the node, both commit, and each node is the parent
of the other.  `get_descendants` of the root no longer shows them, and `get_ancestors` of them never returns. -/
theorem C69_al_cycle : ∃ s, Reach (exMovers exSwap) (.init exDB) s ∧ s.log = [true, false] ∧ ¬ Wf exPlain s.db ∧
    forest exPlain s.db (some 2) = [3] ∧ 2 ∈ forest exPlain s.db (some 3) := by
  obtain ⟨s, hs, e⟩ := exists_run (c := exMovers exSwap) (db₀ := exDB) (js := [false, true]) (by decide)
    ([true, true, true, false, false, false] ++ List.replicate 5 true ++ List.replicate 5 false) (fun s => (s.log, s.db))
    (a := ([true, false], ⟨[⟨1, none, 2, []⟩, ⟨3, some 2, 1, []⟩, ⟨2, some 3, 2, []⟩, ⟨4, some 3, 1, []⟩, ⟨5, none, 3, []⟩]⟩)) (by decide)
  simp only [Prod.mk.injEq] at e
  refine ⟨s, hs, e.1, fun h => ?_, ?_⟩
  · obtain ⟨rank, hr⟩ := h.ai.rank
    rw [e.2] at hr
    have h1 := hr ⟨3, some 2, 1, []⟩ (by simp) 2 rfl
    have h2 := hr ⟨2, some 3, 2, []⟩ (by simp) 3 rfl
    dsimp only at h1 h2
    omega
  · rw [e.2]; decide

end AL

end Verif
