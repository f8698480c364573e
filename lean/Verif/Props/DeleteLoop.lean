/-
C80: deleting several nodes one after the other, with objects fetched before.
-/
import Verif.SpecDeleteLoop
import Verif.DeleteLoopModel
import Verif.Props.MPDelete
import Verif.MP.Example
import Verif.NS.Example
import Verif.AL.Example
import Verif.LT.Example
import Verif.Props.AdminSearch
import Verif.Props.NSTree
import Verif.Props.ALTree
import Verif.Props.LTTree
import Verif.NS.Dump
import Verif.LT.Dump
import Verif.PageLemmas

namespace Verif

theorem anyOf_batches (bs : List (List Nat)) : AnyOf (bs.map (fun b k => b.contains k)) = fun k => bs.flatten.contains k := by
  funext k
  rw [Bool.eq_iff_iff]
  simp [AnyOf, List.mem_flatten]

theorem anyOf_keys (ks : List Nat) : AnyOf (ks.map (fun a k => k == a)) = fun k => ks.contains k := by
  funext k
  rw [Bool.eq_iff_iff]
  simp [AnyOf]

namespace MP

variable {cfg : Cfg} {db : DB}

/-- a row but for the number of children -/
def core (r : Row) : Row := { r with numchild := 0 }

theorem core_list : ∀ {l₁ l₂ : List Row}, l₁.map core = l₂.map core → (∀ a ∈ l₁, ∀ b ∈ l₂, a.pk = b.pk → a.numchild = b.numchild) → l₁ = l₂ := by
  intro l₁
  induction l₁ with
  | nil => intro l₂ h _; cases l₂ with
    | nil => rfl
    | cons b l₂ => cases h
  | cons a l₁ ih =>
    intro l₂ h hn
    cases l₂ with
    | nil => cases h
    | cons b l₂ =>
      rw [List.map_cons, List.map_cons] at h
      obtain ⟨h1, h2⟩ := List.cons.inj h
      have hpk : a.pk = b.pk := by
        show (core a).pk = (core b).pk
        rw [h1]
      have hnum := hn a (List.mem_cons_self ..) b (List.mem_cons_self ..) hpk
      have : a = b := by
        cases a; cases b
        simp only [core, Row.mk.injEq] at h1 hnum ⊢
        exact ⟨h1.1, h1.2.1, h1.2.2.1, hnum, h1.2.2.2.2⟩
      rw [this, ih h2 (fun x hx y hy => hn x (List.mem_cons_of_mem _ hx) y (List.mem_cons_of_mem _ hy))]

/-- a single deletion -/
theorem deletes (hok : cfg.Ok) : Deletes (fun db S => delete cfg db (fun r => S r.pk)) (Consistent cfg) (forest cfg) (fun db => db.rows.map core) Row.pk := by
  have hkeys : ∀ l : List Row, (l.map core).map Row.pk = l.map Row.pk := fun l => by rw [List.map_map]; rfl
  refine ⟨fun {db} h p k hk => ?_, fun {db} h S => ?_⟩
  · rw [hkeys]
    exact (isForestOn_forest hok h).good.sub p k hk
  · have hi := (consistent_iff hok).1 h
    have hd := delete_spec hok hi (fun r => S r.pk)
    obtain ⟨g, R, _, _, e, og, _⟩ := delete_rows hok hi (fun r => S r.pk)
    refine ⟨doomedPk db.rows (fun r => S r.pk), ?_, (consistent_iff hok).2 hd.inv, ?_, ?_⟩
    · intro k
      rw [hkeys]
      exact doomed_spec hok hi S k
    · rw [forest_eq hd.inv hok, forest_eq hi hok]; exact hd.forest
    · rw [e, List.map_map, List.filter_map]
      have hc : core ∘ g = core := by
        funext r
        show core (g r) = core r
        unfold core
        rw [Row.mk.injEq]
        exact ⟨og.pk r, og.path r, og.depth r, rfl, og.vals r⟩
      rw [hc]
      refine congrArg _ (List.filter_congr (fun r hr => ?_))
      show _ = !doomedPk db.rows (fun r => S r.pk) r.pk
      rw [doomedPk_pk hi.toPInv _ hr]

/-- the same rows but for the children counts, and the same tree: the same rows -/
theorem rows_eq (hok : cfg.Ok) {d₁ d₂ : DB} (h₁ : Consistent cfg d₁) (h₂ : Consistent cfg d₂) (hf : forest cfg d₁ = forest cfg d₂)
    (hr : d₁.rows.map core = d₂.rows.map core) : d₁.rows = d₂.rows := by
  have i₁ := (consistent_iff hok).1 h₁
  have i₂ := (consistent_iff hok).1 h₂
  rw [forest_eq i₁ hok, forest_eq i₂ hok] at hf
  refine core_list hr (fun a ha b hb e => ?_)
  rw [i₁.num a ha, i₂.num b hb, e]
  exact congrArg (fun F : Forest => ((F (some b.pk)).length : Int)) hf

theorem loop_rows (hok : cfg.Ok) (h : Consistent cfg db) (Ss : List (Nat → Bool)) :
    let out := Ss.foldl (fun db S => delete cfg db (fun r => S r.pk)) db
    Consistent cfg out ∧ out.rows = (delete cfg db (fun r => AnyOf Ss r.pk)).rows ∧
      ∃ D, (forest cfg db).Goes (db.rows.map Row.pk) (AnyOf Ss) D ∧ forest cfg out = (forest cfg db).prune D ∧ data out.rows = (data db.rows).filter (fun e => !D e.1) := by
  have H := deletes hok
  obtain ⟨D, h1, h2, h3, h4⟩ := H.loop Ss h
  obtain ⟨e1, e2⟩ := H.one Ss h
  obtain ⟨D', d1, d2, d3, d4⟩ := C09_delete hok h (AnyOf Ss)
  have hrows := rows_eq hok h2 d2 e1 e2
  have : D = D' := Forest.Goes.unique (ids := db.rows.map Row.pk) (by rwa [List.map_map] at h1) d1
  refine ⟨h2, hrows, D', d1, by rw [← this]; exact h3, by rw [← d4]; exact congrArg data hrows⟩

/-- **C80 for MP, batches**: deleting batch after batch, the batches overlapping or not, leaves the very rows that deleting all at once leaves. -/
theorem C80_mp_batches (hok : cfg.Ok) (h : Consistent cfg db) (batches : List (List Nat)) :
    Consistent cfg (deleteBatches cfg db batches) ∧
    (deleteBatches cfg db batches).rows = (delete cfg db (fun r => batches.flatten.contains r.pk)).rows ∧
    ∃ D, (forest cfg db).Goes (db.rows.map Row.pk) (fun k => batches.flatten.contains k) D ∧ forest cfg (deleteBatches cfg db batches) = (forest cfg db).prune D ∧
      data (deleteBatches cfg db batches).rows = (data db.rows).filter (fun e => !D e.1) := by
  have := loop_rows hok h (batches.map (fun b k => b.contains k))
  rw [List.foldl_map, anyOf_batches] at this
  exact this

/-- **C80 for MP**: the objects may be of any age and in any order, nodes may come twice, before or after a node below them or above them; what goes is these nodes and what is below
them, and every row is left as by one deletion of all of them. -/
theorem C80_mp (hok : cfg.Ok) (h : Consistent cfg db) (nodes : List Row) :
    Consistent cfg (deleteLoop cfg db nodes) ∧
    (deleteLoop cfg db nodes).rows = (delete cfg db (fun r => (nodes.map Row.pk).contains r.pk)).rows ∧
    ∃ D, (forest cfg db).Goes (db.rows.map Row.pk) (fun k => (nodes.map Row.pk).contains k) D ∧ forest cfg (deleteLoop cfg db nodes) = (forest cfg db).prune D ∧
      data (deleteLoop cfg db nodes).rows = (data db.rows).filter (fun e => !D e.1) := by
  have := loop_rows hok h ((nodes.map Row.pk).map (fun a k => k == a))
  rw [List.foldl_map, List.foldl_map, anyOf_keys] at this
  exact this

/-- a node below another one, that one, the first again, and one that never was -/
example : Consistent exCfg exDB ∧ (deleteLoop exCfg exDB [⟨4, [49, 51, 49], 3, 0, []⟩, ⟨3, [49, 51], 2, 1, []⟩, ⟨4, [49, 51, 49], 3, 0, []⟩, ⟨9, [49], 1, 0, []⟩]).rows =
    [⟨1, [49], 1, 1, []⟩, ⟨5, [51], 1, 0, []⟩, ⟨2, [49, 49], 2, 0, []⟩] ∧
    (deleteBatches exCfg exDB [[2, 4], [3, 4], []]).rows = [⟨1, [49], 1, 0, []⟩, ⟨5, [51], 1, 0, []⟩] :=
  ⟨exDB_consistent, by decide, by decide⟩

end MP

namespace NS

variable {db : DB}

theorem deletes : Deletes (fun db S => delete db (fun r => S r.pk)) Consistent forest (fun db => data db.rows) Prod.fst := by
  refine ⟨fun {db} h p k hk => (isForestOn h).good.sub p k hk, fun {db} h S => ?_⟩
  obtain ⟨D, d1, d2, d3, d4⟩ := C24_delete h S
  refine ⟨D, fun k => ?_, d2, d3, d4⟩
  rw [keys_eq]
  exact d1 k

theorem loop_rows (h : Consistent db) (Ss : List (Nat → Bool)) :
    let out := Ss.foldl (fun db S => delete db (fun r => S r.pk)) db
    Consistent out ∧ (forest out = forest (delete db (fun r => AnyOf Ss r.pk)) ∧ data out.rows = data (delete db (fun r => AnyOf Ss r.pk)).rows) ∧
      ∃ D, (forest db).Goes (db.rows.map Row.pk) (AnyOf Ss) D ∧ forest out = (forest db).prune D ∧ data out.rows = (data db.rows).filter (fun e => !D e.1) := by
  obtain ⟨D, h1, h2, h3, h4⟩ := deletes.loop Ss h
  exact ⟨h2, deletes.one Ss h, D, by rwa [keys_eq] at h1, h3, h4⟩

/-- **C80 for NS, batches.** -/
theorem C80_ns_batches (h : Consistent db) (batches : List (List Nat)) :
    Consistent (deleteBatches db batches) ∧
    (forest (deleteBatches db batches) = forest (delete db (fun r => batches.flatten.contains r.pk)) ∧
      data (deleteBatches db batches).rows = data (delete db (fun r => batches.flatten.contains r.pk)).rows) ∧
    ∃ D, (forest db).Goes (db.rows.map Row.pk) (fun k => batches.flatten.contains k) D ∧ forest (deleteBatches db batches) = (forest db).prune D ∧
      data (deleteBatches db batches).rows = (data db.rows).filter (fun e => !D e.1) := by
  have := loop_rows h (batches.map (fun b k => b.contains k))
  rw [List.foldl_map, anyOf_batches] at this
  exact this

/-- **C80 for NS**: although each deletion renumbers the nodes to its right, the objects may be of any age. -/
theorem C80_ns (h : Consistent db) (nodes : List Row) :
    Consistent (deleteLoop db nodes) ∧
    (forest (deleteLoop db nodes) = forest (delete db (fun r => (nodes.map Row.pk).contains r.pk)) ∧
      data (deleteLoop db nodes).rows = data (delete db (fun r => (nodes.map Row.pk).contains r.pk)).rows) ∧
    ∃ D, (forest db).Goes (db.rows.map Row.pk) (fun k => (nodes.map Row.pk).contains k) D ∧ forest (deleteLoop db nodes) = (forest db).prune D ∧
      data (deleteLoop db nodes).rows = (data db.rows).filter (fun e => !D e.1) := by
  have := loop_rows h ((nodes.map Row.pk).map (fun a k => k == a))
  rw [List.foldl_map, List.foldl_map, anyOf_keys] at this
  exact this

/-- the second object says 4 to 7, where nothing is by then -/
example : Consistent exDB ∧ (deleteLoop exDB [⟨2, 1, 2, 3, 2, []⟩, ⟨3, 1, 4, 7, 2, []⟩, ⟨4, 1, 5, 6, 3, []⟩]).rows = [⟨1, 1, 1, 2, 1, []⟩, ⟨5, 2, 1, 2, 1, []⟩] ∧
    (deleteBatches exDB [[2, 4], [5, 2]]).rows = [⟨1, 1, 1, 4, 1, []⟩, ⟨3, 1, 2, 3, 2, []⟩] :=
  ⟨exDB_inv, by decide, by decide⟩

end NS

namespace AL

variable {cfg : Cfg} {db : DB}

/-- the children as they come from the table, in no particular order -/
def bare (rows : List Row) : Forest := fun p => (rows.filter (fun r => decide (r.parent = p))).map Row.pk

theorem mem_bare {rows : List Row} {p : Option Nat} {k : Nat} : k ∈ bare rows p ↔ ∃ r ∈ rows, r.parent = p ∧ r.pk = k := by
  unfold bare
  simp [and_assoc]

theorem doomed_bare (h : AI db.rows) {S : Nat → Bool} {k : Nat} : Tree.Doomed (bare db.rows) S k ↔ Tree.Doomed (forest cfg db) S k := by
  have hm : ∀ p k, k ∈ bare db.rows p ↔ k ∈ forest cfg db p := by
    intro p k
    rw [forest_eq h, mem_PF, mem_bare]
  have hd : ∀ a k, (bare db.rows).Desc a k ↔ (forest cfg db).Desc a k := by
    intro a k
    constructor
    · intro h
      induction h with
      | child h => exact .child ((hm _ _).1 h)
      | step _ h ih => exact .step ih ((hm _ _).1 h)
    · intro h
      induction h with
      | child h => exact .child ((hm _ _).2 h)
      | step _ h ih => exact .step ih ((hm _ _).2 h)
  unfold Tree.Doomed
  simp only [hd]

theorem deletes (cfg : Cfg) : Deletes (fun db S => delete db (fun r => S r.pk)) (fun db => AI db.rows) (fun db => bare db.rows) DB.rows Row.pk := by
  refine ⟨fun {db} h p k hk => ?_, fun {db} h S => ⟨gone db (fun r => S r.pk), fun k => ?_, ai_delete h S, ?_, rfl⟩⟩
  · obtain ⟨r, hr, _, rfl⟩ := mem_bare.1 hk
    exact List.mem_map_of_mem hr
  · rw [doomed_bare (cfg := cfg) h, forest_eq h]
    exact gone_iff h S
  · funext p
    unfold Forest.prune bare
    rw [delete_rows, List.filter_filter]
    have hcomm : ∀ p, ((db.rows.filter (fun r => decide (r.parent = p))).map Row.pk).filter (fun y => !gone db (fun r => S r.pk) y) =
        (db.rows.filter (fun r => decide (r.parent = p) && !gone db (fun r => S r.pk) r.pk)).map Row.pk := by
      intro p
      rw [List.filter_map, List.filter_filter]
      refine congrArg _ (List.filter_congr (fun r _ => ?_))
      exact Bool.and_comm _ _
    cases p with
    | none => exact (hcomm none).symm
    | some q =>
      dsimp only
      split
      · rename_i hg
        rw [List.map_eq_nil_iff, List.filter_eq_nil_iff]
        intro r hr hc
        rw [Bool.and_eq_true, decide_eq_true_eq] at hc
        rw [gone_child h S hr hc.1 hg] at hc
        cases hc.2
      · exact (hcomm (some q)).symm

theorem loop_rows (h : Wf cfg db) (Ss : List (Nat → Bool)) :
    let out := Ss.foldl (fun db S => delete db (fun r => S r.pk)) db
    Wf cfg out ∧ out = delete db (fun r => AnyOf Ss r.pk) ∧
      ∃ D, (forest cfg db).Goes (db.rows.map Row.pk) (AnyOf Ss) D ∧ out.rows = db.rows.filter (fun r => !D r.pk) := by
  obtain ⟨D, h1, h2, _, h4⟩ := (deletes cfg).loop Ss h.ai
  obtain ⟨_, e⟩ := (deletes cfg).one Ss h.ai
  refine ⟨wf_of_ai h2, ?_, D, fun k => ?_, h4⟩
  · exact congrArg DB.mk e
  · rw [← doomed_bare h.ai]; exact h1 k

/-- **C80 for AL, batches**, with or without `node_order_by`. -/
theorem C80_al_batches (h : Wf cfg db) (batches : List (List Nat)) :
    Wf cfg (deleteBatches db batches) ∧ deleteBatches db batches = delete db (fun r => batches.flatten.contains r.pk) ∧
    ∃ D, (forest cfg db).Goes (db.rows.map Row.pk) (fun k => batches.flatten.contains k) D ∧ (deleteBatches db batches).rows = db.rows.filter (fun r => !D r.pk) := by
  have := loop_rows h (batches.map (fun b k => b.contains k))
  rw [List.foldl_map, anyOf_batches] at this
  exact this

/-- **C80 for AL**, with or without `node_order_by`. -/
theorem C80_al (h : Wf cfg db) (nodes : List Row) :
    Wf cfg (deleteLoop db nodes) ∧ deleteLoop db nodes = delete db (fun r => (nodes.map Row.pk).contains r.pk) ∧
    ∃ D, (forest cfg db).Goes (db.rows.map Row.pk) (fun k => (nodes.map Row.pk).contains k) D ∧ (deleteLoop db nodes).rows = db.rows.filter (fun r => !D r.pk) := by
  have := loop_rows h ((nodes.map Row.pk).map (fun a k => k == a))
  rw [List.foldl_map, List.foldl_map, anyOf_keys] at this
  exact this

example : Wf exPlain exDB ∧ (deleteLoop exDB [⟨4, some 3, 1, []⟩, ⟨3, some 1, 4, []⟩, ⟨4, some 3, 1, []⟩]).rows = [⟨1, none, 2, []⟩, ⟨2, some 1, 1, []⟩, ⟨5, none, 3, []⟩] ∧
    (deleteBatches exDB [[2, 4], [3, 4]]).rows = [⟨1, none, 2, []⟩, ⟨5, none, 3, []⟩] :=
  ⟨(consistent_of_inv rfl exDB_inv).toWf, by decide, by decide⟩

end AL

namespace LT

variable {db : DB}

theorem deletes : Deletes (fun db S => delete db (fun r => S r.pk)) Consistent forest DB.rows Row.pk := by
  refine ⟨fun {db} h p k hk => ?_, fun {db} h S => ?_⟩
  · have := (isForestOn h).good.sub p k hk
    rwa [show (data db.rows).map Prod.fst = db.rows.map Row.pk by unfold data; rw [List.map_map]; rfl] at this
  · exact C37_delete h S

theorem loop_rows (h : Consistent db) (Ss : List (Nat → Bool)) :
    let out := Ss.foldl (fun db S => delete db (fun r => S r.pk)) db
    Consistent out ∧ out.rows = (delete db (fun r => AnyOf Ss r.pk)).rows ∧
      ∃ D, (forest db).Goes (db.rows.map Row.pk) (AnyOf Ss) D ∧ forest out = (forest db).prune D ∧ out.rows = db.rows.filter (fun r => !D r.pk) := by
  obtain ⟨D, h1, h2, h3, h4⟩ := deletes.loop Ss h
  exact ⟨h2, (deletes.one Ss h).2, D, h1, h3, h4⟩

/-- **C80 for LT, batches.** -/
theorem C80_lt_batches (h : Consistent db) (batches : List (List Nat)) :
    Consistent (deleteBatches db batches) ∧ (deleteBatches db batches).rows = (delete db (fun r => batches.flatten.contains r.pk)).rows ∧
    ∃ D, (forest db).Goes (db.rows.map Row.pk) (fun k => batches.flatten.contains k) D ∧ forest (deleteBatches db batches) = (forest db).prune D ∧
      (deleteBatches db batches).rows = db.rows.filter (fun r => !D r.pk) := by
  have := loop_rows h (batches.map (fun b k => b.contains k))
  rw [List.foldl_map, anyOf_batches] at this
  exact this

/-- **C80 for LT.** -/
theorem C80_lt (h : Consistent db) (nodes : List Row) :
    Consistent (deleteLoop db nodes) ∧ (deleteLoop db nodes).rows = (delete db (fun r => (nodes.map Row.pk).contains r.pk)).rows ∧
    ∃ D, (forest db).Goes (db.rows.map Row.pk) (fun k => (nodes.map Row.pk).contains k) D ∧ forest (deleteLoop db nodes) = (forest db).prune D ∧
      (deleteLoop db nodes).rows = db.rows.filter (fun r => !D r.pk) := by
  have := loop_rows h ((nodes.map Row.pk).map (fun a k => k == a))
  rw [List.foldl_map, List.foldl_map, anyOf_keys] at this
  exact this

example : Consistent exDB ∧ (deleteLoop exDB [⟨4, [[65], [66], [65]], []⟩, ⟨3, [[65], [66]], []⟩, ⟨4, [[65], [66], [65]], []⟩]).rows = [⟨5, [[66]], []⟩, ⟨1, [[65]], []⟩, ⟨2, [[65], [65]], []⟩] ∧
    (deleteBatches exDB [[2, 4], [3, 4]]).rows = [⟨5, [[66]], []⟩, ⟨1, [[65]], []⟩] :=
  ⟨consistent_iff.2 exDB_inv, by decide, by decide⟩

end LT

end Verif
