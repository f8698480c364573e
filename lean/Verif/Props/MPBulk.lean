/-
C20 for MP: `load_bulk(bulk_create=True)` against `load_bulk()`.
-/
import Verif.MP.LoadCreate
import Verif.Props.MPAdd
import Verif.MP.Example

namespace Verif.MP

variable {cfg : Cfg} {db : DB}

/-- C20, partial: If `load_bulk` loads a structure below `parent` (or as roots) of a consistent tree, then `load_bulk(bulk_create=True)` loads it too:
the rows that were there end the same, the new rows have the same paths, depths, children counts and data, and with the same primary keys for the items
(`a = b`, as with `keep_ids`) the tables are the same.  `a` and `b` are the structure with the keys that the nodes get in the two cases.

With `node_order_by`, every item of the structure must not sort before the siblings that are there or are given before it.

What is missing, because the code does not do it (`C20_mp_overflow`, `C20_mp_wrong_parent` below): if `load_bulk` raises `PathOverflow` then so does
`load_bulk(bulk_create=True)`; and structures given in another order for a tree with `node_order_by`. -/
theorem C20_mp_partial (hok : cfg.Ok) (h : Consistent cfg db) {parent : Option Row} (hp : ∀ p, parent = some p → p ∈ db.rows) {a b : Nest (Nat × Vals)}
    (hsame : a.map Prod.snd = b.map Prod.snd)
    (hnda : (a.labels.map Prod.fst).Nodup) (hfa : ∀ k ∈ a.labels.map Prod.fst, ∀ r ∈ db.rows, r.pk ≠ k)
    (hndb : (b.labels.map Prod.fst).Nodup) (hfb : ∀ k ∈ b.labels.map Prod.fst, ∀ r ∈ db.rows, r.pk ≠ k)
    (hsort : cfg.ordered = true → Rising cfg.orderBy ((forest cfg db (parent.map Row.pk)).map (valsOf db)) a)
    {db1 : DB} {added1 : List Nat} (e : load cfg db parent a = .ok (db1, added1)) :
    ∃ db2 added2, loadCreate cfg db parent b = .ok (db2, added2) ∧
      added1 = a.labels.map Prod.fst ∧ added2.Perm (b.labels.map Prod.fst) ∧
      Consistent cfg db1 ∧ Consistent cfg db2 ∧
      (∃ old new1 new2, db1.rows.Perm (old ++ new1) ∧ db2.rows.Perm (old ++ new2) ∧ old.map Row.pk = db.rows.map Row.pk ∧
        new1.map Row.pk = a.labels.map Prod.fst ∧ new2.map Row.pk = b.labels.map Prod.fst ∧
        new1.map (fun r => (r.path, r.depth, r.numchild, r.vals)) = new2.map (fun r => (r.path, r.depth, r.numchild, r.vals))) ∧
      (a = b → db1.rows.Perm db2.rows ∧ forest cfg db1 = forest cfg db2) := by
  have hi := (consistent_iff hok).1 h
  obtain ⟨m, s⟩ := Spot.init hok hi hp
  generalize hPe : (parent.map Row.path).getD [] = P at s
  generalize (parent.map Row.depth).getD 0 = d at s
  have hP : IsPar db.rows P ∧ at? db.rows P = parent.map Row.pk := by
    subst hPe
    cases parent with
    | none => exact ⟨Or.inl rfl, at?_nil hi.toPInv hok⟩
    | some p => exact ⟨Or.inr ⟨p, hp p rfl, rfl⟩, at?_row hi.toPInv (hp p rfl)⟩
  have hord : cfg.ordered = true → Rising cfg.orderBy ((forest cfg db (parent.map Row.pk)).map (valsOf db)) a ∧
      ∀ r ∈ db.rows, pp cfg.steplen r.path = P → r.vals ∈ (forest cfg db (parent.map Row.pk)).map (valsOf db) := by
    intro ho
    refine ⟨hsort ho, fun r hr hpp => ?_⟩
    rw [List.mem_map]
    refine ⟨r.pk, ?_, valsOf_row hi.inv hr⟩
    rw [forest_eq hi hok, mem_PF hi.toPInv]
    exact ⟨r, hr, by rw [← hP.2]; exact (par_eq_at hi.toPInv hok hr hP.1).2 hpp, rfl⟩
  rw [load, loadBulk_eq] at e
  obtain ⟨hra, ea, _, hia⟩ := load_exact hok s hnda hfa hord (Or.inr ⟨_, e⟩)
  have e' := e
  rw [show (fun db p a => addTo cfg db p ⟨a.1, [], 0, 0, a.2⟩) = (fun db p a => addTo cfg db p (fresh a)) from rfl, ea] at e'
  obtain ⟨rfl, rfl⟩ := Prod.mk.inj (Except.ok.inj e')
  have hrb : Room cfg d m b := hra.congr hsame
  have hordb : cfg.ordered = true → Rising cfg.orderBy ((forest cfg db (parent.map Row.pk)).map (valsOf db)) b ∧
      ∀ r ∈ db.rows, pp cfg.steplen r.path = P → r.vals ∈ (forest cfg db (parent.map Row.pk)).map (valsOf db) :=
    fun ho => ⟨(hord ho).1.congr hsame, (hord ho).2⟩
  obtain ⟨_, _, _, hib⟩ := load_exact hok s hndb hfb hordb (Or.inl hrb)
  have hfl := firstLevel_exact hok s hndb hfb hordb hrb
  have hperm : (db.rows.map (grow P b.tops.length) ++ layTops cfg P d m b ++ layRest cfg P d m b).Perm (loaded cfg db P d m b).rows := by
    rw [List.append_assoc]
    exact List.Perm.append_left _ (layout_perm P d m b)
  have hinv2 := hib hi
  have hbulk : bulkCreate { db with rows := db.rows.map (grow P b.tops.length) ++ layTops cfg P d m b } (layRest cfg P d m b) =
      .ok { db with rows := db.rows.map (grow P b.tops.length) ++ layTops cfg P d m b ++ layRest cfg P d m b } := by
    unfold bulkCreate uniquePaths
    rw [if_pos]
    simp only [Bool.and_eq_true, decide_eq_true_eq]
    exact ⟨(hperm.map Row.pk).nodup_iff.2 hinv2.inv.pkNodup, (hperm.map Row.path).nodup_iff.2 hinv2.inv.pathNodup⟩
  have hkeys : (b.tops.map Prod.fst ++ (layRest cfg P d m b).map Row.pk).Perm (b.labels.map Prod.fst) := by
    rw [← layTops_pks (cfg := cfg) P d m b, ← List.map_append, ← layout_pks (cfg := cfg) P d m b]
    exact (layout_perm P d m b).map _
  have hcons2 : Inv cfg (db.rows.map (grow P b.tops.length) ++ layTops cfg P d m b ++ layRest cfg P d m b) := Inv.perm hperm.symm hinv2
  have hlen : a.tops.length = b.tops.length := by rw [← tops_length_map Prod.snd a, hsame, tops_length_map]
  refine ⟨_, _, by rw [loadCreate, hfl]; simp only; rw [hbulk], rfl, hkeys, (consistent_iff hok).2 (hia hi), (consistent_iff hok).2 hcons2,
    ⟨db.rows.map (grow P a.tops.length), layout cfg P d m a, layout cfg P d m b, List.Perm.refl _, by rw [hlen]; exact hperm, ?_, layout_pks _ _ _ _,
      layout_pks _ _ _ _, layout_strip hsame⟩, ?_⟩
  · rw [List.map_map]
    exact List.map_congr_left (fun r _ => (grow_onlyNum P _).pk r)
  · rintro rfl
    refine ⟨hperm.symm, ?_⟩
    rw [forest_eq (hia hi) hok, forest_eq hcons2 hok]
    exact PF_perm hperm.symm hinv2.inv

/-- `load` as a recursion on the structure, which `decide` can evaluate -/
theorem load_eq (cfg : Cfg) (db : DB) (parent : Option Row) (n : Nest (Nat × Vals)) :
    load cfg db parent n = loadNest (fun db p a => addTo cfg db p (fresh a)) Row.pk db parent n := loadBulk_eq _ _ _ _ _

/-! The hypotheses are met: a structure with three levels, loaded below a node of a tree with a gap, with keys chosen by the database in the order of the
insertions; and a structure for a sorted tree. -/

def exItems (a b c d : Nat) : Nest (Nat × Vals) := .cons (a, [some 7]) (.cons (b, [some 1]) (.cons (c, []) .nil .nil) .nil) (.cons (d, [some 2]) .nil .nil)

example : ∃ db1 added1 db2 added2, load exCfg exDB (some ⟨3, [49, 51], 2, 1, []⟩) (exItems 10 11 12 13) = .ok (db1, added1) ∧
    loadCreate exCfg exDB (some ⟨3, [49, 51], 2, 1, []⟩) (exItems 10 12 13 11) = .ok (db2, added2) ∧
    added1 = [10, 11, 12, 13] ∧ added2 = [10, 11, 12, 13] ∧ Consistent exCfg db2 := by
  obtain ⟨db1, added1, e⟩ : ∃ db1 added1, load exCfg exDB (some ⟨3, [49, 51], 2, 1, []⟩) (exItems 10 11 12 13) = .ok (db1, added1) :=
    ⟨_, _, by rw [load_eq]; rfl⟩
  obtain ⟨db2, added2, e2, h1, _, _, h4, _⟩ := C20_mp_partial exCfg_ok exDB_consistent (parent := some ⟨3, [49, 51], 2, 1, []⟩) (by rintro p ⟨⟩; decide)
    (a := exItems 10 11 12 13) (b := exItems 10 12 13 11) rfl (by decide) (by decide) (by decide) (by decide) (fun h => absurd h (by decide)) e
  have h5 : added2 = [10, 11, 12, 13] := by
    have : (loadCreate exCfg exDB (some ⟨3, [49, 51], 2, 1, []⟩) (exItems 10 12 13 11)).map Prod.snd = .ok [10, 11, 12, 13] := by rfl
    rw [e2] at this
    exact Except.ok.inj this
  exact ⟨db1, added1, db2, added2, e, e2, h1, h5, h4⟩

example : Rising exCfgS.orderBy ((forest exCfgS exDBS none).map (valsOf exDBS))
    (.cons (10, [some 7, some 0]) (.cons (11, [some 1, some 2]) .nil (.cons (12, [some 1, some 1]) .nil .nil)) (.cons (13, [some 9, some 4]) .nil .nil)) := by
  have hf : (forest exCfgS exDBS none).map (valsOf exDBS) = [[some 1, some 5], [some 1, some 2], [some 7, some 0]] := by decide
  rw [hf]
  have nn : ∀ x y : Int, NonNull exCfgS.orderBy [some x, some y] := by
    intro x y e he
    simp only [exCfgS, List.mem_cons, List.not_mem_nil, or_false] at he
    rcases he with rfl | rfl <;> exact ⟨_, rfl⟩
  exact ⟨nn _ _, by decide, ⟨nn _ _, by decide, trivial, nn _ _, by decide, trivial, trivial⟩, nn _ _, by decide, trivial, trivial⟩

/-! ### Where the code differs -/

/-- C20 fails: a node with more children than there are positions.  `load_bulk` raises `PathOverflow`; with `bulk_create=True` the children that
have no position are stored with paths that are too long, in an inconsistent tree. -/
theorem C20_mp_overflow : ∃ (cfg : Cfg) (n : Nest (Nat × Vals)) (db2 : DB) (added : List Nat), cfg.Ok ∧ (n.labels.map Prod.fst).Nodup ∧
    load cfg { rows := [] } none n = .error .pathOverflow ∧ loadCreate cfg { rows := [] } none n = .ok (db2, added) ∧ ¬ Consistent cfg db2 := by
  refine ⟨⟨[48, 49], 1, [], 10⟩, .cons (1, []) (.cons (2, []) .nil (.cons (3, []) .nil .nil)) .nil,
    { rows := [⟨1, [49], 1, 2, []⟩, ⟨2, [49, 49], 2, 0, []⟩, ⟨3, [49, 49, 48], 2, 0, []⟩] }, [1, 2, 3], ⟨by decide, by decide, by decide⟩, by decide,
    by rw [load_eq]; rfl, by rfl, ?_⟩
  intro h
  exact absurd (h.problems .wrongDepth) (by decide)

/-- C20 fails: a tree with `node_order_by`, and a structure whose first level is not sorted.  With `bulk_create=True`, the child of the first item ends
below the second item. -/
theorem C20_mp_wrong_parent : ∃ (cfg : Cfg) (n : Nest (Nat × Vals)) (db1 db2 : DB) (added1 added2 : List Nat), cfg.Ok ∧ (n.labels.map Prod.fst).Nodup ∧
    load cfg { rows := [] } none n = .ok (db1, added1) ∧ loadCreate cfg { rows := [] } none n = .ok (db2, added2) ∧
    n.tops.map Prod.fst = [1, 3] ∧ n.labels.map Prod.fst = [1, 2, 3] ∧
    forest cfg db1 none = [3, 1] ∧ forest cfg db1 (some 1) = [2] ∧ forest cfg db1 (some 3) = [] ∧
    forest cfg db2 none = [3, 1] ∧ forest cfg db2 (some 1) = [] ∧
    (∃ x p, x ∈ db2.rows ∧ x.pk = 2 ∧ getParent cfg db2 x = .ok (some p) ∧ p.pk = 3) ∧ ¬ Consistent cfg db2 := by
  refine ⟨⟨List.range' 48 10, 1, [(0, false)], 10⟩, .cons (1, [some 5]) (.cons (2, [some 0]) .nil .nil) (.cons (3, [some 3]) .nil .nil),
    { rows := [⟨1, [50], 1, 1, [some 5]⟩, ⟨2, [50, 49], 2, 0, [some 0]⟩, ⟨3, [49], 1, 0, [some 3]⟩], sigs := [.pathUpdated [49] [50]] },
    { rows := [⟨1, [50], 1, 1, [some 5]⟩, ⟨3, [49], 1, 0, [some 3]⟩, ⟨2, [49, 49], 2, 0, [some 0]⟩], sigs := [.pathUpdated [49] [50]] }, [1, 2, 3], [1, 3, 2],
    ⟨by decide, by decide, by decide⟩, by decide, by rw [load_eq]; decide, by decide, by decide, by decide, by decide, by decide, by decide, by decide, by decide,
    ⟨⟨2, [49, 49], 2, 0, [some 0]⟩, ⟨3, [49], 1, 0, [some 3]⟩, by decide, by decide, by decide, by decide⟩, ?_⟩
  intro h
  exact absurd (h.problems .wrongNumchild) (by decide)

end Verif.MP
