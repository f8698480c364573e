/-
C14: `fix_tree(fix_paths=True)` of the materialized path backend.
-/
import Verif.MP.FixQueue
import Verif.MP.Example
import Verif.Props.MPCheck
import Verif.AL.Base

namespace Verif

open MP

variable {cfg : Cfg} {ord : List MP.Row → List MP.Row} {db : MP.DB} {parent : Option MP.Row}

/-- the groups that `fix_tree(parent=...)` is about: the children of the parent and of its descendants, or all groups -/
def Within (F : Forest) (parent : Option Nat) (p : Option Nat) : Prop :=
  match parent with
  | none => True
  | some s => p = some s ∨ ∃ k, p = some k ∧ F.Desc s k

/-- the node numbered `j` (from 0) of every group within `parent` has the position `j + 1` in its path -/
def Renumbered (cfg : Cfg) (db : MP.DB) (p : Option Nat) : Prop :=
  ∀ j k, (forest cfg db p)[j]? = some k → ∃ r ∈ db.rows, r.pk = k ∧ lastpos cfg r.path = .ok (j + 1)

/-- "the parent itself is valid" (the docstring of `fix_tree`): its path and depth are those of a row of the table -/
def ValidParent (db : MP.DB) (parent : Option MP.Row) : Prop :=
  ∀ p, parent = some p → ∃ q ∈ db.rows, q.pk = p.pk ∧ q.path = p.path ∧ q.depth = p.depth

/-- what the table `db'` made by `fix_tree(fix_paths=True, parent=...)` from the table `db` must be -/
structure PathsFixed (cfg : Cfg) (db db' : MP.DB) (parent : Option Nat) : Prop where
  consistent : Consistent cfg db'
  /-- no node is lost, made or changed, apart from its path -/
  rest : db'.rows.map (fun r => { r with path := [] }) = db.rows.map (fun r => { r with path := [] })
  /-- every node keeps its parent -/
  parents : ∀ k p, k ∈ forest cfg db' p ↔ k ∈ forest cfg db p
  /-- without `node_order_by` the order of the siblings stays too -/
  plain : cfg.ordered = false → forest cfg db' = forest cfg db
  /-- with it, and no nulls, every group is sorted afterwards -/
  sorted : cfg.ordered = true → AllNonNull cfg db → ∀ p, Within (forest cfg db) parent p →
    (forest cfg db' p).Pairwise (fun a b => ¬ keyLt cfg.orderBy (valsOf db b) (valsOf db a))
  /-- no holes -/
  numbered : ∀ p, Within (forest cfg db) parent p → Renumbered cfg db' p
  /-- nothing outside the branch is touched -/
  outside : ∀ s, parent = some s → ∀ r ∈ db.rows, ¬ (forest cfg db).Desc s r.pk → r ∈ db'.rows
  /-- a store that listens to the signals sent (see C17) ends with the paths and depths of the table -/
  signals : ∀ w, ∃ s, db'.sigs = db.sigs ++ s ∧
    db'.rows.map MP.Row.entry = s.foldl (listenSig cfg.steplen w) (db.rows.map MP.Row.entry)

/-- **C14.** For every table whose paths are sound (so that `fix_tree()` makes it consistent), every order in which the database may
return the rows, with or without a valid parent: `fix_tree(fix_paths=True)` ends, and it numbers every group of siblings 1..n, keeping
parents, data and order (or sorting by `node_order_by`); or it raises `PathOverflow`, which is possible only with `node_order_by`, and
then only the depths and children counts have been repaired. -/
theorem C14_fix_paths (hok : cfg.Ok) (ho : OrdersBy cfg ord) (hc : Consistent cfg (fixTree cfg db parent))
    (hp : ValidParent (fixTree cfg db parent) parent) :
    (∃ db', fixTreePaths cfg ord db parent = (db', none) ∧ PathsFixed cfg (fixTree cfg db parent) db' (parent.map MP.Row.pk)) ∨
    (fixTreePaths cfg ord db parent = (fixTree cfg db parent, some .pathOverflow) ∧ cfg.ordered = true) := by
  have hs := hok.step
  unfold fixTreePaths fixPaths
  simp only
  set db1 := fixTree cfg db parent with hdb1
  have h := (MP.consistent_iff hok).1 hc
  -- the branch
  obtain ⟨S, d, hSd, hS, hd, hpar⟩ : ∃ S d, firstGroup parent = (S, d) ∧
      IsPar db1.rows S ∧ S.length + cfg.steplen = d * cfg.steplen ∧
      ((parent = none ∧ S = []) ∨ ∃ p, parent = some p ∧ ∃ q ∈ db1.rows, q.pk = p.pk ∧ q.path = S) := by
    cases parent with
    | none => exact ⟨[], 1, rfl, Or.inl rfl, by simp, Or.inl ⟨rfl, rfl⟩⟩
    | some p =>
      obtain ⟨q, hq, e1, e2, e3⟩ := hp p rfl
      refine ⟨p.path, p.depth + 1, rfl, Or.inr ⟨q, hq, e2⟩, ?_, Or.inr ⟨p, rfl, q, hq, e1, e2⟩⟩
      rw [← e2, ← e3, h.depth q hq, Nat.add_mul]
      omega
  rw [hSd]
  have hR : Rounds cfg (valsOf db1) (AllNonNull cfg db1) S db1.rows (fun p => p) [(S, d)] db1.rows := by
    refine ⟨?_, h, fun _ _ => rfl, fun _ _ => Iff.rfl, fun _ _ _ => rfl, fun _ _ e => e, fun _ => rfl, ?_, ?_, ?_⟩
    · show db1.rows = db1.rows.map (fun r => { r with path := r.path })
      exact (List.map_id' _).symm
    · intro e he; simp at he; subst he; exact ⟨List.prefix_refl _, hS, hd⟩
    · simp
    · intro Q _ hp; exact Or.inl ⟨(S, d), by simp, hp⟩
  have hwork : work [(S, d)] db1.rows ≤ db1.rows.length + 1 := by
    unfold work
    have := List.countP_le_length (p := fun r : MP.Row => decide (∃ e ∈ [(S, d)], e.1 <+: r.path ∧ e.1 ≠ r.path)) (l := db1.rows)
    simp only [List.length_cons, List.length_nil]
    omega
  rcases fixQueue_spec hok ho (fun r hr => valsOf_row h.inv hr) (fun hn => hn) (db1.rows.length + 1) [(S, d)] db1 _ hR hwork with
    ⟨db', φ, e, hF, hfed⟩ | ⟨e, hord⟩
  · left
    rw [e]
    refine ⟨db', rfl, ?_⟩
    have h' := hF.inv
    have e1 := forest_eq h hok
    have e2 := forest_eq h' hok
    -- every group within the branch is finished
    have hfin : ∀ p, Within (forest cfg db1) (parent.map MP.Row.pk) p →
        Finished cfg (valsOf db1) (AllNonNull cfg db1) db'.rows p := by
      intro p hw
      by_cases hem : PF cfg db'.rows p = []
      · exact finished_nil hem
      obtain ⟨Q, hQ, hSQ, rfl⟩ : ∃ Q, IsPar db'.rows Q ∧ S <+: Q ∧ p = at? db'.rows Q := by
        have hrow : ∀ r ∈ db1.rows, S <+: r.path → ∃ Q, IsPar db'.rows Q ∧ S <+: Q ∧ some r.pk = at? db'.rows Q := by
          intro r hr hpre
          have hm : repath φ r ∈ db'.rows := by rw [hF.table]; exact List.mem_map_of_mem hr
          exact ⟨φ r.path, Or.inr ⟨_, hm, rfl⟩, hF.into r hr hpre, ((at?_eq_pk h'.toPInv hm).2 rfl).symm⟩
        rcases hpar with ⟨rfl, rfl⟩ | ⟨s, rfl, q, hq, eq1, eq2⟩
        · cases p with
          | none =>
            refine ⟨[], Or.inl rfl, List.nil_prefix, ?_⟩
            symm
            rw [pkAt_eq_none]
            intro r hr e
            have := (h'.inv.len r hr).2
            rw [e] at this; simp at this; omega
          | some k =>
            have : ∃ r ∈ db1.rows, r.pk = k := by
              obtain ⟨c, hcm⟩ := List.exists_mem_of_ne_nil _ hem
              obtain ⟨x, hx, hxp, _⟩ := (mem_pforest h'.inv).1 hcm
              obtain ⟨y, hy, _, hyk⟩ := (parOf_eq_some h'.inv).1 hxp
              rw [hF.table] at hy
              obtain ⟨r, hr, rfl⟩ := List.mem_map.1 hy
              exact ⟨r, hr, hyk⟩
            obtain ⟨r, hr, rfl⟩ := this
            exact hrow r hr List.nil_prefix
        · rcases hw with rfl | ⟨k, rfl, hdesc⟩
          · rw [← eq1]
            exact hrow q hq (by rw [eq2]; exact List.prefix_refl _)
          · rw [e1, ← eq1] at hdesc
            obtain ⟨r, hr, rfl, hpre, _⟩ := desc_prefix h.inv hs hq hdesc
            exact hrow r hr (by rw [← eq2]; exact hpre)
      rcases hF.cover Q hQ hSQ with ⟨e, he, _⟩ | hf
      · simp at he
      · exact hf
    refine ⟨(MP.consistent_iff hok).2 h', ?_, ?_, ?_, ?_, ?_, ?_, hfed⟩
    · rw [hF.table, List.map_map]; rfl
    · intro k p; rw [e1, e2]; exact hF.mem k p
    · intro hord; rw [e1, e2]; exact hF.plain hord
    · intro hord hn p hw
      rw [e2]
      exact (hfin p hw).2 hord hn
    · intro p hw j k hj
      rw [e2] at hj
      obtain ⟨r, hr, hk, hl⟩ := (hfin p hw).1 j k hj
      refine ⟨r, hr, hk, ?_⟩
      obtain ⟨n, _, hn, en⟩ := h'.pos r hr
      have : stp cfg n = stp cfg (j + 1) := by
        rw [← hl, en]; exact (lastSeg_append (stp_length hok hn)).symm
      rw [en, lastpos_eq hok _ hn]
      congr 1
      -- the number of children is less than the capacity
      have hkm := List.mem_of_getElem? hj
      have hcap : j + 1 < cfg.cap := by
        by_contra hcap
        have h1 : (stp cfg (j + 1)).length = cfg.steplen := by rw [← this, stp_length hok hn]
        obtain ⟨key, ek, hkey⟩ := int2str_long hok (Nat.le_of_not_lt hcap)
        unfold stp at h1
        rw [ek] at h1
        simp only [List.length_append] at h1
        omega
      exact stp_inj hok hn hcap this
    · intro s hs' r hr hnd
      obtain ⟨p, rfl, rfl⟩ := Option.map_eq_some_iff.1 hs'
      rcases hpar with ⟨hno, _⟩ | ⟨p', hp', q, hq, eq1, eq2⟩
      · cases hno
      · cases hp'
        have hφ : φ r.path = r.path := by
          refine hF.out r hr ?_
          rintro ⟨hpre, hne⟩
          apply hnd
          rw [e1, ← eq1]
          refine (desc_iff h.inv hs hq hr).2 ⟨by rw [eq2]; exact hpre, ?_⟩
          rintro rfl
          exact hne eq2
        rw [hF.table]
        refine List.mem_map.2 ⟨r, hr, ?_⟩
        unfold repath
        rw [hφ]
  · right
    rw [e]
    exact ⟨rfl, hord⟩

/-- The tables of C14: paths are sound, keys and paths are unique, no path is empty and none ends in the zero step; depths and children
counts may be anything. -/
theorem C14_tables (hok : cfg.Ok) (h : PathsSound cfg db.rows) (hk : (db.rows.map MP.Row.pk).Nodup)
    (hpa : (db.rows.map MP.Row.path).Nodup) (hne : ∀ r ∈ db.rows, r.path ≠ [])
    (hz : ∀ r ∈ db.rows, ¬ List.replicate cfg.steplen (cfg.alphabet.headD 0) <:+ r.path) :
    Consistent cfg (fixTree cfg db none) := by
  have hsh := ((C13_fix_tree hok db).1 none).1
  have e1 : (fixTree cfg db none).rows.map MP.Row.pk = db.rows.map MP.Row.pk := by
    have := congrArg (List.map Prod.fst) hsh
    simpa [shapes, List.map_map, Function.comp_def] using this
  have e2 : (fixTree cfg db none).rows.map MP.Row.path = db.rows.map MP.Row.path := by
    have := congrArg (List.map (fun x : Nat × List Nat × Vals => x.2.1)) hsh
    simpa [shapes, List.map_map, Function.comp_def] using this
  have hmem : ∀ r' ∈ (fixTree cfg db none).rows, ∃ r ∈ db.rows, r.path = r'.path := by
    intro r' hr'
    have : r'.path ∈ db.rows.map MP.Row.path := by rw [← e2]; exact List.mem_map_of_mem hr'
    obtain ⟨r, hr, e⟩ := List.mem_map.1 this
    exact ⟨r, hr, e⟩
  refine ⟨by rw [e1]; exact hk, by rw [e2]; exact hpa, (C13_fix_tree hok db).2 h, ?_, ?_⟩
  · intro r' hr'; obtain ⟨r, hr, e⟩ := hmem r' hr'; rw [← e]; exact hne r hr
  · intro r' hr'; obtain ⟨r, hr, e⟩ := hmem r' hr'; rw [← e]; exact hz r hr

/-- a consistent table is a table of C14, also with a parent -/
theorem C14_consistent (hok : cfg.Ok) (h : Consistent cfg db) : (fixTree cfg db parent).rows = db.rows := by
  obtain ⟨hc, hl, hp, hd, hn⟩ := (findProblems_iff hok).1 h.problems
  rw [fixTree_rows]
  conv_rhs => rw [← List.map_id' db.rows]
  refine List.map_congr_left (fun r hr => ?_)
  split
  · unfold fixedRow
    rw [hd r hr, Nat.mul_div_cancel _ hok.step, ← hn r hr]
  · rfl

/-- one order that a database may use: by path, or a stable sort by the fields -/
def stableOrder (cfg : Cfg) (l : List MP.Row) : List MP.Row :=
  if cfg.ordered then sortBy (fun a b : MP.Row => AL.keyLtB cfg.orderBy a.vals b.vals) l else orderByPath l

/-- `OrdersBy` is not empty -/
theorem stableOrder_orders (cfg : Cfg) : OrdersBy cfg (stableOrder cfg) := by
  have hb : ∀ a b : Vals, AL.keyLtB cfg.orderBy a b = false ↔ ¬ keyLt cfg.orderBy a b := by
    intro a b; rw [← AL.keyLtB_iff]; simp
  refine ⟨?_, ?_, ?_⟩
  · intro l
    unfold stableOrder
    split
    · exact sortBy_perm _ l
    · exact sortBy_perm _ l
  · intro ho l; simp [stableOrder, ho]
  · intro ho l hn
    have := sortBy_sorted_on (lt := fun a b : MP.Row => AL.keyLtB cfg.orderBy a.vals b.vals) (l := l) ?_ ?_
    · simp only [stableOrder, ho, if_true]
      exact this.imp (fun h => (hb _ _).1 h)
    · intro a _ b _ h
      rw [hb]; rw [AL.keyLtB_iff] at h; exact keyLt_asymm h
    · intro a ha b hb' c hc h1 h2
      rw [hb] at *
      exact keyLe_trans (hn a ha) (hn b hb') (hn c hc) h1 h2

/-- the example tree with all depths and counts spoilt: the holes before 3 and 5 are closed, and the child of 3 goes with it -/
example : (∀ r ∈ (fixTreePaths exCfg (stableOrder exCfg)
      { rows := exDB.rows.map (fun r => { r with depth := 77, numchild := r.pk }) } none).1.rows, r ∈ ([⟨4, [49, 50, 49], 3, 0, []⟩,
      ⟨1, [49], 1, 2, []⟩, ⟨5, [50], 1, 0, []⟩, ⟨2, [49, 49], 2, 0, []⟩, ⟨3, [49, 50], 2, 1, []⟩] : List MP.Row)) ∧
    (fixTreePaths exCfg (stableOrder exCfg) exDB none).2 = none := by decide

/-- a sorted tree whose roots are in the wrong order (values 7, 2, 5; the second has a child): sorted afterwards -/
def misDB : MP.DB := { rows := [⟨1, [49], 1, 0, [some 7, some 0]⟩, ⟨2, [50], 1, 1, [some 2, some 0]⟩, ⟨3, [53], 1, 0, [some 5, some 0]⟩,
  ⟨4, [50, 52], 2, 0, [some 0, some 0]⟩] }

theorem misDB_consistent : Consistent exCfgS misDB :=
  ⟨by decide, by decide, by intro p; cases p <;> decide, by decide, by decide⟩

example : Consistent exCfgS (fixTree exCfgS misDB none) ∧ ValidParent (fixTree exCfgS misDB none) none ∧
    (fixTreePaths exCfgS (stableOrder exCfgS) misDB none).2 = none ∧
    forest exCfgS misDB none = [1, 2, 3] ∧
    forest exCfgS (fixTreePaths exCfgS (stableOrder exCfgS) misDB none).1 none = [2, 3, 1] ∧
    (fixTreePaths exCfgS (stableOrder exCfgS) misDB none).1.rows.map MP.Row.path = [[51], [49], [50], [49, 49]] := by
  refine ⟨?_, (fun _ e => by cases e), by decide, by decide, by decide, by decide⟩
  have e := C14_consistent (parent := none) exCfgS_ok misDB_consistent
  exact (MP.consistent_iff exCfgS_ok).2 (by rw [e]; exact (MP.consistent_iff exCfgS_ok).1 misDB_consistent)

/-- only the branch of 2: its child gets the position 1, the roots stay where they are -/
example : ValidParent (fixTree exCfgS misDB (some ⟨2, [50], 1, 1, []⟩)) (some ⟨2, [50], 1, 1, []⟩) ∧
    (fixTreePaths exCfgS (stableOrder exCfgS) misDB (some ⟨2, [50], 1, 1, []⟩)).1.rows.map MP.Row.path
      = [[49], [50], [53], [50, 49]] := by
  constructor
  · intro p e
    cases e
    exact ⟨⟨2, [50], 1, 1, [some 2, some 0]⟩, by decide, rfl, rfl, rfl⟩
  · decide

/-- three digits, so two positions -/
def tightCfg : Cfg := ⟨[48, 49, 50], 1, [(0, false)], 10⟩

/-- two roots in the wrong order -/
def tightDB : MP.DB := { rows := [⟨1, [49], 1, 0, [some 2]⟩, ⟨2, [50], 1, 0, [some 1]⟩] }

/-- **`PathOverflow` in `fix_tree(fix_paths=True)`**: a group of siblings that uses the last position cannot be put in order when two
nodes have to change places, although there is room for all of them: there is no place for the node in the way. -/
theorem C14_overflow_swap :
    tightCfg.Ok ∧ Consistent tightCfg tightDB ∧ AllNonNull tightCfg tightDB ∧
    ∀ ord, OrdersBy tightCfg ord → fixTreePaths tightCfg ord tightDB none = (tightDB, some .pathOverflow) := by
  have hnn : AllNonNull tightCfg tightDB := by
    intro r hr e he
    simp only [tightDB, List.mem_cons, List.not_mem_nil, or_false] at hr
    simp only [tightCfg, List.mem_cons, List.not_mem_nil, or_false] at he
    rcases hr with rfl | rfl <;> subst he <;> exact ⟨_, rfl⟩
  refine ⟨⟨by decide, by decide, by decide⟩, ⟨by decide, by decide, by intro p; cases p <;> decide, by decide, by decide⟩, hnn, ?_⟩
  intro ord ho
  -- the database returns the second row first
  have hord : ord tightDB.rows = [⟨2, [50], 1, 0, [some 1]⟩, ⟨1, [49], 1, 0, [some 2]⟩] := by
    have hp := ho.perm tightDB.rows
    have hs := ho.sorted rfl tightDB.rows hnn
    have hl := hp.length_eq
    generalize ord tightDB.rows = m at hp hs hl
    match m, hl with
    | [a, b], _ =>
      have ha := (hp.mem_iff (a := a)).1 (by simp)
      have hb := (hp.mem_iff (a := b)).1 (by simp)
      have hne : a ≠ b := by
        have : tightDB.rows.Nodup := by decide
        have := hp.nodup_iff.2 this
        rintro rfl
        simp at this
      rw [List.pairwise_cons] at hs
      have hab := hs.1 b (by simp)
      simp only [tightDB, List.mem_cons, List.not_mem_nil, or_false] at ha hb
      rcases ha with rfl | rfl <;> rcases hb with rfl | rfl
      · exact absurd rfl hne
      · exact absurd (Or.inl (by decide)) hab
      · rfl
      · exact absurd rfl hne
  have hfix : fixTree tightCfg tightDB none = tightDB := by decide
  have hfil : tightDB.rows.filter (fun r => ([] : List Nat).isPrefixOf r.path && r.depth == 1) = tightDB.rows := by decide
  unfold fixTreePaths fixPaths
  rw [hfix]
  simp only [firstGroup]
  have hgr : fixGroup tightCfg ord tightDB [] 1 = .error .pathOverflow := by
    unfold fixGroup
    simp only
    rw [hfil, hord]
    decide
  rw [show tightDB.rows.length + 1 = 2 + 1 from rfl]
  unfold fixQueue
  rw [hgr]

end Verif
