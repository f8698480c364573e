/-
C53: concurrent `add_root` calls, which take no lock, and concurrent `add_child` calls of AL, which take none either.
-/
import Verif.TxnPick
import Verif.TxnGrow
import Verif.Props.MPConcurrent
import Verif.Props.NSTree
import Verif.Props.LTForm
import Verif.Props.ALTree

namespace Verif

open Txn

variable {ι : Type} [DecidableEq ι]

/-! ### MP -/

namespace MP

/-- mp_tree.py:356, 369-374: the path of the new last root -/
def newRootPath (cfg : Cfg) (db : DB) : Except Err (List Nat) :=
  match lastRootNode db with
  | some lastRoot => incPath cfg lastRoot.path
  | none => getPath cfg [] 1 1

/-- mp_tree.py:376-378: the new root -/
def rootRow (new : Row) (p : List Nat) : Row := { new with path := p, depth := 1 }

/-- mp_tree.py:339-381 `add_root` without `node_order_by`, as a client that locks nothing -/
def rootPicker (cfg : Cfg) (new : ι → Row) : Picker ι DB (List Nat) where
  pick := newRootPath cfg
  put i p := insertRow (rootRow (new i) p)
  check := checkPaths
  deferred := false
  start := []
  key i := (new i).pk

omit [DecidableEq ι] in
/-- Alone, the client is `add_root`. -/
theorem rootPicker_alone {cfg : Cfg} (ho : cfg.ordered = false) {new : ι → Row} {i : ι} {db : DB} (hf : ∀ r ∈ db.rows, r.pk ≠ (new i).pk) :
    (((rootPicker cfg new).client i).alone db).map (fun r => (r.1, rootRow (new i) r.2)) = addRoot cfg db (new i) := by
  rw [Picker.alone]
  simp only [rootPicker, newRootPath, addRoot, ho]
  have key : ∀ p : List Nat, Except.map (fun r : DB × List Nat => (r.1, rootRow (new i) r.2))
      (match checkPaths (insertRow (rootRow (new i) p) db) with
        | some e => .error e
        | none => .ok (insertRow (rootRow (new i) p) db, p)) =
      match save db (rootRow (new i) p) with
        | .error e => .error e
        | .ok db => .ok (db, rootRow (new i) p) := by
    intro p
    rw [save_fresh (obj := rootRow (new i) p) (fun r hr => hf r hr)]
    unfold checkPaths
    simp only [insertRow]
    by_cases hu : uniquePaths (db.rows ++ [rootRow (new i) p]) = true <;> simp [hu, Except.map]
  cases lastRootNode db with
  | none =>
    simp only
    cases getPath cfg [] 1 1 with
    | error e => rfl
    | ok p => exact key p
  | some r =>
    simp only [Bool.false_eq_true, if_false]
    cases incPath cfg r.path with
    | error e => rfl
    | ok p => exact key p

end MP

/-- What every interleaving of concurrent `add_root` calls leads to, at every moment. -/
structure RootsAdded {σ V ℓ : Type} (v : View σ V) (rel : List Nat → List Nat → List Nat → Prop) (E : Err → Prop) (new : ι → Nat × V) (db₀ : σ)
    (s : State ι σ ℓ) : Prop where
  good : v.good s.db
  roots : rel (v.forest db₀ none) (s.log.map fun i => (new i).1) (v.forest s.db none)
  others : ∀ p, v.forest s.db (some p) = v.forest db₀ (some p)
  data : v.data s.db = v.data db₀ ++ s.log.map new
  nodup : s.log.Nodup
  log : ∀ i, i ∈ s.log ↔ ∃ l, s.phase i = .committed l
  /-- the only exceptions: another client got the place (IntegrityError), or those of the call alone -/
  errors : ∀ i e, s.phase i = .raised e → e = .integrity ∨ E e

theorem rootsAdded_of {σ V P : Type} {v : View σ V} {rel : List Nat → List Nat → List Nat → Prop} {E : Err → Prop} {new : ι → Nat × V}
    {k : Picker ι σ P} (hok : ∀ i db db' l, v.good db → (new i).1 ∉ (v.data db).map Prod.fst → (k.client i).alone db = .ok (db', l) →
      v.good db' ∧ (∀ old news, rel old news (v.forest db none) → rel old (news ++ [(new i).1]) (v.forest db' none)) ∧
      (∀ p, v.forest db' (some p) = v.forest db (some p)) ∧ v.data db' = v.data db ++ [new i])
    (herr : ∀ i db e, v.good db → (new i).1 ∉ (v.data db).map Prod.fst → (k.client i).alone db = .error e → E e)
    {taken : P → σ → Prop} (hput : ∀ j p db, taken p (k.put j p db)) (hkeep : ∀ j p q db, taken p db → taken p (k.put j q db))
    (hcheck : ∀ i p db, taken p db → k.check (k.put i p db) = some .integrity)
    (hrel : ∀ l, rel l [] l) {db₀ : σ} (hg : v.good db₀) (hf : ∀ i, (new i).1 ∉ (v.data db₀).map Prod.fst)
    (hd : ∀ i j, (new i).1 = (new j).1 → i = j) {s : State ι σ P} (h : Reach k.client (.init db₀) s) : RootsAdded v rel E new db₀ s := by
  let J : List ι → σ → Prop := fun log db => v.good db ∧ rel (v.forest db₀ none) (log.map fun i => (new i).1) (v.forest db none) ∧
    (∀ p, v.forest db (some p) = v.forest db₀ (some p)) ∧ v.data db = v.data db₀ ++ log.map new
  have hkey : ∀ {log : List ι} {db : σ} {i : ι}, J log db → i ∉ log → (new i).1 ∉ (v.data db).map Prod.fst := by
    rintro log db i ⟨-, -, -, e⟩ hi
    rw [e, List.map_append, List.mem_append]
    rintro (hm | hm)
    · exact hf i hm
    · rw [List.map_map] at hm
      obtain ⟨j, hj, e⟩ := List.mem_map.1 hm
      rw [← hd j i e] at hi
      exact hi hj
  have hkeeps : Keeps k.client J := by
    intro log db db' i l hJ hi e
    obtain ⟨h1, h2, h3, h4⟩ := hok i db db' l hJ.1 (hkey hJ hi) e
    refine ⟨h1, ?_, fun p => (h3 p).trans (hJ.2.2.1 p), by rw [h4, hJ.2.2.2]; simp⟩
    rw [List.map_append]
    exact h2 _ _ hJ.2.1
  have hinv := Picker.reach hkeeps hput hkeep hcheck (db₀ := db₀) ⟨hg, hrel _, fun _ => rfl, by simp⟩ h
  obtain ⟨h1, h2, h3, h4⟩ := hinv.keeps
  refine ⟨h1, h2, h3, h4, hinv.nodup, hinv.logged, fun i e hi => (hinv.raised i e hi).imp_right ?_⟩
  rintro ⟨pre, db, hp, hser, hJ, ea⟩
  have hnl : i ∉ s.log := by
    intro hm
    obtain ⟨l, e'⟩ := (hinv.logged i).1 hm
    rw [e'] at hi
    cases hi
  exact herr i db e hJ.1 (hkey hJ (fun hm => hnl (hp.subset hm))) ea

namespace MP

/-- consistent tables -/
def view (cfg : Cfg) : View DB Vals where
  good := Consistent cfg
  forest := forest cfg
  data db := data db.rows

end MP

open MP in
/-- **C53, MP**: any number of clients call `add_root` concurrently, without `node_order_by`.  In every interleaving the committed table
is at every moment consistent, its roots are those at the start and the new ones of the clients that committed, in the order of the
commits, and nothing else has changed.  A client may get IntegrityError (see `C53_mp_clash`), or PathOverflow, and no other exception. -/
theorem C53_mp_roots {cfg : Cfg} {db₀ : DB} {new : ι → Row} (hs : MPConc.Start cfg db₀ new) {s : State ι DB (List Nat)}
    (h : Reach (rootPicker cfg new).client (.init db₀) s) :
    RootsAdded (view cfg) Appended (· = .pathOverflow) (fun i => ((new i).pk, (new i).vals)) db₀ s := by
  have keys : ∀ rows : List Row, (data rows).map Prod.fst = rows.map Row.pk := by
    intro rows; unfold data; rw [List.map_map]; rfl
  have hfresh : ∀ {db : DB} {i : ι}, (new i).pk ∉ ((view cfg).data db).map Prod.fst → Fresh db (new i) := by
    intro db i h2
    simp only [view, keys] at h2
    exact ⟨fun r hr e => h2 (List.mem_map.2 ⟨r, hr, e⟩), (hs.fresh i).2⟩
  refine rootsAdded_of (v := view cfg) (taken := fun p db => ∃ r ∈ db.rows, r.path = p) ?_ ?_ ?_ ?_ ?_ (fun l => by simp [Appended])
    hs.consistent ?_ hs.distinct h
  · intro i db db' l hg h2 e
    have hf := hfresh h2
    have hal := rootPicker_alone hs.unsorted hf.1
    rw [e] at hal
    rcases C05_add_root hs.ok hg hs.unsorted hf with ⟨a, b, e', ha⟩ | ⟨e', -⟩
    · rw [e'] at hal
      cases hal
      refine ⟨ha.consistent, ?_, ?_, ha.data⟩
      · intro old news hrel
        show Appended _ _ (forest cfg db' none)
        rw [ha.forest]
        have hrel : forest cfg db none = old ++ news := hrel
        simp [Appended, Forest.put, Slot.ins, hrel]
      · intro p
        show forest cfg db' (some p) = forest cfg db (some p)
        rw [ha.forest]
        simp [Forest.put]
    · rw [e'] at hal
      cases hal
  · intro i db e hg h2 he
    have hf := hfresh h2
    have hal := rootPicker_alone hs.unsorted hf.1
    rw [he] at hal
    rcases C05_add_root hs.ok hg hs.unsorted hf with ⟨a, b, e', ha⟩ | ⟨e', -⟩
    · rw [e'] at hal
      cases hal
    · rw [e'] at hal
      cases hal
      rfl
  · intro j p db
    exact ⟨rootRow (new j) p, by simp [rootPicker, insertRow], rfl⟩
  · rintro j p q db ⟨r, hr, e⟩
    exact ⟨r, by simp [rootPicker, insertRow, hr], e⟩
  · rintro i p db ⟨r, hr, e⟩
    have : uniquePaths (insertRow (rootRow (new i) p) db).rows = false := by
      simp only [uniquePaths, insertRow, List.map_append, List.map_cons, List.map_nil, decide_eq_false_iff_not]
      intro hn
      exact (List.nodup_append.1 hn).2.2 r.path (List.mem_map_of_mem hr) p (by simp [rootRow]) e
    simp only [rootPicker, checkPaths, this]
    rfl
  · intro i
    show (new i).pk ∉ (data db₀.rows).map Prod.fst
    rw [keys]
    intro hm
    obtain ⟨r, hr, e⟩ := List.mem_map.1 hm
    exact (hs.fresh i).1 r hr e

namespace MP

/-- two new roots -/
def exTwo : Bool → Row := fun b => if b then ⟨11, [], 0, 0, []⟩ else ⟨10, [], 0, 0, []⟩

/-- **Concurrent `add_root` calls can fail**: both clients read the last root, one commits, and the other gets IntegrityError. -/
theorem C53_mp_clash : ∃ s, Reach (rootPicker exCfg exTwo).client (.init exDB) s ∧ s.log = [false] ∧ s.phase true = .raised .integrity := by
  obtain ⟨s, hs, e⟩ := exists_run (c := (rootPicker exCfg exTwo).client) (db₀ := exDB) (js := [false, true]) (by decide)
    [false, true, false, true, false, false, true] (fun s => (s.log, (s.phase true).error?)) (a := ([false], some .integrity)) (by decide)
  simp only [Prod.mk.injEq] at e
  exact ⟨s, hs, e.1, Phase.error?_eq e.2⟩

end MP

/-! ### LT -/

namespace LT

/-- ltree/__init__.py:170-186: the path of a new root.  The code makes two queries, the last root and, if there is one, the paths of the
roots.  Without roots the label is fixed by the first; otherwise only the second matters: so they are one statement here. -/
def newRootPath (db : DB) : Except Err Path :=
  match lastRootNode db with
  | some _ => generatePath [] none none ((rootNodes db).map Row.path)
  | none => generatePath [] none none []

/-- the new root -/
def rootRow (new : Row) (p : Path) : Row := { new with path := p }

/-- the unique constraint on `path` -/
def checkPaths (db : DB) : Option Err := if uniquePaths db.rows then none else some .integrity

/-- ltree/__init__.py:162-189 `add_root` without `node_order_by`, as a client that locks nothing; the constraint is deferred -/
def rootPicker (new : ι → Row) : Picker ι DB Path where
  pick := newRootPath
  put i p db := { db with rows := db.rows ++ [rootRow (new i) p] }
  check := checkPaths
  deferred := true
  start := []
  key i := (new i).pk

omit [DecidableEq ι] in
/-- Alone, the client is `add_root`. -/
theorem rootPicker_alone {cfg : Cfg} (ho : cfg.ordered = false) {new : ι → Row} {i : ι} {db : DB} (hf : Fresh db (new i)) :
    (((rootPicker new).client i).alone db).map (fun r => (r.1, rootRow (new i) r.2)) = addRoot cfg db (new i) := by
  rw [Picker.alone]
  simp only [rootPicker, newRootPath, addRoot, ho]
  have key : ∀ p : Path, Except.map (fun r : DB × Path => (r.1, rootRow (new i) r.2))
      (match checkPaths { db with rows := db.rows ++ [rootRow (new i) p] } with
        | some e => .error e
        | none => .ok ({ db with rows := db.rows ++ [rootRow (new i) p] }, p)) =
      commit (.ok (save db (rootRow (new i) p), rootRow (new i) p)) := by
    intro p
    rw [save_new (x := rootRow (new i) p) (fun r hr => hf r hr)]
    unfold checkPaths commit
    by_cases hu : uniquePaths (db.rows ++ [rootRow (new i) p]) = true <;> simp [hu, Except.map]
  cases lastRootNode db with
  | none =>
    simp only
    cases generatePath [] none none [] with
    | error e => rfl
    | ok p => exact key p
  | some r =>
    simp only [Bool.false_eq_true, if_false]
    cases generatePath [] none none ((rootNodes db).map Row.path) with
    | error e => rfl
    | ok p => exact key p

/-- consistent tables -/
def view : View DB Vals where
  good := Consistent
  forest := forest
  data db := data db.rows

/-- **C53, LT**: any number of clients call `add_root` concurrently, without `node_order_by`.  In every interleaving the committed table
is at every moment consistent, its roots are those at the start, in the same order, and the new ones of the clients that committed
somewhere between them (where: `C36_add_root_partial`), and nothing else has changed.  A client may get IntegrityError (see
`C53_lt_clash`), or ValueError, and no other exception. -/
theorem C53_lt_roots {cfg : Cfg} (ho : cfg.ordered = false) {db₀ : DB} {new : ι → Row} (h₀ : Consistent db₀) (hf : ∀ i, Fresh db₀ (new i))
    (hd : ∀ i j, (new i).pk = (new j).pk → i = j) {s : State ι DB Path} (h : Reach (rootPicker new).client (.init db₀) s) :
    RootsAdded view Inserted (· = .valueError) (fun i => ((new i).pk, (new i).vals)) db₀ s := by
  have hfresh : ∀ {db : DB} {i : ι}, (new i).pk ∉ (view.data db).map Prod.fst → Fresh db (new i) := by
    intro db i h2 r hr e
    simp only [view, keys_eq] at h2
    exact h2 (List.mem_map.2 ⟨r, hr, e⟩)
  refine rootsAdded_of (v := view) (taken := fun p db => ∃ r ∈ db.rows, r.path = p) ?_ ?_ ?_ ?_ ?_
    (fun l => ⟨List.Sublist.refl l, by simp⟩) h₀ (fun i => fresh_keys (hf i)) hd h
  · intro i db db' l hg h2 e
    have hfr := hfresh h2
    have hal := rootPicker_alone ho hfr
    rw [e] at hal
    rcases C36_add_root_partial ho hg hfr with ⟨a, b, sl, e', ha, -⟩ | ⟨e', -⟩
    · rw [e'] at hal
      cases hal
      refine ⟨ha.consistent, ?_, ?_, ha.data⟩
      · intro old news hrel
        show Inserted _ _ (forest db' none)
        have hm : (new i).pk ∈ forest db' none := by
          rw [← ha.obj.2]
          have hin := ha.consistent.inv.inv
          refine (mem_forest hin ha.obj.1).2 ?_
          show par db'.rows (rootRow (new i) l) = none
          cases hp : par db'.rows (rootRow (new i) l) with
          | none => rfl
          | some q =>
            have := (mem_forest hin ha.obj.1).2 hp
            rw [ha.forest, ha.obj.2] at this
            simp only [Forest.put] at this
            exact absurd (forest_keys hg.inv.inv (by simpa using this)) (fresh_keys hfr)
        rw [ha.forest] at hm ⊢
        refine Inserted.put hrel ?_ hm
        exact fun hm => fresh_keys hfr (forest_keys hg.inv.inv hm)
      · intro p
        show forest db' (some p) = forest db (some p)
        rw [ha.forest]
        simp [Forest.put]
    · rw [e'] at hal
      cases hal
  · intro i db e hg h2 he
    have hfr := hfresh h2
    have hal := rootPicker_alone ho hfr
    rw [he] at hal
    rcases C36_add_root_partial ho hg hfr with ⟨a, b, sl, e', ha, -⟩ | ⟨e', -⟩
    · rw [e'] at hal
      cases hal
    · rw [e'] at hal
      cases hal
      rfl
  · intro j p db
    exact ⟨rootRow (new j) p, by simp [rootPicker], rfl⟩
  · rintro j p q db ⟨r, hr, e⟩
    exact ⟨r, by simp [rootPicker, hr], e⟩
  · rintro i p db ⟨r, hr, e⟩
    have : uniquePaths (db.rows ++ [rootRow (new i) p]) = false := by
      simp only [uniquePaths, List.map_append, List.map_cons, List.map_nil, decide_eq_false_iff_not]
      intro hn
      exact (List.nodup_append.1 hn).2.2 r.path (List.mem_map_of_mem hr) p (by simp [rootRow]) e
    simp only [rootPicker, checkPaths, this]
    rfl

/-- two new roots -/
def exTwo : Bool → Row := fun b => if b then ⟨11, [], []⟩ else ⟨10, [], []⟩

/-- **Concurrent `add_root` calls can fail**: both clients read the roots, one commits, and the other gets IntegrityError. -/
theorem C53_lt_clash : ∃ s, Reach (rootPicker exTwo).client (.init exDB) s ∧ s.log = [false] ∧ s.phase true = .raised .integrity := by
  obtain ⟨s, hs, e⟩ := exists_run (c := (rootPicker exTwo).client) (db₀ := exDB) (js := [false, true]) (by decide)
    [false, true, false, true, false, false, true, true] (fun s => (s.log, (s.phase true).error?)) (a := ([false], some .integrity)) (by decide)
  simp only [Prod.mk.injEq] at e
  exact ⟨s, hs, e.1, Phase.error?_eq e.2⟩

end LT

/-! ### NS -/

namespace NS

/-- ns_tree.py:118, 125-130: the `tree_id` of the new last root -/
def newTree (db : DB) : Int :=
  match lastRootNode db with
  | some lastRoot => lastRoot.tree + 1
  | none => 1

/-- the new root -/
def rootRow (new : Row) (tree : Int) : Row := { new with tree := tree, lft := 1, rgt := 2, depth := 1 }

/-- ns_tree.py:112-139 `add_root` without `node_order_by`, as a client that locks nothing.  The table has no unique constraint
(ns_tree.py:633-636). -/
def rootPicker (new : ι → Row) : Picker ι DB Int where
  pick db := .ok (newTree db)
  put i tree db := { db with rows := db.rows ++ [rootRow (new i) tree] }
  check _ := none
  deferred := false
  start := 0
  key i := (new i).pk

omit [DecidableEq ι] in
/-- Alone, the client is `add_root`. -/
theorem rootPicker_alone {cfg : Cfg} (ho : cfg.ordered = false) {new : ι → Row} {i : ι} {db : DB} (hf : Fresh db (new i)) :
    (((rootPicker new).client i).alone db).map (fun r => (r.1, rootRow (new i) r.2)) = addRoot cfg db (new i) := by
  rw [Picker.alone]
  simp only [rootPicker, newTree, addRoot, ho]
  have key : ∀ t : Int, save db (rootRow (new i) t) = { db with rows := db.rows ++ [rootRow (new i) t] } := by
    intro t
    have : db.rows.any (·.pk == (rootRow (new i) t).pk) = false := by
      rw [List.any_eq_false]
      intro r hr
      simpa [rootRow] using hf r hr
    unfold save
    rw [this]
    rfl
  unfold rootRow at key
  cases lastRootNode db with
  | none => simp only [key]; rfl
  | some r => simp only [key]; rfl

/-- two new roots -/
def exTwo : Bool → Row := fun b => if b then ⟨11, 0, 0, 0, 0, []⟩ else ⟨10, 0, 0, 0, 0, []⟩

/-- **Concurrent `add_root` calls corrupt an NS tree**: both clients read the last root, both commit, and the new roots have the same
`tree_id`. -/
theorem C53_ns_corrupts : ∃ s, Reach (rootPicker exTwo).client (.init exDB) s ∧ s.log = [false, true] ∧ ¬ Consistent s.db := by
  obtain ⟨s, hs, e⟩ := exists_run (c := (rootPicker exTwo).client) (db₀ := exDB) (js := [false, true]) (by decide)
    [false, true, false, true, false, true, false, true] (fun s => (s.log, s.db.rows))
    (a := ([false, true], exDB.rows ++ [⟨10, 3, 1, 2, 1, []⟩, ⟨11, 3, 1, 2, 1, []⟩])) (by decide)
  simp only [Prod.mk.injEq] at e
  refine ⟨s, hs, e.1, fun h => ?_⟩
  have h : NInv s.db.rows := h
  rw [e.2] at h
  exact (h.dist ⟨10, 3, 1, 2, 1, []⟩ (by simp) ⟨11, 3, 1, 2, 1, []⟩ (by simp) (by simp) rfl).1 rfl

end NS

/-! ### AL -/

namespace AL

/-- al_tree.py:68-72, 80-91: the new object, with its parent (`none`: `add_root`) and position -/
def addRow (new : Row) (sib : Int) : Row := { new with sib := sib }

/-- the query for the largest position below the parent -/
def readMax (p : Option Nat) : Stmt DB Int := fun db _ => .ok (id, maxSib (withParent db p) + 1)

/-- the INSERT -/
def insertNew (new : Row) : Stmt DB Int := fun _ sib => .ok (fun db => ⟨db.rows ++ [addRow new sib]⟩, sib)

/-- the foreign key `parent` -/
def checkParents (db : DB) : Option Err :=
  if db.rows.all fun r => match r.parent with
    | none => true
    | some p => db.rows.any (·.pk == p)
  then none else some .integrity

/-- al_tree.py:64-93 `add_root` and `add_child(target)` without `node_order_by`, as a client that locks nothing; `new.parent` is `none` or
the target. -/
def addClient (new : Row) : Client DB Int where
  key := new.pk
  start := 0
  body := [readMax new.parent, insertNew new]
  check := checkParents

variable {cfg : Cfg} {db₀ : DB} {new : ι → Row}

theorem checkParents_ok {db : DB} (h : ∀ r ∈ db.rows, ∀ p, r.parent = some p → ∃ q ∈ db.rows, q.pk = p) : checkParents db = none := by
  unfold checkParents
  rw [if_pos]
  rw [List.all_eq_true]
  intro r hr
  cases hp : r.parent with
  | none => rfl
  | some p =>
    obtain ⟨q, hq, e⟩ := h r hr p hp
    exact List.any_eq_true.2 ⟨q, hq, by simp [e]⟩

theorem exist_append {rows : List Row} {x : Row} (h : ∀ r ∈ rows, ∀ p, r.parent = some p → ∃ q ∈ rows, q.pk = p)
    (hx : ∀ p, x.parent = some p → ∃ q ∈ rows, q.pk = p) :
    ∀ r ∈ rows ++ [x], ∀ p, r.parent = some p → ∃ q ∈ rows ++ [x], q.pk = p := by
  intro r hr p hp
  have : ∃ q ∈ rows, q.pk = p := by
    rcases List.mem_append.1 hr with hr | hr
    · exact h r hr p hp
    · rw [List.mem_singleton] at hr
      subst hr
      exact hx p hp
  obtain ⟨q, hq, e⟩ := this
  exact ⟨q, List.mem_append_left _ hq, e⟩

/-- Alone, the client of a new object without parent is `add_root`. -/
theorem addClient_root (ho : cfg.ordered = false) {db : DB} (hw : Wf cfg db) {new : Row} (hf : Fresh db new) (hn : new.parent = none) :
    ((addClient new).alone db).map (fun r => (r.1, addRow new r.2)) = addRoot cfg db new := by
  unfold addRoot
  simp only [ho, Bool.false_eq_true, if_false]
  rw [save_new]
  rotate_left
  · exact fun r hr => hf r hr
  · simp [hn]
  simp only [Client.alone, addClient, exec, readMax, insertNew, Client.finish, id]
  rw [checkParents_ok (exist_append hw.exist (by simp [addRow, hn])), hn]
  simp [Except.map, addRow, hn]

/-- Alone, the client of a new object with the parent `target` is `add_child(target)`. -/
theorem addClient_child (ho : cfg.ordered = false) {db : DB} (hw : Wf cfg db) {new target : Row} (hf : Fresh db new)
    (ht : ∃ t ∈ db.rows, t.pk = target.pk) (cached : Option Int) :
    ((addClient { new with parent := some target.pk }).alone db).map (fun r => (r.1, addRow { new with parent := some target.pk } r.2)) =
      (addChild cfg db target cached new).map (fun r => (r.1, r.2.1)) := by
  unfold addChild
  simp only [ho, Bool.false_eq_true, if_false]
  rw [save_new]
  rotate_left
  · exact fun r hr => hf r hr
  · simpa using ht
  simp only [Client.alone, addClient, exec, readMax, insertNew, Client.finish, id]
  rw [checkParents_ok (exist_append hw.exist (by simpa [addRow] using ht))]
  rfl

/-- What a table needs at the start. -/
structure ConcStart (cfg : Cfg) (db₀ : DB) (new : ι → Row) : Prop where
  unsorted : cfg.ordered = false
  consistent : Consistent cfg db₀
  fresh : ∀ i, Fresh db₀ (new i)
  distinct : ∀ i j, (new i).pk = (new j).pk → i = j
  parents : ∀ i p, (new i).parent = some p → ∃ q ∈ db₀.rows, q.pk = p

/-- the position of a committed node -/
def sibOf : Phase DB Int → Int
  | .committed sib => sib
  | _ => 0

/-- a position after all the siblings at the start -/
def After (db₀ : DB) (p : Option Nat) (sib : Int) : Prop := ∀ r ∈ db₀.rows, r.parent = p → r.sib < sib

structure AInvC (db₀ : DB) (new : ι → Row) (s : State ι DB Int) : Prop where
  rows : s.db.rows = db₀.rows ++ s.log.map (fun i => addRow (new i) (sibOf (s.phase i)))
  running : ∀ i rest w l, s.phase i = .running rest w l → (rest = (addClient (new i)).body ∧ w = id) ∨
    (After db₀ (new i).parent l ∧ ((rest = [insertNew (new i)] ∧ w = id) ∨
      (rest = [] ∧ w = fun db => ⟨db.rows ++ [addRow (new i) l]⟩)))
  done : ∀ i l, s.phase i = .committed l → After db₀ (new i).parent l
  log : ∀ i, i ∈ s.log ↔ ∃ l, s.phase i = .committed l
  nodup : s.log.Nodup
  noerr : ∀ i e, s.phase i ≠ .raised e

omit [DecidableEq ι] in
theorem AInvC.db_sub {s : State ι DB Int} (h : AInvC db₀ new s) {r : Row} (hr : r ∈ db₀.rows) : r ∈ s.db.rows := by
  rw [h.rows]
  exact List.mem_append_left _ hr

omit [DecidableEq ι] in
theorem after_max {s : State ι DB Int} (h : AInvC db₀ new s) (p : Option Nat) : After db₀ p (maxSib (withParent s.db p) + 1) := by
  intro r hr hp
  have := le_maxSib (mem_withParent.2 ⟨h.db_sub hr, hp⟩)
  omega

omit [DecidableEq ι] in
theorem AInvC.exist (hs : ConcStart cfg db₀ new) {s : State ι DB Int} (h : AInvC db₀ new s) :
    ∀ r ∈ s.db.rows, ∀ p, r.parent = some p → ∃ q ∈ s.db.rows, q.pk = p := by
  intro r hr p hp
  have : ∃ q ∈ db₀.rows, q.pk = p := by
    rw [h.rows] at hr
    rcases List.mem_append.1 hr with hr | hr
    · exact hs.consistent.exist r hr p hp
    · obtain ⟨i, hi, rfl⟩ := List.mem_map.1 hr
      exact hs.parents i p hp
  obtain ⟨q, hq, e⟩ := this
  exact ⟨q, h.db_sub hq, e⟩

theorem AInvC.step (hs : ConcStart cfg db₀ new) {s s' : State ι DB Int} (h : AInvC db₀ new s)
    (hst : Step (fun i => addClient (new i)) s s') : AInvC db₀ new s' := by
  -- a step that keeps the table and the log, and does not touch a committed client
  have quiet : ∀ (i : ι) (p : Phase DB Int), (∀ l, s.phase i ≠ .committed l) → (∀ l, p ≠ .committed l) → (∀ e, p ≠ .raised e) →
      (∀ rest w l, p = .running rest w l → (rest = (addClient (new i)).body ∧ w = id) ∨
        (After db₀ (new i).parent l ∧ ((rest = [insertNew (new i)] ∧ w = id) ∨
          (rest = [] ∧ w = fun db => ⟨db.rows ++ [addRow (new i) l]⟩)))) → AInvC db₀ new (s.set i p) := by
    intro i p h1 h2 h3 h4
    have hlog : i ∉ s.log := fun hm => by
      obtain ⟨l, e⟩ := (h.log i).1 hm
      exact h1 l e
    refine ⟨?_, ?_, ?_, ?_, h.nodup, ?_⟩
    · show s.db.rows = _
      rw [h.rows]
      congr 1
      refine List.map_congr_left ?_
      intro j hj
      have : j ≠ i := by rintro rfl; exact hlog hj
      simp [State.set, this]
    · intro j rest w l e
      by_cases hj : j = i
      · subst hj
        simp only [State.set, if_true] at e
        exact h4 rest w l e
      · simp only [State.set, hj, if_false] at e
        exact h.running j rest w l e
    · intro j l e
      by_cases hj : j = i
      · subst hj
        simp only [State.set, if_true] at e
        exact absurd e (h2 l)
      · simp only [State.set, hj, if_false] at e
        exact h.done j l e
    · intro j
      show j ∈ s.log ↔ _
      by_cases hj : j = i
      · subst hj
        simp only [State.set, if_true]
        exact ⟨fun hm => absurd hm hlog, fun ⟨l, e⟩ => absurd e (h2 l)⟩
      · simp only [State.set, hj, if_false]
        exact h.log j
    · intro j e
      by_cases hj : j = i
      · subst hj
        simp only [State.set, if_true]
        exact h3 e
      · simp only [State.set, hj, if_false]
        exact h.noerr j e
  cases hst with
  | lock i hw hfree =>
    refine quiet i _ (by simp [hw]) (by simp) (by simp) ?_
    rintro rest w l e
    cases e
    exact Or.inl ⟨rfl, rfl⟩
  | @stmt i st rest w u l l' hr he =>
    refine quiet i _ (by simp [hr]) (by simp) (by simp) ?_
    rintro rest' w' l'' e
    cases e
    rcases h.running i _ _ _ hr with ⟨e, rfl⟩ | ⟨ha, ⟨e, rfl⟩ | ⟨e, rfl⟩⟩
    · cases e
      cases he
      exact Or.inr ⟨after_max h _, Or.inl ⟨rfl, rfl⟩⟩
    · cases e
      cases he
      exact Or.inr ⟨ha, Or.inr ⟨rfl, rfl⟩⟩
    · cases e
  | @raise i st rest w l e hr he =>
    rcases h.running i _ _ _ hr with ⟨e, rfl⟩ | ⟨ha, ⟨e, rfl⟩ | ⟨e, rfl⟩⟩
    · cases e
      cases he
    · cases e
      cases he
    · cases e
  | crash i hr =>
    refine quiet i _ ?_ (by simp) (by simp) (by simp)
    intro l e
    rw [e] at hr
    cases hr
  | @reject i w l e hr he =>
    rcases h.running i _ _ _ hr with ⟨e, rfl⟩ | ⟨ha, ⟨e, rfl⟩ | ⟨-, rfl⟩⟩
    · cases e
    · cases e
    · have := checkParents_ok (db := ⟨s.db.rows ++ [addRow (new i) l]⟩) (exist_append (h.exist hs) (by
        intro p hp
        obtain ⟨q, hq, e⟩ := hs.parents i p hp
        exact ⟨q, h.db_sub hq, e⟩))
      rw [show (addClient (new i)).check = checkParents from rfl, this] at he
      cases he
  | @commit i w l hr he =>
    rcases h.running i _ _ _ hr with ⟨e, rfl⟩ | ⟨ha, ⟨e, rfl⟩ | ⟨-, rfl⟩⟩
    · cases e
    · cases e
    · have hlog : i ∉ s.log := fun hm => by
        obtain ⟨l, e⟩ := (h.log i).1 hm
        rw [hr] at e
        cases e
      refine ⟨?_, ?_, ?_, ?_, ?_, ?_⟩
      · show s.db.rows ++ [addRow (new i) l] = _
        rw [h.rows, List.append_assoc]
        congr 1
        simp only [State.set, List.map_append, List.map_cons, List.map_nil, if_true, sibOf]
        congr 1
        refine List.map_congr_left ?_
        intro j hj
        have : j ≠ i := by rintro rfl; exact hlog hj
        simp [this]
      · intro j rest w l' e
        by_cases hj : j = i
        · subst hj
          simp [State.set] at e
        · simp only [State.set, hj, if_false] at e
          exact h.running j rest w l' e
      · intro j l' e
        by_cases hj : j = i
        · subst hj
          simp only [State.set, if_true] at e
          cases e
          exact ha
        · simp only [State.set, hj, if_false] at e
          exact h.done j l' e
      · intro j
        show j ∈ s.log ++ [i] ↔ _
        by_cases hj : j = i
        · subst hj
          simp [State.set]
        · simp only [State.set, hj, if_false, List.mem_append, List.mem_singleton, or_false]
          exact h.log j
      · show (s.log ++ [i]).Nodup
        rw [List.nodup_append]
        refine ⟨h.nodup, by simp, ?_⟩
        intro a hal b hb e
        rw [List.mem_singleton] at hb
        subst hb e
        exact hlog hal
      · intro j e
        by_cases hj : j = i
        · subst hj
          simp [State.set]
        · simp only [State.set, hj, if_false]
          exact h.noerr j e

theorem AInvC.reach (hs : ConcStart cfg db₀ new) {s : State ι DB Int} (h : Reach (fun i => addClient (new i)) (.init db₀) s) :
    AInvC db₀ new s := by
  induction h with
  | refl =>
    refine ⟨by simp [State.init], ?_, ?_, ?_, by simp [State.init], ?_⟩ <;> intros <;> simp_all [State.init]
  | step _ hst ih => exact ih.step hs hst

omit [DecidableEq ι] in
theorem AInvC.ai (hs : ConcStart cfg db₀ new) {s : State ι DB Int} (h : AInvC db₀ new s) : AI s.db.rows := by
  obtain ⟨hp, he, rank, hrank⟩ := hs.consistent.toWf.ai
  have hpks : (s.db.rows.map Row.pk).Nodup := by
    rw [h.rows, List.map_append, List.nodup_append]
    refine ⟨hp, ?_, ?_⟩
    · rw [List.map_map]
      exact h.nodup.map (f := fun i => (addRow (new i) (sibOf (s.phase i))).pk) (fun i j e => hs.distinct i j e)
    · intro a ha b hb e
      subst e
      obtain ⟨r, hr, rfl⟩ := List.mem_map.1 ha
      rw [List.map_map] at hb
      obtain ⟨i, -, e⟩ := List.mem_map.1 hb
      exact hs.fresh i r hr e.symm
  refine ⟨hpks, h.exist hs, fun k => if ∃ r ∈ db₀.rows, r.pk = k then rank k else (db₀.rows.map fun r => rank r.pk).sum + 1, ?_⟩
  intro r hr p hp
  rw [h.rows] at hr
  rcases List.mem_append.1 hr with hr | hr
  · simp only
    rw [if_pos (he r hr p hp), if_pos ⟨r, hr, rfl⟩]
    exact hrank r hr p hp
  · obtain ⟨i, hi, rfl⟩ := List.mem_map.1 hr
    simp only
    obtain ⟨q, hq, rfl⟩ := hs.parents i p hp
    rw [if_pos ⟨q, hq, rfl⟩, if_neg]
    · have : rank q.pk ≤ (db₀.rows.map fun r => rank r.pk).sum := List.le_sum_of_mem (List.mem_map.2 ⟨q, hq, rfl⟩)
      omega
    · rintro ⟨r, hr, e⟩
      exact hs.fresh i r hr e

theorem split_filter {α : Type} {R : α → α → Prop} {P : α → Bool} {l : List α} (h : l.Pairwise R)
    (hR : ∀ a ∈ l, ∀ b ∈ l, P a = false → P b = true → ¬ R a b) : l = l.filter P ++ l.filter (fun a => !P a) := by
  induction l with
  | nil => rfl
  | cons a l ih =>
    rw [List.pairwise_cons] at h
    have := ih h.2 (fun a ha b hb => hR a (List.mem_cons_of_mem _ ha) b (List.mem_cons_of_mem _ hb))
    cases hp : P a with
    | true =>
      rw [List.filter_cons_of_pos hp, List.filter_cons_of_neg (by simp [hp]), List.cons_append, ← this]
    | false =>
      have hnil : l.filter P = [] := by
        rw [List.filter_eq_nil_iff]
        intro b hb hpb
        exact hR a (by simp) b (List.mem_cons_of_mem _ hb) hp hpb (h.1 b hb)
      rw [List.filter_cons_of_neg (by simp [hp]), List.filter_cons_of_pos (by simp [hp]), hnil, List.nil_append]
      rw [hnil, List.nil_append] at this
      rw [← this]

theorem weak_sib : StrictWeak (fun a b : Row => decide (a.sib < b.sib)) := by
  constructor
  · intro a b
    simp only [decide_eq_false_iff_not]
    omega
  · intro a b c
    simp only [decide_eq_false_iff_not]
    omega

/-- What every interleaving of concurrent `add_root` and `add_child` calls leads to, at every moment. -/
structure NodesAdded (cfg : Cfg) (new : ι → Row) (db₀ : DB) (s : State ι DB Int) : Prop where
  wf : Wf cfg s.db
  children : ∀ p, ∃ news, news.Perm ((s.log.filter fun i => (new i).parent == p).map fun i => (new i).pk) ∧
    forest cfg s.db p = forest cfg db₀ p ++ news
  data : data s.db.rows = data db₀.rows ++ s.log.map fun i => ((new i).pk, (new i).vals)
  nodup : s.log.Nodup
  log : ∀ i, i ∈ s.log ↔ ∃ l, s.phase i = .committed l
  errors : ∀ i e, s.phase i ≠ .raised e

/-- **C53, AL** (partial: two new siblings may end with the same position, see `C53_al_clash`): any number of clients call `add_root` and
`add_child`, on any nodes, concurrently, without `node_order_by`.  In every interleaving the committed table is at every moment well
formed: everybody's parent exists and there are no cycles; below every node stand first its children at the start, in the same order,
and then the new ones of the clients that committed, in some order; nothing else has changed.  No call fails. -/
theorem C53_al_partial (hs : ConcStart cfg db₀ new) {s : State ι DB Int} (h : Reach (fun i => addClient (new i)) (.init db₀) s) :
    NodesAdded cfg new db₀ s := by
  have hi := AInvC.reach hs h
  have hai := hi.ai hs
  have ho := hs.unsorted
  have h0 := hs.consistent.inv ho
  refine ⟨wf_of_ai hai, ?_, ?_, hi.nodup, hi.log, hi.noerr⟩
  · intro p
    rw [forest_eq hai, forest_eq h0.toAI]
    unfold PF
    have hperm : (order cfg (withParent ⟨s.db.rows⟩ p)).Perm (withParent ⟨s.db.rows⟩ p) := order_perm _
    have hsort : (order cfg (withParent ⟨s.db.rows⟩ p)).Pairwise (fun a b => ¬ b.sib < a.sib) := by
      have : ltB cfg = fun a b => decide (a.sib < b.sib) := by
        funext a b
        unfold ltB
        simp [ho]
      unfold order
      rw [this]
      exact (sortBy_sorted weak_sib _).imp (by simp)
    have hnew : ∀ i, addRow (new i) (sibOf (s.phase i)) ∉ db₀.rows := fun i hm => hs.fresh i _ hm rfl
    have hw : withParent ⟨s.db.rows⟩ p = withParent ⟨db₀.rows⟩ p ++
        (s.log.filter fun i => (new i).parent == p).map (fun i => addRow (new i) (sibOf (s.phase i))) := by
      unfold withParent
      rw [hi.rows, List.filter_append, List.filter_map]
      rfl
    generalize hL : order cfg (withParent ⟨s.db.rows⟩ p) = L at hperm hsort
    have hmem : ∀ r ∈ L, r ∉ db₀.rows → ∃ i ∈ s.log, r = addRow (new i) (sibOf (s.phase i)) ∧ (new i).parent = p := by
      intro r hr hn
      have := hperm.mem_iff.1 hr
      rw [hw] at this
      rcases List.mem_append.1 this with h1 | h1
      · exact absurd (mem_withParent.1 h1).1 hn
      · obtain ⟨i, hm, rfl⟩ := List.mem_map.1 h1
        rw [List.mem_filter] at hm
        exact ⟨i, hm.1, rfl, by simpa using hm.2⟩
    have hsplit := split_filter (P := fun r => decide (r ∈ db₀.rows)) hsort (by
      intro a ha b hb h1 h2 h3
      simp only [decide_eq_false_iff_not, decide_eq_true_eq] at h1 h2
      obtain ⟨i, hl, rfl, hp⟩ := hmem a ha h1
      obtain ⟨l, e⟩ := (hi.log i).1 hl
      have hbp := (mem_withParent.1 (hperm.mem_iff.1 hb)).2
      have := hi.done i l e b h2 (by rw [hbp, hp])
      rw [e] at h3
      exact h3 this)
    have hfilt : ∀ P : Row → Bool, (L.filter P).Perm ((withParent ⟨db₀.rows⟩ p).filter P ++
        ((s.log.filter fun i => (new i).parent == p).map (fun i => addRow (new i) (sibOf (s.phase i)))).filter P) := by
      intro P
      have := hperm.filter P
      rwa [hw, List.filter_append] at this
    refine ⟨(L.filter fun r => !decide (r ∈ db₀.rows)).map Row.pk, ?_, ?_⟩
    · have := (hfilt fun r => !decide (r ∈ db₀.rows)).map Row.pk
      refine this.trans ?_
      rw [show (withParent ⟨db₀.rows⟩ p).filter (fun r => !decide (r ∈ db₀.rows)) = [] from by
        rw [List.filter_eq_nil_iff]; intro r hr; simp [(mem_withParent.1 hr).1], List.nil_append]
      rw [show (((s.log.filter fun i => (new i).parent == p).map (fun i => addRow (new i) (sibOf (s.phase i)))).filter
          fun r => !decide (r ∈ db₀.rows)) = (s.log.filter fun i => (new i).parent == p).map (fun i => addRow (new i) (sibOf (s.phase i))) from by
        rw [List.filter_eq_self]
        intro r hr
        obtain ⟨i, -, rfl⟩ := List.mem_map.1 hr
        simp [hnew i], List.map_map]
      rfl
    · conv_lhs => rw [hsplit]
      rw [List.map_append]
      congr 1
      congr 1
      have hold : (L.filter fun r => decide (r ∈ db₀.rows)).Perm (withParent ⟨db₀.rows⟩ p) := by
        refine (hfilt _).trans ?_
        rw [show (withParent ⟨db₀.rows⟩ p).filter (fun r => decide (r ∈ db₀.rows)) = withParent ⟨db₀.rows⟩ p from by
          rw [List.filter_eq_self]; intro r hr; simp [(mem_withParent.1 hr).1]]
        rw [show (((s.log.filter fun i => (new i).parent == p).map (fun i => addRow (new i) (sibOf (s.phase i)))).filter
            fun r => decide (r ∈ db₀.rows)) = [] from by
          rw [List.filter_eq_nil_iff]
          intro r hr
          obtain ⟨i, -, rfl⟩ := List.mem_map.1 hr
          simp [hnew i], List.append_nil]
      have hnd : (L.filter fun r => decide (r ∈ db₀.rows)).Nodup := by
        rw [hold.nodup_iff]
        exact (rows_nodup h0.toAI).filter _
      refine List.Perm.eq_of_pairwise (le := lt cfg) (fun a b _ _ h1 h2 => absurd h2 (lt_asymm h1)) ?_ (order_sorted h0 p) (hold.trans (order_perm _).symm)
      refine (hnd.and (hsort.filter _)).imp_of_mem ?_
      intro a b ha hb ⟨hne, hle⟩
      have ha' := mem_withParent.1 (hold.mem_iff.1 ha)
      have hb' := mem_withParent.1 (hold.mem_iff.1 hb)
      rcases h0.comp a ha'.1 b hb'.1 hne (ha'.2.trans hb'.2.symm) with hlt | hlt
      · exact hlt
      · rw [lt_plain ho] at hlt
        exact absurd hlt hle
  · unfold AL.data
    rw [hi.rows, List.map_append, List.map_map]
    rfl

/-- two new children of the node 1 -/
def exTwo : Bool → Row := fun b => if b then ⟨11, some 1, 0, []⟩ else ⟨10, some 1, 0, []⟩

/-- **Concurrent `add_child` calls break the order of an AL tree**: both clients read the largest position, both commit, and the new
siblings have the same position. -/
theorem C53_al_clash : ∃ s, Reach (fun i => addClient (exTwo i)) (.init exDB) s ∧ s.log = [false, true] ∧ ¬ Consistent exPlain s.db := by
  obtain ⟨s, hs, e⟩ := exists_run (c := fun i => addClient (exTwo i)) (db₀ := exDB) (js := [false, true]) (by decide)
    [false, true, false, true, false, true, false, true] (fun s => (s.log, s.db.rows))
    (a := ([false, true], exDB.rows ++ [⟨10, some 1, 5, []⟩, ⟨11, some 1, 5, []⟩])) (by decide)
  simp only [Prod.mk.injEq] at e
  refine ⟨s, hs, e.1, fun h => ?_⟩
  exact h.clash ⟨10, some 1, 5, []⟩ (by simp [e.2]) ⟨11, some 1, 5, []⟩ (by simp [e.2]) (by simp) rfl rfl

end AL

end Verif
