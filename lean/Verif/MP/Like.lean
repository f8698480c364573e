/-
MP: databases whose LIKE ignores case.

Django's `startswith` is `LIKE 'text%'`, which on SQLite ignores the case of ASCII letters (and on other databases follows the collation of
the column), while `=`, `<` and Python's `str.startswith` do not.  `fold` says which characters LIKE takes for equal.  The functions
here are those of the model with the SQL `startswith` replaced; the Python ones (`is_descendant_of`, `is_child_of`, the bumps in
`_reorder_nodes_before_add_or_move`) stay.
-/
import Verif.MP.Engine
import Verif.MP.FixModel
import Verif.MP.DumpModel

namespace Verif.MP

/-- `path__startswith=p` for a row with the path `q` -/
def likePrefix (fold : Nat → Nat) (p q : List Nat) : Bool := (p.map fold).isPrefixOf (q.map fold)

/-- what SQLite's LIKE does with a character -/
def asciiFold (c : Nat) : Nat := if 65 ≤ c ∧ c ≤ 90 then c + 32 else c

/-- mp_tree.py:837-865, as `newpathRow` -/
def newpathRowL (fold : Nat → Nat) (cfg : Cfg) (oldpath newpath : List Nat) (r : Row) : Row :=
  if likePrefix fold oldpath r.path then
    let p := newpath ++ r.path.drop oldpath.length
    { r with path := p,
             depth := if oldpath.length ≠ newpath.length then p.length / cfg.steplen else r.depth }
  else r

/-- mp_tree.py:837-865, as `setNewpath` -/
def setNewpathL (fold : Nat → Nat) (cfg : Cfg) (db : DB) (oldpath newpath : List Nat) : Except Err DB :=
  let rows := db.rows.map (newpathRowL fold cfg oldpath newpath)
  if uniquePaths rows then
    .ok { rows, sigs := if db.rows.any (fun r => likePrefix fold oldpath r.path)
            then db.sigs ++ [.pathUpdated oldpath newpath] else db.sigs }
  else .error .integrity

/-- the engine -/
def Engine.like (fold : Nat → Nat) (cfg : Cfg) : Engine := ⟨setNewpathL fold cfg, fun db p k => .ok (addNumchild db p k)⟩

/-- mp_tree.py:99-123, as `getTree` -/
def getTreeL (fold : Nat → Nat) (db : DB) (parent : Option Row) (maxDepth : Option Int) : List Row :=
  match parent with
  | some p =>
    if p.isLeaf then orderByPath (db.rows.filter (·.pk == p.pk))
    else orderByPath (db.rows.filter (fun r => likePrefix fold p.path r.path && decide (p.depth ≤ r.depth) &&
      (match maxDepth with
        | none => true
        | some k => decide ((r.depth : Int) ≤ k + p.depth))))
  | none => orderByPath (db.rows.filter (fun r => match maxDepth with
      | none => true
      | some k => decide ((r.depth : Int) ≤ k + 0)))

/-- mp_tree.py:896-909, as `descendants` -/
def descendantsL (fold : Nat → Nat) (db : DB) (node : Row) (includeSelf : Bool) (maxDepth : Option Int) : List Row :=
  if includeSelf then getTreeL fold db (some node) maxDepth
  else if node.isLeaf then []
  else (getTreeL fold db (some node) maxDepth).filter (fun r => !(r.pk == node.pk))

/-- mp_tree.py:585-611, as `descendantsGroupCount` -/
def descendantsGroupCountL (fold : Nat → Nat) (cfg : Cfg) (db : DB) (parent : Option Row) : List (Row × Int) :=
  let qs := match parent with | none => rootNodes db | some p => children cfg db p
  qs.map (fun r => (r, ((db.rows.filter (fun q => likePrefix fold r.path q.path)).length : Int) - 1))

/-- mp_tree.py:721-723, as `dumpRows` -/
def dumpRowsL (fold : Nat → Nat) (db : DB) (parent : Option Row) : List Row :=
  orderByDepthPath (match parent with
    | none => db.rows
    | some p => db.rows.filter (fun r => likePrefix fold p.path r.path))

/-- mp_tree.py:713-750, as `dumpBulk` -/
def dumpBulkL (fold : Nat → Nat) (cfg : Cfg) (db : DB) (parent : Option Row) (keep : Bool) : Except Err (Nest Item) :=
  (dumpLoop Row.path (dumpPlace cfg parent) (dumpRowsL fold db parent) .nil).map (Nest.map (itemOf Row.pk Row.vals keep))

/-- mp_tree.py:78-80, as `delMatches` -/
def delMatchesL (fold : Nat → Nat) (pks : List Nat) (paths : List (List Nat)) (r : Row) : Bool :=
  pks.contains r.pk || paths.any (fun p => likePrefix fold p r.path)

/-- mp_tree.py:73-85, as `execDel` -/
def execDelL (fold : Nat → Nat) (db : DB) : DelStmt → DB
  | .lose path n => { db with rows := db.rows.map (fun r =>
      if r.path == path then { r with numchild := max (r.numchild - n) 0 } else r) }
  | .delete pks paths =>
    { rows := db.rows.filter (fun r => !delMatchesL fold pks paths r),
      sigs := if db.rows.any (delMatchesL fold pks paths) then db.sigs ++ [.nodesDeleted pks paths] else db.sigs }

/-- mp_tree.py:32-86, as `delete` -/
def deleteL (fold : Nat → Nat) (cfg : Cfg) (db : DB) (sel : Row → Bool) : DB :=
  (deleteStmts cfg db sel).foldl (execDelL fold) db

/-- mp_tree.py:158, 299-302, as `inBranch` -/
def inBranchL (fold : Nat → Nat) (parent : Option Row) (r : Row) : Bool :=
  match parent with
  | none => true
  | some p => likePrefix fold p.path r.path

/-- mp_tree.py:271-337, as `findProblems` -/
def findProblemsL (fold : Nat → Nat) (cfg : Cfg) (db : DB) (parent : Option Row) (p : Problem) : List Nat :=
  ((orderByPath (db.rows.filter (inBranchL fold parent))).filter (fun r => problemOf cfg db r == some p)).map Row.pk

/-- mp_tree.py:246-269, as `fixNumRow` -/
def fixNumRowL (fold : Nat → Nat) (cfg : Cfg) (rows : List Row) (r : Row) : Row :=
  { r with numchild := ((rows.filter (fun q =>
      likePrefix fold r.path q.path && q.path.length == r.path.length + cfg.steplen)).length : Int) }

/-- mp_tree.py:125-164, as `fixTree` -/
def fixTreeL (fold : Nat → Nat) (cfg : Cfg) (db : DB) (parent : Option Row) : DB :=
  let db := { db with rows := db.rows.map (fun r => if inBranchL fold parent r then fixDepthRow cfg r else r) }
  { db with rows := db.rows.map (fun r => if inBranchL fold parent r then fixNumRowL fold cfg db.rows r else r) }

/-- mp_tree.py:240-244, as `rewritePath` -/
def rewritePathL (fold : Nat → Nat) (db : DB) (oldpath newpath : List Nat) : Except Err DB :=
  let rows := db.rows.map (fun r => { r with path := if likePrefix fold oldpath r.path then newpath ++ r.path.drop oldpath.length else r.path })
  if uniquePaths rows then
    .ok { rows, sigs := if db.rows.any (fun r => likePrefix fold oldpath r.path)
            then db.sigs ++ [.pathUpdated oldpath newpath] else db.sigs }
  else .error .integrity

/-- mp_tree.py:211-224, as `evict` -/
def evictL (fold : Nat → Nat) (cfg : Cfg) (P : List Nat) (depth desired : Nat) (s : FixState) : Except Err FixState :=
  match s.seq desired with
  | none => .ok s
  | some occupant =>
    let old := pathOf s.items occupant
    match getPath cfg P depth (s.maxPos + 1 : Nat) with
    | .error e => .error e
    | .ok new =>
      if new.length > old.length then .error .pathOverflow
      else
        match rewritePathL fold s.db old new with
        | .error e => .error e
        | .ok db => .ok { db, items := setPath s.items occupant new,
                          seq := setKey (setKey s.seq (s.maxPos + 1) (some occupant)) desired none, maxPos := s.maxPos + 1 }

/-- mp_tree.py:204-233, as `fixItem` -/
def fixItemL (fold : Nat → Nat) (cfg : Cfg) (P : List Nat) (depth i k : Nat) (s : FixState) : Except Err FixState :=
  match lastpos cfg (pathOf s.items k) with
  | .error e => .error e
  | .ok actual =>
    if actual = i + 1 then .ok s
    else
      match evictL fold cfg P depth (i + 1) s with
      | .error e => .error e
      | .ok s =>
        match getPath cfg P depth (i + 1 : Nat) with
        | .error e => .error e
        | .ok new =>
          match rewritePathL fold s.db (pathOf s.items k) new with
          | .error e => .error e
          | .ok db =>
            let seq := setKey s.seq (i + 1) (some k)
            if (seq actual).isNone then .error .keyError
            else .ok { s with db, items := setPath s.items k new, seq := setKey seq actual none }

/-- mp_tree.py:203-238, as `fixItems` -/
def fixItemsL (fold : Nat → Nat) (cfg : Cfg) (P : List Nat) (depth : Nat) :
    List Nat → Nat → FixState → Except Err (DB × List (List Nat × Nat))
  | [], _, s => .ok (s.db, [])
  | k :: ks, i, s =>
    match fixItemL fold cfg P depth i k s with
    | .error e => .error e
    | .ok s =>
      match fixItemsL fold cfg P depth ks (i + 1) s with
      | .error e => .error e
      | .ok (db, q) => .ok (db, (if numOf s.items k ≠ 0 then [(pathOf s.items k, depth + 1)] else []) ++ q)

/-- mp_tree.py:181-238, as `fixGroup` -/
def fixGroupL (fold : Nat → Nat) (cfg : Cfg) (ord : List Row → List Row) (db : DB) (P : List Nat) (depth : Nat) :
    Except Err (DB × List (List Nat × Nat)) :=
  let items := ord (db.rows.filter (fun r => likePrefix fold P r.path && r.depth == depth))
  match readPositions cfg items (fun _ => none) none with
  | .error e => .error e
  | .ok (seq, m) => fixItemsL fold cfg P depth (items.map Row.pk) 0 { db, items, seq, maxPos := m.getD 0 }

/-- mp_tree.py:180-238, as `fixQueue` -/
def fixQueueL (fold : Nat → Nat) (cfg : Cfg) (ord : List Row → List Row) : Nat → List (List Nat × Nat) → DB → Except Err DB
  | _, [], db => .ok db
  | 0, _ :: _, _ => .error .diverges
  | fuel + 1, (P, depth) :: q, db =>
    match fixGroupL fold cfg ord db P depth with
    | .error e => .error e
    | .ok (db, new) => fixQueueL fold cfg ord fuel (q ++ new) db

/-- mp_tree.py:125-238, as `fixTreePaths` -/
def fixTreePathsL (fold : Nat → Nat) (cfg : Cfg) (ord : List Row → List Row) (db : DB) (parent : Option Row) : DB × Option Err :=
  let db := fixTreeL fold cfg db parent
  match fixQueueL fold cfg ord (db.rows.length + 1) [firstGroup parent] db with
  | .error e => (db, some e)
  | .ok db => (db, none)

/-! ### Texts over an alphabet without two characters that LIKE takes for equal -/

/-- every character of the text is in the alphabet -/
def Over (a p : List Nat) : Prop := ∀ c ∈ p, c ∈ a

/-- no two characters of the alphabet are equal for LIKE -/
def CaseSafe (fold : Nat → Nat) (a : List Nat) : Prop := ∀ x ∈ a, ∀ y ∈ a, fold x = fold y → x = y

instance : Decidable (Over a p) := by unfold Over; infer_instance
instance : Decidable (CaseSafe fold a) := by unfold CaseSafe; infer_instance

variable {fold : Nat → Nat} {cfg : Cfg} {db : DB}

theorem likePrefix_eq {a : List Nat} (hc : CaseSafe fold a) : ∀ {p q : List Nat}, Over a p → Over a q → likePrefix fold p q = p.isPrefixOf q
  | [], _, _, _ => rfl
  | _ :: _, [], _, _ => rfl
  | x :: p, y :: q, hp, hq => by
    have ih := likePrefix_eq hc (p := p) (q := q) (fun c h => hp c (by simp [h])) (fun c h => hq c (by simp [h]))
    unfold likePrefix at ih ⊢
    rw [List.map_cons, List.map_cons, List.isPrefixOf_cons_cons, List.isPrefixOf_cons_cons, ih]
    congr 1
    by_cases e : x = y
    · simp [e]
    · have : fold x ≠ fold y := fun h => e (hc x (hp x (by simp)) y (hq y (by simp)) h)
      simp [e, this]

theorem Over.append {a p q : List Nat} (hp : Over a p) (hq : Over a q) : Over a (p ++ q) := by
  intro c h
  rcases List.mem_append.1 h with h | h
  · exact hp c h
  · exact hq c h

theorem Over.take {a p : List Nat} (hp : Over a p) (k : Nat) : Over a (p.take k) := fun c h => hp c (List.mem_of_mem_take h)
theorem Over.drop {a p : List Nat} (hp : Over a p) (k : Nat) : Over a (p.drop k) := fun c h => hp c (List.mem_of_mem_drop h)

theorem Over.slice {a p : List Nat} (hp : Over a p) (k : Int) : Over a (slice0 p k) := by
  unfold slice0
  split
  · exact hp.take _
  · exact hp.take _

theorem over_int2str (hok : cfg.Ok) {n : Int} {key : List Nat} (h : NumConv.int2str cfg.alphabet n = .ok key) : Over cfg.alphabet key := by
  by_cases hn : n < 0
  · unfold NumConv.int2str at h
    rw [if_pos hn] at h
    cases h
  · obtain ⟨m, rfl⟩ := Int.eq_ofNat_of_zero_le (not_lt.1 hn)
    obtain ⟨D, h1, h2, h3⟩ := NumConv.int2str_spec hok.two m
    rw [h1, Except.ok.injEq] at h
    subst h
    intro c hc
    obtain ⟨d, hd, rfl⟩ := List.mem_map.1 hc
    exact NumConv.chr_mem (h2 d hd)

theorem over_pad (hok : cfg.Ok) (n : Nat) : Over cfg.alphabet (pad cfg n) := by
  intro c hc
  unfold pad at hc
  rw [List.eq_of_mem_replicate hc, headD_eq hok]
  exact NumConv.chr_mem (by have := hok.two; omega)

theorem over_getPath (hok : cfg.Ok) {p q : List Nat} {d n : Int} (hp : Over cfg.alphabet p) (h : getPath cfg p d n = .ok q) : Over cfg.alphabet q := by
  unfold getPath at h
  cases e : NumConv.int2str cfg.alphabet n with
  | error e' => rw [e] at h; cases h
  | ok key =>
    rw [e] at h
    simp only [Except.ok.injEq] at h
    subst h
    exact ((hp.slice _).append (over_pad hok _)).append (over_int2str hok e)

theorem over_incPath (hok : cfg.Ok) {p q : List Nat} (hp : Over cfg.alphabet p) (h : incPath cfg p = .ok q) : Over cfg.alphabet q := by
  unfold incPath at h
  cases e : lastpos cfg p with
  | error e' => rw [e] at h; cases h
  | ok n =>
    rw [e] at h
    simp only at h
    cases e2 : NumConv.int2str cfg.alphabet ((n : Int) + 1) with
    | error e' => rw [e2] at h; cases h
    | ok key =>
      rw [e2] at h
      simp only at h
      split at h
      · cases h
      · simp only [Except.ok.injEq] at h
        subst h
        exact ((hp.slice _).append (over_pad hok _)).append (over_int2str hok e2)

/-- every path is a text over the alphabet -/
def RowsOver (a : List Nat) (rows : List Row) : Prop := ∀ r ∈ rows, Over a r.path

theorem setNewpathL_eq (hc : CaseSafe fold cfg.alphabet) (h : RowsOver cfg.alphabet db.rows) {old new : List Nat} (ho : Over cfg.alphabet old) :
    setNewpathL fold cfg db old new = setNewpath cfg db old new := by
  unfold setNewpathL setNewpath
  have h1 : db.rows.map (newpathRowL fold cfg old new) = db.rows.map (newpathRow cfg old new) := by
    refine List.map_congr_left fun r hr => ?_
    unfold newpathRowL newpathRow
    rw [likePrefix_eq hc ho (h r hr)]
  have h2 : db.rows.any (fun r => likePrefix fold old r.path) = db.rows.any (fun r => old.isPrefixOf r.path) := by
    rw [Bool.eq_iff_iff, List.any_eq_true, List.any_eq_true]
    constructor
    · rintro ⟨r, hr, e⟩; exact ⟨r, hr, by rw [← likePrefix_eq hc ho (h r hr)]; exact e⟩
    · rintro ⟨r, hr, e⟩; exact ⟨r, hr, by rw [likePrefix_eq hc ho (h r hr)]; exact e⟩
  simp only [h1, h2]

theorem setNewpath_over (h : RowsOver cfg.alphabet db.rows) {old new : List Nat} (hn : Over cfg.alphabet new) {db' : DB}
    (e : setNewpath cfg db old new = .ok db') : RowsOver cfg.alphabet db'.rows := by
  unfold setNewpath at e
  simp only at e
  split at e
  · simp only [Except.ok.injEq] at e
    subst e
    intro r hr
    obtain ⟨r0, h0, rfl⟩ := List.mem_map.1 hr
    unfold newpathRow
    split
    · exact hn.append ((h r0 h0).drop _)
    · exact h r0 h0
  · cases e

/-- the condition kept by the loop -/
def LikeK (cfg : Cfg) (db : DB) (old : Option (List Nat)) : Prop := RowsOver cfg.alphabet db.rows ∧ ∀ p, old = some p → Over cfg.alphabet p

theorem LikeK.bump (hk : LikeK cfg db old) {p inc : List Nat} (hi : Over cfg.alphabet inc) {db' : DB} (hr : RowsOver cfg.alphabet db'.rows) :
    LikeK cfg db' (old.map (bump p inc)) := by
  refine ⟨hr, fun q hq => ?_⟩
  cases old with
  | none => cases hq
  | some o =>
    simp only [Option.map_some, Option.some.injEq] at hq
    subst hq
    unfold Verif.MP.bump
    split
    · exact hi.append ((hk.2 o rfl).drop _)
    · exact hk.2 o rfl

theorem reorderE_like (hc : CaseSafe fold cfg.alphabet) (hok : cfg.Ok) (h : RowsOver cfg.alphabet db.rows) {target : Row}
    (ht : Over cfg.alphabet target.path) {pos : Pos} {newpos : Option Int} {newdepth : Nat} {sibs : List Row}
    (hs : ∀ s ∈ sibs, s ∈ siblings cfg db target) {old : Option (List Nat)} (ho : ∀ p, old = some p → Over cfg.alphabet p) :
    reorderE (.like fold cfg) cfg db pos newpos newdepth target sibs old = reorder cfg db pos newpos newdepth target sibs old := by
  have hrow : ∀ s ∈ siblings cfg db target, Over cfg.alphabet s.path := fun s hs => h s (mem_rows_of_siblings hs)
  rw [← reorderE_plain]
  unfold reorderE
  split
  · cases e : lastSibling cfg db target with
    | none => rfl
    | some last =>
      simp only
      cases incPath cfg last.path with
      | error e => rfl
      | ok np =>
        simp only
        cases old with
        | none => rfl
        | some o => simp only [Engine.like, Engine.plain, setNewpathL_eq hc h (ho o rfl)]
  · have hplace : ∀ n l, placeE cfg db pos newpos target sibs = .ok (n, l) → ∀ s ∈ l, s ∈ siblings cfg db target := by
      intro n l e
      unfold placeE at e
      cases newpos with
      | none => exact mem_placeSiblings e
      | some m =>
        simp only [Except.ok.injEq, Prod.mk.injEq] at e
        obtain ⟨_, rfl⟩ := e
        exact hs
    cases e : placeE cfg db pos newpos target sibs with
    | error e' => rfl
    | ok x =>
      obtain ⟨n, l⟩ := x
      have hl := hplace n l e
      simp only
      cases e2 : getPath cfg target.path newdepth n with
      | error e' => rfl
      | ok newpath =>
        have hnp := over_getPath hok ht e2
        simp only
        have htemp : tempE (.like fold cfg) cfg db target l newdepth old newpath = tempE (.plain cfg) cfg db target l newdepth old newpath := by
          cases old with
          | none => rfl
          | some o => simp only [tempE, moveToTempE, Engine.like, Engine.plain, setNewpathL_eq hc h (ho o rfl)]
        rw [htemp]
        cases e3 : tempE (.plain cfg) cfg db target l newdepth old newpath with
        | error e' => rfl
        | ok x =>
          obtain ⟨db1, temp⟩ := x
          simp only
          have h1 : RowsOver cfg.alphabet db1.rows ∧ ∀ t, temp = some t → Over cfg.alphabet t := by
            unfold tempE at e3
            cases old with
            | none =>
              simp only [Except.ok.injEq, Prod.mk.injEq] at e3
              obtain ⟨rfl, rfl⟩ := e3
              exact ⟨h, fun _ h => by cases h⟩
            | some o =>
              simp only [moveToTempE, Engine.plain] at e3
              split at e3
              · cases e4 : lastSibling cfg db target with
                | none => rw [e4] at e3; cases e3
                | some last =>
                  rw [e4] at e3
                  simp only at e3
                  cases e5 : lastpos cfg last.path with
                  | error e' => rw [e5] at e3; cases e3
                  | ok b =>
                    rw [e5] at e3
                    simp only at e3
                    cases e6 : getPath cfg newpath newdepth ((b : Int) + 2) with
                    | error e' => rw [e6] at e3; cases e3
                    | ok t =>
                      rw [e6] at e3
                      simp only at e3
                      cases e7 : setNewpath cfg db o t with
                      | error e' => rw [e7] at e3; cases e3
                      | ok d =>
                        rw [e7] at e3
                        simp only [Except.ok.injEq, Prod.mk.injEq] at e3
                        obtain ⟨rfl, rfl⟩ := e3
                        have hto := over_getPath hok hnp e6
                        exact ⟨setNewpath_over h hto e7, fun t' ht' => by cases ht'; exact hto⟩
              · simp only [Except.ok.injEq, Prod.mk.injEq] at e3
                obtain ⟨rfl, rfl⟩ := e3
                exact ⟨h, fun _ h => by cases h⟩
          cases e4 : collectShift cfg l newpath with
          | error e' => rfl
          | ok moves =>
            simp only
            have hm : ∀ m ∈ moves.reverse, Over cfg.alphabet m.path := fun m hm =>
              hrow m (hl m (mem_collectShift e4 m (List.mem_reverse.1 hm)))
            have hloop := shiftLoopE_eq (en := .like fold cfg) (cfg := cfg) (K := LikeK cfg) (l := moves.reverse) (by
              intro m hmm d o inc hk hi
              refine ⟨setNewpathL_eq hc hk.1 (hm m hmm), fun d' e => ?_⟩
              have hio := over_incPath hok (hm m hmm) hi
              exact hk.bump hio (setNewpath_over hk.1 hio e)) db1 old ⟨h1.1, ho⟩
            rw [hloop.1, shiftLoopE_plain]
            cases e5 : shiftLoop cfg moves.reverse db1 old with
            | error e' => rfl
            | ok x =>
              obtain ⟨db2, old2⟩ := x
              have hk2 := hloop.2 _ _ e5
              simp only
              cases old2 with
              | none => rfl
              | some o2 =>
                have : Over cfg.alphabet (temp.getD o2) := by
                  cases temp with
                  | none => exact hk2.2 o2 rfl
                  | some t => exact h1.2 t rfl
                simp only [Engine.like, Engine.plain, setNewpathL_eq hc hk2.1 this]

/-! ### The queries -/

section
variable (hc : CaseSafe fold cfg.alphabet) (h : RowsOver cfg.alphabet db.rows)
include hc h

theorem getTreeL_eq {parent : Option Row} (hp : ∀ p, parent = some p → Over cfg.alphabet p.path) (maxDepth : Option Int) :
    getTreeL fold db parent maxDepth = getTree db parent maxDepth := by
  unfold getTreeL getTree
  cases parent with
  | none => rfl
  | some p =>
    simp only
    split
    · rfl
    · congr 1
      refine List.filter_congr fun r hr => ?_
      rw [likePrefix_eq hc (hp p rfl) (h r hr)]
      rfl

theorem descendantsL_eq {node : Row} (hp : Over cfg.alphabet node.path) (b : Bool) (maxDepth : Option Int) :
    descendantsL fold db node b maxDepth = descendants db node b maxDepth := by
  unfold descendantsL descendants
  rw [getTreeL_eq hc h (fun p e => by cases e; exact hp)]

theorem descendantsGroupCountL_eq (parent : Option Row) : descendantsGroupCountL fold cfg db parent = descendantsGroupCount cfg db parent := by
  unfold descendantsGroupCountL descendantsGroupCount
  simp only
  have hq : ∀ r ∈ (match parent with | none => rootNodes db | some p => children cfg db p), r ∈ db.rows := by
    intro r hr
    cases parent with
    | none =>
      unfold rootNodes orderByPath at hr
      rw [mem_sortBy, List.mem_filter] at hr
      exact hr.1
    | some p =>
      simp only at hr
      unfold children orderByPath at hr
      split at hr
      · simp at hr
      · rw [mem_sortBy, List.mem_filter] at hr
        exact hr.1
  refine List.map_congr_left fun r hr => ?_
  have : db.rows.filter (fun q => likePrefix fold r.path q.path) = db.rows.filter (fun q => r.path.isPrefixOf q.path) :=
    List.filter_congr fun q hq' => likePrefix_eq hc (h r (hq r hr)) (h q hq')
  rw [this]

theorem dumpRowsL_eq {parent : Option Row} (hp : ∀ p, parent = some p → Over cfg.alphabet p.path) :
    dumpRowsL fold db parent = dumpRows db parent := by
  unfold dumpRowsL dumpRows
  cases parent with
  | none => rfl
  | some p =>
    simp only
    congr 1
    exact List.filter_congr fun r hr => likePrefix_eq hc (hp p rfl) (h r hr)

theorem dumpBulkL_eq {parent : Option Row} (hp : ∀ p, parent = some p → Over cfg.alphabet p.path) (keep : Bool) :
    dumpBulkL fold cfg db parent keep = dumpBulk cfg db parent keep := by
  unfold dumpBulkL dumpBulk
  rw [dumpRowsL_eq hc h hp]

theorem inBranchL_eq {parent : Option Row} (hp : ∀ p, parent = some p → Over cfg.alphabet p.path) {r : Row} (hr : r ∈ db.rows) :
    inBranchL fold parent r = inBranch parent r := by
  unfold inBranchL inBranch
  cases parent with
  | none => rfl
  | some p => exact likePrefix_eq hc (hp p rfl) (h r hr)

theorem findProblemsL_eq {parent : Option Row} (hp : ∀ p, parent = some p → Over cfg.alphabet p.path) (p : Problem) :
    findProblemsL fold cfg db parent p = findProblems cfg db parent p := by
  unfold findProblemsL findProblems
  rw [List.filter_congr fun r hr => inBranchL_eq hc h hp hr]

theorem fixTreeL_eq {parent : Option Row} (hp : ∀ p, parent = some p → Over cfg.alphabet p.path) :
    fixTreeL fold cfg db parent = fixTree cfg db parent := by
  unfold fixTreeL fixTree
  simp only
  have h1 : db.rows.map (fun r => if inBranchL fold parent r then fixDepthRow cfg r else r) =
      db.rows.map (fun r => if inBranch parent r then fixDepthRow cfg r else r) :=
    List.map_congr_left fun r hr => by rw [inBranchL_eq hc h hp hr]
  rw [h1]
  set rows := db.rows.map (fun r => if inBranch parent r then fixDepthRow cfg r else r) with hrows
  have h2 : RowsOver cfg.alphabet rows := by
    intro r hr
    obtain ⟨q, hq, rfl⟩ := List.mem_map.1 hr
    split
    · exact h q hq
    · exact h q hq
  congr 1
  refine List.map_congr_left fun r hr => ?_
  rw [inBranchL_eq (db := { db with rows := rows }) hc h2 hp hr]
  have : fixNumRowL fold cfg rows r = fixNumRow cfg rows r := by
    unfold fixNumRowL fixNumRow
    rw [List.filter_congr fun q hq => by rw [likePrefix_eq hc (h2 r hr) (h2 q hq)]]
  rw [this]

theorem rewritePathL_eq {old new : List Nat} (ho : Over cfg.alphabet old) : rewritePathL fold db old new = rewritePath db old new := by
  unfold rewritePathL rewritePath
  have h1 : db.rows.map (fun r => { r with path := if likePrefix fold old r.path then new ++ r.path.drop old.length else r.path }) =
      db.rows.map (fun r => { r with path := ren old new r.path }) := by
    refine List.map_congr_left fun r hr => ?_
    unfold ren
    rw [likePrefix_eq hc ho (h r hr)]
  have h2 : db.rows.any (fun r => likePrefix fold old r.path) = db.rows.any (fun r => old.isPrefixOf r.path) := by
    rw [Bool.eq_iff_iff, List.any_eq_true, List.any_eq_true]
    constructor
    · rintro ⟨r, hr, e⟩; exact ⟨r, hr, by rw [← likePrefix_eq hc ho (h r hr)]; exact e⟩
    · rintro ⟨r, hr, e⟩; exact ⟨r, hr, by rw [likePrefix_eq hc ho (h r hr)]; exact e⟩
  simp only [h1, h2]

end

/-! ### fix_tree(fix_paths=True) -/

theorem rewritePath_over (h : RowsOver cfg.alphabet db.rows) {old new : List Nat} (hn : Over cfg.alphabet new) {db' : DB}
    (e : rewritePath db old new = .ok db') : RowsOver cfg.alphabet db'.rows := by
  unfold rewritePath at e
  simp only at e
  split at e
  · simp only [Except.ok.injEq] at e
    subst e
    intro r hr
    obtain ⟨r0, h0, rfl⟩ := List.mem_map.1 hr
    show Over cfg.alphabet (ren old new r0.path)
    unfold ren
    split
    · exact hn.append ((h r0 h0).drop _)
    · exact h r0 h0
  · cases e

theorem over_pathOf {items : List Row} (h : RowsOver a items) (k : Nat) : Over a (pathOf items k) := by
  unfold pathOf
  cases e : items.find? (·.pk == k) with
  | none => intro c hc; cases hc
  | some r => exact h r (List.mem_of_find?_eq_some e)

theorem over_setPath {items : List Row} (h : RowsOver a items) {p : List Nat} (hp : Over a p) (k : Nat) : RowsOver a (setPath items k p) := by
  intro r hr
  obtain ⟨r0, h0, rfl⟩ := List.mem_map.1 hr
  split
  · exact hp
  · exact h r0 h0

/-- the condition kept by the loops -/
def FixOver (cfg : Cfg) (s : FixState) : Prop := RowsOver cfg.alphabet s.db.rows ∧ RowsOver cfg.alphabet s.items

section
variable (hc : CaseSafe fold cfg.alphabet) (hok : cfg.Ok)
include hc hok

theorem evictL_eq {P : List Nat} (hP : Over cfg.alphabet P) {s : FixState} (hs : FixOver cfg s) (depth desired : Nat) :
    evictL fold cfg P depth desired s = evict cfg P depth desired s ∧ ∀ s', evict cfg P depth desired s = .ok s' → FixOver cfg s' := by
  unfold evictL evict
  cases e : s.seq desired with
  | none => exact ⟨rfl, fun s' h => by simp only [Except.ok.injEq] at h; subst h; exact hs⟩
  | some k =>
    simp only
    cases e2 : getPath cfg P depth (s.maxPos + 1 : Nat) with
    | error e' => exact ⟨rfl, fun s' h => by cases h⟩
    | ok new =>
      have hn := over_getPath hok hP e2
      simp only
      split
      · exact ⟨rfl, fun s' h => by cases h⟩
      · rw [rewritePathL_eq hc hs.1 (over_pathOf hs.2 k)]
        cases e3 : rewritePath s.db (pathOf s.items k) new with
        | error e' => exact ⟨rfl, fun s' h => by cases h⟩
        | ok d =>
          refine ⟨rfl, fun s' h => ?_⟩
          simp only [Except.ok.injEq] at h
          subst h
          exact ⟨rewritePath_over hs.1 hn e3, over_setPath hs.2 hn k⟩

theorem fixItemL_eq {P : List Nat} (hP : Over cfg.alphabet P) {s : FixState} (hs : FixOver cfg s) (depth i k : Nat) :
    fixItemL fold cfg P depth i k s = fixItem cfg P depth i k s ∧ ∀ s', fixItem cfg P depth i k s = .ok s' → FixOver cfg s' := by
  unfold fixItemL fixItem
  cases e : lastpos cfg (pathOf s.items k) with
  | error e' => exact ⟨rfl, fun s' h => by cases h⟩
  | ok actual =>
    simp only
    split
    · exact ⟨rfl, fun s' h => by simp only [Except.ok.injEq] at h; subst h; exact hs⟩
    · obtain ⟨h1, h2⟩ := evictL_eq hc hok hP hs depth (i + 1)
      rw [h1]
      cases e2 : evict cfg P depth (i + 1) s with
      | error e' => exact ⟨rfl, fun s' h => by cases h⟩
      | ok t =>
        have ht := h2 t e2
        simp only
        cases e3 : getPath cfg P depth (i + 1 : Nat) with
        | error e' => exact ⟨rfl, fun s' h => by cases h⟩
        | ok new =>
          have hn := over_getPath hok hP e3
          simp only
          rw [rewritePathL_eq hc ht.1 (over_pathOf ht.2 k)]
          cases e4 : rewritePath t.db (pathOf t.items k) new with
          | error e' => exact ⟨rfl, fun s' h => by cases h⟩
          | ok d =>
            refine ⟨rfl, fun s' h => ?_⟩
            simp only at h
            split at h
            · cases h
            · simp only [Except.ok.injEq] at h
              subst h
              exact ⟨rewritePath_over ht.1 hn e4, over_setPath ht.2 hn k⟩

theorem fixItemsL_eq {P : List Nat} (hP : Over cfg.alphabet P) (depth : Nat) : ∀ (ks : List Nat) (i : Nat) (s : FixState), FixOver cfg s →
    fixItemsL fold cfg P depth ks i s = fixItems cfg P depth ks i s ∧
      ∀ d q, fixItems cfg P depth ks i s = .ok (d, q) → RowsOver cfg.alphabet d.rows ∧ ∀ x ∈ q, Over cfg.alphabet x.1
  | [], i, s, hs => by
    refine ⟨rfl, fun d q h => ?_⟩
    simp only [fixItems, Except.ok.injEq, Prod.mk.injEq] at h
    obtain ⟨rfl, rfl⟩ := h
    exact ⟨hs.1, by simp⟩
  | k :: ks, i, s, hs => by
    obtain ⟨h1, h2⟩ := fixItemL_eq hc hok hP hs depth i k
    rw [fixItemsL, fixItems, h1]
    cases e : fixItem cfg P depth i k s with
    | error e' => exact ⟨rfl, fun d q h => by cases h⟩
    | ok t =>
      have ht := h2 t e
      obtain ⟨h3, h4⟩ := fixItemsL_eq hP depth ks (i + 1) t ht
      simp only
      rw [h3]
      cases e2 : fixItems cfg P depth ks (i + 1) t with
      | error e' => exact ⟨rfl, fun d q h => by cases h⟩
      | ok x =>
        obtain ⟨d1, q1⟩ := x
        obtain ⟨h5, h6⟩ := h4 d1 q1 e2
        refine ⟨rfl, fun d q h => ?_⟩
        simp only [Except.ok.injEq, Prod.mk.injEq] at h
        obtain ⟨rfl, rfl⟩ := h
        refine ⟨h5, fun x hx => ?_⟩
        rcases List.mem_append.1 hx with hx | hx
        · split at hx
          · rw [List.mem_singleton.1 hx]
            exact over_pathOf ht.2 k
          · simp at hx
        · exact h6 x hx

theorem fixGroupL_eq {ord : List Row → List Row} (ho : ∀ l, (ord l).Perm l) (h : RowsOver cfg.alphabet db.rows) {P : List Nat}
    (hP : Over cfg.alphabet P) (depth : Nat) : fixGroupL fold cfg ord db P depth = fixGroup cfg ord db P depth ∧
      ∀ d q, fixGroup cfg ord db P depth = .ok (d, q) → RowsOver cfg.alphabet d.rows ∧ ∀ x ∈ q, Over cfg.alphabet x.1 := by
  unfold fixGroupL fixGroup
  have hf : db.rows.filter (fun r => likePrefix fold P r.path && r.depth == depth) =
      db.rows.filter (fun r => P.isPrefixOf r.path && r.depth == depth) :=
    List.filter_congr fun r hr => by rw [likePrefix_eq hc hP (h r hr)]
  rw [hf]
  simp only
  have hi : RowsOver cfg.alphabet (ord (db.rows.filter (fun r => P.isPrefixOf r.path && r.depth == depth))) := fun r hr =>
    h r (List.mem_filter.1 ((ho _).mem_iff.1 hr)).1
  cases e : readPositions cfg (ord (db.rows.filter (fun r => P.isPrefixOf r.path && r.depth == depth))) (fun _ => none) none with
  | error e' => exact ⟨rfl, fun d q h => by cases h⟩
  | ok x =>
    obtain ⟨seq, m⟩ := x
    simp only
    exact fixItemsL_eq hc hok hP depth _ _ _ ⟨h, hi⟩

theorem fixQueueL_eq {ord : List Row → List Row} (ho : ∀ l, (ord l).Perm l) : ∀ (fuel : Nat) (q : List (List Nat × Nat)) (db : DB),
    RowsOver cfg.alphabet db.rows → (∀ x ∈ q, Over cfg.alphabet x.1) → fixQueueL fold cfg ord fuel q db = fixQueue cfg ord fuel q db
  | _, [], _, _, _ => by rw [fixQueueL, fixQueue]
  | 0, _ :: _, _, _, _ => by rw [fixQueueL, fixQueue]
  | fuel + 1, (P, depth) :: q, db, h, hq => by
    obtain ⟨h1, h2⟩ := fixGroupL_eq (fold := fold) (db := db) hc hok ho h (hq (P, depth) (by simp)) depth
    rw [fixQueueL, fixQueue, h1]
    cases e : fixGroup cfg ord db P depth with
    | error e' => rfl
    | ok x =>
      obtain ⟨d, n⟩ := x
      obtain ⟨h3, h4⟩ := h2 d n e
      exact fixQueueL_eq ho fuel _ d h3 (fun x hx => by
        rcases List.mem_append.1 hx with hx | hx
        · exact hq x (by simp [hx])
        · exact h4 x hx)

theorem fixTreePathsL_eq {ord : List Row → List Row} (ho : ∀ l, (ord l).Perm l) (h : RowsOver cfg.alphabet db.rows) {parent : Option Row}
    (hp : ∀ p, parent = some p → Over cfg.alphabet p.path) : fixTreePathsL fold cfg ord db parent = fixTreePaths cfg ord db parent := by
  unfold fixTreePathsL fixTreePaths fixPaths
  rw [fixTreeL_eq hc h hp]
  simp only
  have h2 : RowsOver cfg.alphabet (fixTree cfg db parent).rows := by
    intro r hr
    unfold fixTree at hr
    obtain ⟨r1, h1, rfl⟩ := List.mem_map.1 hr
    obtain ⟨r0, h0, rfl⟩ := List.mem_map.1 h1
    have := h r0 h0
    unfold fixDepthRow fixNumRow
    split <;> (try split) <;> exact this
  rw [fixQueueL_eq hc hok ho _ _ _ h2]
  · rfl
  · intro x hx
    rw [List.mem_singleton.1 hx]
    cases parent with
    | none => intro c hc; cases hc
    | some p => exact hp p rfl

end

/-! ### delete -/

theorem execDel_over {a : List Nat} (h : RowsOver a db.rows) (s : DelStmt) : RowsOver a (execDel db s).rows := by
  cases s with
  | lose p n =>
    intro r hr
    obtain ⟨r0, h0, rfl⟩ := List.mem_map.1 hr
    split
    · exact h r0 h0
    · exact h r0 h0
  | delete pks paths => exact fun r hr => h r (List.mem_filter.1 hr).1

/-- the paths in a statement are texts over the alphabet -/
def StmtOver (a : List Nat) : DelStmt → Prop
  | .lose _ _ => True
  | .delete _ paths => ∀ p ∈ paths, Over a p

theorem execDelL_eq (hc : CaseSafe fold cfg.alphabet) (h : RowsOver cfg.alphabet db.rows) {s : DelStmt} (hs : StmtOver cfg.alphabet s) :
    execDelL fold db s = execDel db s := by
  cases s with
  | lose p n => rfl
  | delete pks paths =>
    have hm : ∀ r ∈ db.rows, delMatchesL fold pks paths r = delMatches pks paths r := by
      intro r hr
      unfold delMatchesL delMatches
      congr 1
      rw [Bool.eq_iff_iff, List.any_eq_true, List.any_eq_true]
      constructor
      · rintro ⟨p, hp, e⟩; exact ⟨p, hp, by rw [← likePrefix_eq hc (hs p hp) (h r hr)]; exact e⟩
      · rintro ⟨p, hp, e⟩; exact ⟨p, hp, by rw [likePrefix_eq hc (hs p hp) (h r hr)]; exact e⟩
    unfold execDelL execDel
    have h1 : db.rows.filter (fun r => !delMatchesL fold pks paths r) = db.rows.filter (fun r => !delMatches pks paths r) :=
      List.filter_congr fun r hr => by rw [hm r hr]
    have h2 : db.rows.any (delMatchesL fold pks paths) = db.rows.any (delMatches pks paths) := by
      rw [Bool.eq_iff_iff, List.any_eq_true, List.any_eq_true]
      constructor
      · rintro ⟨r, hr, e⟩; exact ⟨r, hr, by rw [← hm r hr]; exact e⟩
      · rintro ⟨r, hr, e⟩; exact ⟨r, hr, by rw [hm r hr]; exact e⟩
    simp only [h1, h2]

theorem foldl_execDelL (hc : CaseSafe fold cfg.alphabet) : ∀ (l : List DelStmt) (db : DB), RowsOver cfg.alphabet db.rows →
    (∀ s ∈ l, StmtOver cfg.alphabet s) → l.foldl (execDelL fold) db = l.foldl execDel db
  | [], _, _, _ => rfl
  | s :: l, db, h, hs => by
    rw [List.foldl_cons, List.foldl_cons, execDelL_eq hc h (hs s (by simp))]
    exact foldl_execDelL hc l _ (execDel_over h s) (fun t ht => hs t (by simp [ht]))

theorem removedLoop_sub (cfg : Cfg) : ∀ (l acc : List Row), ∀ r ∈ removedLoop cfg l acc, r ∈ l ∨ r ∈ acc
  | [], _, r, hr => Or.inr hr
  | n :: l, acc, r, hr => by
    rw [removedLoop] at hr
    rcases removedLoop_sub cfg l _ r hr with h | h
    · exact Or.inl (by simp [h])
    · split at h
      · exact Or.inr h
      · rcases List.mem_append.1 h with h | h
        · exact Or.inr h
        · rw [List.mem_singleton.1 h]; exact Or.inl (by simp)

theorem deletePlan_paths (cfg : Cfg) : ∀ (l : List Row) (plan : DeletePlan), ∀ p ∈ (deletePlan cfg l plan).paths, p ∈ plan.paths ∨ ∃ r ∈ l, r.path = p
  | [], _, _, hp => Or.inl hp
  | n :: l, plan, p, hp => by
    rw [deletePlan] at hp
    rcases deletePlan_paths cfg l _ p hp with h | ⟨r, hr, e⟩
    · have : p ∈ plan.paths ∨ p = n.path := by
        by_cases h1 : basepath cfg n.path ((n.depth : Int) - 1) ≠ [] <;> cases h2 : n.isLeaf <;> simp [h1, h2] at h <;> tauto
      rcases this with h | rfl
      · exact Or.inl h
      · exact Or.inr ⟨n, by simp, rfl⟩
    · exact Or.inr ⟨r, by simp [hr], e⟩

theorem deleteL_eq (hc : CaseSafe fold cfg.alphabet) (h : RowsOver cfg.alphabet db.rows) (sel : Row → Bool) :
    deleteL fold cfg db sel = delete cfg db sel := by
  unfold deleteL delete
  refine foldl_execDelL hc _ _ h fun s hs => ?_
  unfold deleteStmts at hs
  simp only at hs
  rcases List.mem_append.1 hs with hs | hs
  · obtain ⟨e, _, rfl⟩ := List.mem_map.1 hs
    trivial
  · rw [List.mem_singleton.1 hs]
    intro p hp
    rcases deletePlan_paths cfg _ _ p hp with hp | ⟨r, hr, rfl⟩
    · simp at hp
    · rcases removedLoop_sub cfg _ _ r hr with hr | hr
      · unfold orderByDepthPath at hr
        rw [mem_sortBy] at hr
        exact h r (List.mem_filter.1 hr).1
      · simp at hr

end Verif.MP
