/-
MP: moving several nodes one after the other, with objects fetched before.
-/
import Verif.Props.Fresh
import Verif.Height
import Verif.MP.Engine

namespace Verif.MP

variable {cfg : Cfg} {db db' : DB}

/-- `for node in nodes: objects.move(node, target, pos)` (mp_tree.py:480-534): the objects `nodes` are those fetched before, `move` keeps `target` up to date.  An exception ends the
loop. -/
def moveLoop (cfg : Cfg) (pos : Option Pos) : List Row → Row → DB → DB × Option Err
  | [], _, db => (db, none)
  | x :: xs, t, db => match move cfg db x t pos with
    | .error e => (db, some e)
    | .ok res => moveLoop cfg pos xs res.target res.db

/-- the same with all objects fetched anew for every move -/
def moveFresh (cfg : Cfg) (pos : Option Pos) (t : Nat) : List Nat → DB → DB × Option Err
  | [], db => (db, none)
  | k :: ks, db => match db.get? k, db.get? t with
    | some x, some t' => match move cfg db x t' pos with
      | .error e => (db, some e)
      | .ok res => moveFresh cfg pos t ks res.db
    | _, _ => (db, some .doesNotExist)

/-! ### What a move leaves alone -/

/-- alike but for the number of children -/
structure Alike (a b : Row) : Prop where
  pk : a.pk = b.pk
  path : a.path = b.path
  depth : a.depth = b.depth
  vals : a.vals = b.vals

theorem Alike.refl (a : Row) : Alike a a := ⟨rfl, rfl, rfl, rfl⟩

theorem Alike.trans {a b c : Row} (h : Alike a b) (h' : Alike b c) : Alike a c :=
  ⟨h.pk.trans h'.pk, h.path.trans h'.path, h.depth.trans h'.depth, h.vals.trans h'.vals⟩

/-- strictly below the path `P` -/
def Under (P p : List Nat) : Prop := P <+: p ∧ P.length < p.length

theorem Under.trans {P p q : List Nat} (h : Under P p) (h' : p <+: q) : Under P q :=
  ⟨h.1.trans h', Nat.lt_of_lt_of_le h.2 h'.length_le⟩

theorem setNewpath_kept {old new : List Nat} (h : setNewpath cfg db old new = .ok db') {r : Row} (hr : r ∈ db.rows) (hp : ¬ old <+: r.path) : r ∈ db'.rows := by
  unfold setNewpath at h
  simp only at h
  split at h
  · cases h
    refine List.mem_map.2 ⟨r, hr, ?_⟩
    unfold newpathRow
    rw [if_neg (by rwa [List.isPrefixOf_iff_prefix])]
  · cases h

theorem shiftLoop_kept {P : List Nat} : ∀ {l : List Row} {db : DB} {x : List Nat} {old : Option (List Nat)}, (∀ n ∈ l, Under P n.path) → ¬ Under P x →
    shiftLoop cfg l db (some x) = .ok (db', old) → old = some x ∧ ∀ r ∈ db.rows, ¬ Under P r.path → r ∈ db'.rows := by
  intro l
  induction l with
  | nil =>
    intro db x old _ _ h
    unfold shiftLoop at h
    cases h
    exact ⟨rfl, fun r hr _ => hr⟩
  | cons n l ih =>
    intro db x old hl hx h
    unfold shiftLoop at h
    split at h
    · cases h
    · split at h
      · cases h
      · rename_i db1 e1
        have hn := hl n (List.mem_cons_self ..)
        have hb : ∀ inc, bump n.path inc x = x := by
          intro inc
          unfold bump
          rw [if_neg]
          rw [List.isPrefixOf_iff_prefix]
          exact fun hp => hx (hn.trans hp)
        rw [Option.map_some, hb] at h
        obtain ⟨h1, h2⟩ := ih (fun m hm => hl m (List.mem_cons_of_mem _ hm)) hx h
        exact ⟨h1, fun r hr hu => h2 r (setNewpath_kept e1 hr (fun hp => hu (hn.trans hp))) hu⟩

theorem addNumchild_alike {P : List Nat} {k : Int} {r : Row} (hr : r ∈ db.rows) : ∃ r' ∈ (addNumchild db P k).rows, Alike r r' := by
  refine ⟨_, List.mem_map_of_mem hr, ?_⟩
  split <;> exact ⟨rfl, rfl, rfl, rfl⟩

theorem updateParentCounts_alike {o n : List Nat} {r : Row} (hr : r ∈ db.rows) : ∃ r' ∈ (updateParentCounts cfg db o n).rows, Alike r r' := by
  unfold updateParentCounts
  simp only
  split
  · have h1 : ∃ r' ∈ (if parentPathFromPath cfg o ≠ [] then addNumchild db (parentPathFromPath cfg o) (-1) else db).rows, Alike r r' := by
      split
      · exact addNumchild_alike hr
      · exact ⟨r, hr, .refl r⟩
    obtain ⟨r1, hr1, a1⟩ := h1
    split
    · obtain ⟨r2, hr2, a2⟩ := addNumchild_alike (P := parentPathFromPath cfg n) (k := 1) hr1
      exact ⟨r2, hr2, a1.trans a2⟩
    · exact ⟨r1, hr1, a1⟩
  · exact ⟨r, hr, .refl r⟩

/-- a move to the end renames one branch and nothing else -/
theorem reorder_last_kept {pos : Pos} {newpos : Option Int} {d : Nat} {t : Row} {sibs : List Row} {x : List Nat} {o : Option (List Nat)} {np : List Nat}
    (hl : IsLastCase cfg db pos t ∨ (newpos = some 1 ∧ sibs = [])) (h : reorder cfg db pos newpos d t sibs (some x) = .ok (db', o, np)) :
    ∀ r ∈ db.rows, ¬ x <+: r.path → r ∈ db'.rows := by
  by_cases hc : IsLastCase cfg db pos t
  · unfold IsLastCase at hc
    unfold reorder at h
    rw [if_pos hc] at h
    split at h
    · cases h
    · split at h
      · cases h
      · simp only at h
        split at h
        · cases h
        · rename_i e1
          cases h
          exact fun r hr hp => setNewpath_kept e1 hr hp
  · obtain ⟨rfl, rfl⟩ := hl.resolve_left hc
    rw [reorder_some hc] at h
    unfold reorderRest at h
    split at h
    · cases h
    · simp only [moveToTemp, ne_eq, not_true_eq_false, false_and, and_false, if_false, collectShift, List.reverse_nil, shiftLoop, Option.getD_none] at h
      split at h
      · cases h
      · rename_i e1
        cases h
        exact fun r hr hp => setNewpath_kept e1 hr hp

theorem basepath_pre (p : List Nat) (d : Int) : basepath cfg p d <+: p := by
  unfold basepath slice0
  split <;> exact List.take_prefix _ _

theorem under_sib (hok : cfg.Ok) (h : PInv cfg db.rows) {s : Row} (hs : s ∈ db.rows) : Under (pp cfg.steplen s.path) s.path := by
  refine ⟨pp_prefix _, ?_⟩
  have := (h.inv.len s hs).2
  have := hok.step
  rw [pp_length]
  omega

/-- a move to another parent renames one branch, and branches of new siblings -/
theorem reorder_sib_kept (hok : cfg.Ok) (h : PInv cfg db.rows) {t : Row} (ht : t ∈ db.rows) {pos : Pos} {x : List Nat} (hx : ¬ Under (pp cfg.steplen t.path) x)
    {o : Option (List Nat)} {np : List Nat} (hr : reorder cfg db pos none t.depth t [] (some x) = .ok (db', o, np)) :
    ∀ r ∈ db.rows, ¬ x <+: r.path → ¬ Under (pp cfg.steplen t.path) r.path → r ∈ db'.rows := by
  by_cases hc : IsLastCase cfg db pos t
  · exact fun r hm hp _ => reorder_last_kept (Or.inl hc) hr r hm hp
  · rw [reorder_none hc] at hr
    split at hr
    · cases hr
    · rename_i n sibs es
      have hsib : ∀ s ∈ sibs, Under (pp cfg.steplen t.path) s.path := by
        intro s hs
        obtain ⟨h1, h2⟩ := (mem_siblings h hok ht).1 (mem_placeSiblings es s hs)
        rw [← h2]
        exact under_sib hok h h1
      have hbase : basepath cfg t.path ((t.depth : Int) - 1) = pp cfg.steplen t.path := h.basepath hok ht
      have hdm := depth_mul h ht
      unfold reorderRest at hr
      split at hr
      · cases hr
      · rename_i newpath en
        simp only at hr
        split at hr
        · cases hr
        · rename_i db1 temp et
          have hte : db1 = db ∧ temp = none := by
            unfold moveToTemp at et
            split at et
            · rename_i hcond
              exfalso
              refine hx ?_
              obtain ⟨h1, h2, _⟩ := hcond
              unfold getPath at en
              split at en
              · cases en
              · rename_i key _
                rw [hbase, List.append_assoc] at en
                injection en with en
                have hd1 : 1 ≤ t.depth := by
                  by_contra hc
                  have : t.depth = 0 := by omega
                  rw [this] at hdm
                  have := hok.step
                  omega
                have hb : basepath cfg newpath ((t.depth : Int) - 1) = pp cfg.steplen t.path := by
                  rw [basepath_pred _ hd1, ← en, Nat.sub_mul, hdm, Nat.one_mul, Nat.add_sub_cancel]
                  exact List.take_left ..
                rw [hb] at h2
                have := hok.step
                refine ⟨h2 ▸ basepath_pre _ _, ?_⟩
                rw [h1, ← en]
                simp only [List.length_append, pad, List.length_replicate]
                omega
            · cases et
              exact ⟨rfl, rfl⟩
          obtain ⟨rfl, rfl⟩ := hte
          split at hr
          · cases hr
          · rename_i moves em
            split at hr
            · cases hr
            · rename_i db2 old2 e2
              obtain ⟨rfl, h2⟩ := shiftLoop_kept (fun m hm => hsib m (mem_collectShift em m (List.mem_reverse.1 hm))) hx e2
              simp only [Option.getD_none] at hr
              split at hr
              · cases hr
              · rename_i e3
                cases hr
                exact fun r hm hp hu => setNewpath_kept e3 (h2 r hm hu) hp

/-- A move to one of the ends, to another parent or not. -/
def ToEnd (pos : Pos) : Prop := pos = .lastSibling ∨ pos = .lastChild

theorem finishMove_alike {x vt t t' : Row} {o n : List Nat} {res : MoveResult} (h : finishMove cfg db x vt t t' o n = .ok res) {r : Row} (hr : r ∈ db.rows) :
    ∃ r' ∈ res.db.rows, Alike r r' := by
  unfold finishMove at h
  simp only at h
  split at h
  · cases h; exact updateParentCounts_alike hr
  · cases h

theorem moveTo_kept {x t t' : Row} {v : MoveVars} {res : MoveResult} {Q : Row → Prop}
    (hk : ∀ db' o np, reorder cfg db v.pos v.newpos v.newdepth v.target v.sibs (some x.path) = .ok (db', o, np) → ∀ r ∈ db.rows, Q r → r ∈ db'.rows)
    (h : moveTo cfg db x t t' v = .ok res) : ∀ r ∈ db.rows, Q r → ∃ r' ∈ res.db.rows, Alike r r' := by
  intro r hr hq
  unfold moveTo at h
  split at h
  · cases h; exact ⟨r, hr, .refl r⟩
  · split at h
    · cases h
    · rename_i e
      exact finishMove_alike h (hk _ _ _ e r hr hq)

/-- **What a move leaves alone**: the nodes outside of the branch moved and, but for the last position, outside of the branches of the new parent. -/
theorem move_kept (hok : cfg.Ok) (h : Inv cfg db.rows) (ho : cfg.ordered = false) {x t : Row} (hx : x ∈ db.rows) (ht : t ∈ db.rows) {posArg : Option Pos} {pos : Pos}
    (hprep : preparePosForMove false posArg = .ok pos) (hcase : ToEnd pos ∨ ¬ Under (destPath cfg pos t) x.path) {res : MoveResult}
    (hm : move cfg db x t posArg = .ok res) : ∀ r ∈ db.rows, ¬ x.path <+: r.path → (ToEnd pos ∨ ¬ Under (destPath cfg pos t) r.path) → ∃ r' ∈ res.db.rows, Alike r r' := by
  have hpl := plain_of_prep hprep
  unfold move at hm
  rw [ho, hprep] at hm
  simp only at hm
  rcases moveToChildVars_spec hok h hx ht pos with ⟨_, e | ⟨v, e, hd⟩⟩ | ⟨_, hc, e, hd⟩ | ⟨_, hc, hleaf, _, e, hd⟩ | ⟨_, hc, last, hl, hlp, e, hd⟩
  · rw [e] at hm; cases hm
  · rw [e] at hm
    simp only [hd, if_true] at hm
    cases hm
  · rw [e] at hm
    simp only [hd, Bool.false_eq_true, if_false] at hm
    have hns : pos ≠ .sortedSibling := by rintro rfl; simp [isPlainPos] at hpl
    unfold moveSorted at hm
    simp only [hns, if_false] at hm
    have hdest : destPath cfg pos t = pp cfg.steplen t.path := by unfold destPath; rw [hc]; rfl
    rw [hdest] at hcase ⊢
    have hlast : ToEnd pos → pos = .lastSibling := by
      rintro (h | rfl)
      · exact h
      · simp [isChildPos] at hc
    intro r hr hp hu
    refine moveTo_kept (Q := fun r => ¬ x.path <+: r.path ∧ (ToEnd pos ∨ ¬ Under (pp cfg.steplen t.path) r.path)) ?_ hm r hr ⟨hp, hu⟩
    intro db' o np e2 r hr ⟨hp, hu⟩
    by_cases hE : ToEnd pos
    · exact reorder_last_kept (Or.inl (Or.inl (hlast hE))) e2 r hr hp
    · exact reorder_sib_kept hok h.toPInv ht (hcase.resolve_left hE) e2 r hr hp (hu.resolve_left hE)
  · rw [e] at hm
    simp only [hd, Bool.false_eq_true, if_false] at hm
    unfold moveSorted at hm
    simp only [reduceCtorEq, if_false] at hm
    intro r hr hp hu
    refine moveTo_kept (Q := fun r => ¬ x.path <+: r.path) ?_ hm r hr hp
    intro db' o np e2 r hr hp
    exact reorder_last_kept (Or.inr ⟨rfl, rfl⟩) e2 r hr hp
  · rw [e] at hm
    simp only [hd, Bool.false_eq_true, if_false] at hm
    have hns : childToSib pos ≠ .sortedSibling := by
      cases pos <;> simp [isPlainPos, isChildPos, childToSib] at hpl hc ⊢
    unfold moveSorted at hm
    simp only [hns, if_false] at hm
    have hdest : destPath cfg pos t = pp cfg.steplen last.path := by unfold destPath; rw [hc, hlp]; rfl
    rw [hdest] at hcase ⊢
    have hlast : ToEnd pos → childToSib pos = .lastSibling := by
      rintro (rfl | rfl)
      · simp [isChildPos] at hc
      · rfl
    intro r hr hp hu
    refine moveTo_kept (Q := fun r => ¬ x.path <+: r.path ∧ (ToEnd pos ∨ ¬ Under (pp cfg.steplen last.path) r.path)) ?_ hm r hr ⟨hp, hu⟩
    intro db' o np e2 r hr ⟨hp, hu⟩
    by_cases hE : ToEnd pos
    · exact reorder_last_kept (Or.inl (Or.inl (hlast hE))) e2 r hr hp
    · exact reorder_sib_kept hok h.toPInv hl (hcase.resolve_left hE) e2 r hr hp (hu.resolve_left hE)

/-! ### The number of children in memory -/

/-- a target object and its row: the number of children may be too high, but is zero only if it has to be -/
structure Near (a b : Row) : Prop where
  alike : Alike a b
  le : 0 ≤ a.numchild
  leaf : a.numchild = 0 ↔ b.numchild = 0

/-- the same outcome but for the objects; the target is either that of the table or the object changed in memory -/
def SameOut (tt tt0 : Row) (a b : Except Err MoveResult) : Prop :=
  match a, b with
  | .error e, .error e' => e = e'
  | .ok r, .ok r' => r.db = r'.db ∧ (r.target = r'.target ∨ (r.target = tt ∧ r'.target = tt0))
  | _, _ => False

theorem Alike.eq {a b : Row} (h : Alike a b) : a = { b with numchild := a.numchild } := by
  obtain ⟨h1, h2, h3, h4⟩ := h
  cases a; cases b
  simp only at h1 h2 h3 h4
  subst h1 h2 h3 h4
  rfl

theorem moveNoop_count (x : Row) (v : MoveVars) (m n : Int) :
    moveNoop cfg db { x with numchild := m } { v with target := { v.target with numchild := n } } = moveNoop cfg db x v := rfl

theorem reorder_count (pos : Pos) (np : Option Int) (d : Nat) (t : Row) (n : Int) (sibs : List Row) (o : Option (List Nat)) :
    reorder cfg db pos np d { t with numchild := n } sibs o = reorder cfg db pos np d t sibs o := rfl

theorem moveTo_same {x x0 t t0 tt tt0 : Row} (hx : Alike x x0) (ht : t.pk = t0.pk) (v : MoveVars) (n : Int) :
    SameOut tt tt0 (moveTo cfg db x t tt { v with target := { v.target with numchild := n } }) (moveTo cfg db x0 t0 tt0 v) := by
  rw [hx.eq]
  unfold moveTo
  rw [moveNoop_count]
  split
  · exact ⟨rfl, Or.inr ⟨rfl, rfl⟩⟩
  · simp only [reorder_count]
    split
    · exact rfl
    · unfold finishMove
      simp only [ht]
      split
      · refine ⟨rfl, ?_⟩
        simp only
        split
        · exact Or.inl rfl
        · exact Or.inr ⟨rfl, rfl⟩
      · exact rfl

/-- the in-memory target after a move -/
def gained (pos : Pos) (t : Row) : Row := if isChildPos pos then { t with numchild := t.numchild + 1 } else t

/-- mp_tree.py:496-534, without `node_order_by` -/
def moveVars (cfg : Cfg) (db : DB) (x t tt : Row) (v : MoveVars) : Except Err MoveResult :=
  if v.target.isDescendantOf x then .error .invalidMoveToDescendant else moveTo cfg db x t tt v

theorem move_vars (ho : cfg.ordered = false) {x t : Row} {posArg : Option Pos} {pos : Pos} (hprep : preparePosForMove false posArg = .ok pos) :
    move cfg db x t posArg = match moveToChildVars cfg db x t pos with
      | .error e => .error e
      | .ok v => moveVars cfg db x t (gained pos t) v := by
  have hpl := plain_of_prep hprep
  unfold move
  rw [ho, hprep]
  simp only
  cases ev : moveToChildVars cfg db x t pos with
  | error e => rfl
  | ok v =>
    have hv : v.pos ≠ .sortedSibling := by
      unfold moveToChildVars at ev
      split at ev
      · rename_i hc
        split at ev
        · cases ev
        · split at ev
          · cases ev; simp
          · split at ev
            · cases ev
            · cases ev
              cases pos <;> simp [isPlainPos, isChildPos, childToSib] at hpl hc ⊢
      · rename_i hc
        cases ev
        rintro rfl
        simp [isPlainPos] at hpl
    unfold moveVars moveSorted gained
    simp only [hv, if_false]

theorem moveVars_same {x x0 t t0 tt tt0 : Row} (hx : Alike x x0) (ht : t.pk = t0.pk) (v : MoveVars) (n : Int) :
    SameOut tt tt0 (moveVars cfg db x t tt { v with target := { v.target with numchild := n } }) (moveVars cfg db x0 t0 tt0 v) := by
  have hd : ({ v.target with numchild := n } : Row).isDescendantOf x = v.target.isDescendantOf x0 := by
    unfold Row.isDescendantOf
    rw [hx.path, hx.depth]
  unfold moveVars
  simp only [hd]
  split
  · exact rfl
  · exact moveTo_same hx ht v n

/-- **`move` needs of the objects only primary key, path, depth and values, and whether the target has children.** -/
theorem move_same (ho : cfg.ordered = false) {x x0 t t0 : Row} (hx : Alike x x0) (ht : Near t t0) {posArg : Option Pos} {pos : Pos}
    (hprep : preparePosForMove false posArg = .ok pos) : SameOut (gained pos t) (gained pos t0) (move cfg db x t posArg) (move cfg db x0 t0 posArg) := by
  have hleaf : t.isLeaf = t0.isLeaf := by
    unfold Row.isLeaf
    rw [Bool.eq_iff_iff, beq_iff_eq, beq_iff_eq]
    exact ht.leaf
  have et := ht.alike.eq
  rw [move_vars ho hprep, move_vars ho hprep]
  unfold moveToChildVars
  by_cases hc : isChildPos pos = true
  · rw [ht.alike.pk, hx.pk, hleaf]
    simp only [hc, if_true]
    by_cases h1 : t0.pk = x0.pk
    · simp only [h1, if_true]; exact rfl
    · simp only [h1, if_false]
      by_cases h2 : t0.isLeaf = true
      · simp only [h2, if_true]
        have := moveVars_same (cfg := cfg) (db := db) (tt := gained pos t) (tt0 := gained pos t0) hx ht.alike.pk ⟨t0, t0.depth + 1, [], some 1, .firstSibling⟩ t.numchild
        simp only [← et] at this
        rw [ht.alike.depth]
        exact this
      · have hl : lastChild cfg db t = lastChild cfg db t0 := by
          unfold lastChild children
          rw [hleaf, ht.alike.path, ht.alike.depth]
        simp only [h2, hl]
        cases lastChild cfg db t0 with
        | none => exact rfl
        | some last =>
          simp only
          have := moveVars_same (cfg := cfg) (db := db) (tt := gained pos t) (tt0 := gained pos t0) hx ht.alike.pk ⟨last, t0.depth + 1, [], none, childToSib pos⟩ last.numchild
          rw [ht.alike.depth]
          exact this
  · have := moveVars_same (cfg := cfg) (db := db) (tt := gained pos t) (tt0 := gained pos t0) hx ht.alike.pk ⟨t0, t0.depth, [], none, pos⟩ t.numchild
    simp only [← et] at this
    simp only [hc]
    rw [ht.alike.depth]
    exact this

/-- no node of the list is below an earlier one -/
def Apart (nodes : List Row) : Prop := nodes.Pairwise (fun a b => ¬ a.path <+: b.path)

/-- what holds before every move of the loop -/
structure LoopInv (cfg : Cfg) (pos : Pos) (db : DB) (nodes : List Row) (t t0 : Row) : Prop where
  inv : Inv cfg db.rows
  stored : ∀ x ∈ nodes, ∃ r ∈ db.rows, Alike x r
  apart : Apart nodes
  target : t0 ∈ db.rows
  near : Near t t0
  out : ToEnd pos ∨ ∀ x ∈ nodes, ¬ Under (destPath cfg pos t0) x.path

theorem moveRoom_loop (hok : cfg.Ok) (h : Inv cfg db.rows) {x t : Row} (hx : x ∈ db.rows) {pos : Pos} (hc : ToEnd pos ∨ ¬ Under (destPath cfg pos t) x.path) :
    MoveRoom cfg db.rows x t pos := by
  intro e hl
  rcases hc with (rfl | rfl) | hc
  · exact hl.elim
  · exact hl.elim
  · rw [← e] at hc
    exact absurd (under_sib hok h.toPInv hx) hc

/-- the path of the new parent stays -/
theorem dest_stays (hok : cfg.Ok) (h : Inv cfg db.rows) {x t t1 : Row} (hx : x ∈ db.rows) (ht : t ∈ db.rows) {pos : Pos} (hpl : isPlainPos pos = true)
    (hc : isChildPos pos = false) (hout : ¬ Under (destPath cfg pos t) x.path) {res : MoveResult}
    (hg : MoveGood cfg db res x t (destPath cfg pos t) ((PF cfg db.rows).moveAsked x.pk (par cfg db.rows t) t.pk pos)) (ht1 : t1 ∈ res.db.rows) (hpk : t1.pk = t.pk) :
    pp cfg.steplen t1.path = pp cfg.steplen t.path := by
  have hdest : destPath cfg pos t = pp cfg.steplen t.path := by unfold destPath; rw [hc]; rfl
  rw [hdest] at hout hg
  have hne : t.pk ≠ x.pk := by
    intro e
    have : t = x := h.inv.pk_inj ht hx e
    rw [← this] at hout
    exact hout (under_sib hok h.toPInv ht)
  have hmem : t.pk ∈ PF cfg db.rows (par cfg db.rows t) := (mem_PF h.toPInv).2 ⟨t, ht, rfl, rfl⟩
  have hin : t1.pk ∈ PF cfg res.db.rows (par cfg db.rows t) := by
    rw [hg.forest, hpk]
    cases pos <;> first | exact Forest.subset_move hne hmem | (simp [isPlainPos, isChildPos] at hpl hc; done) |
      (simp only [Forest.moveAsked, Forest.sibMove, hne, if_false]; exact Forest.subset_move hne hmem)
  obtain ⟨r, hr, h1, h2⟩ := (mem_PF hg.inv.toPInv).1 hin
  have : r = t1 := hg.inv.inv.pk_inj hr ht1 h2
  subst this
  have hpar : IsPar res.db.rows (pp cfg.steplen t.path) := by
    rcases isPar_pp h.toPInv ht with e | ⟨q, hq, e⟩
    · exact Or.inl e
    · have := hg.dest
      rw [← e, at?_row h.toPInv hq] at this
      obtain ⟨q', hq', h3, _⟩ := (pkAt_eq_some hg.inv.inv).1 this
      exact Or.inr ⟨q', hq', by rw [← e]; exact h3⟩
  refine (par_eq_at hg.inv.toPInv hok hr hpar).1 ?_
  rw [h1, hg.dest]
  rfl

theorem Inv.count_nonneg (h : Inv cfg rows) {r : Row} (hr : r ∈ rows) : 0 ≤ r.numchild := by
  rw [h.num r hr]
  exact Int.natCast_nonneg _

theorem Near.refl {a : Row} (h : 0 ≤ a.numchild) : Near a a := ⟨.refl a, h, Iff.rfl⟩

theorem Near.gained {a b : Row} (h : Near a b) (hb : 0 ≤ b.numchild) {pos : Pos} : Near (gained pos a) (gained pos b) := by
  obtain ⟨h1, h2, h3⟩ := h
  unfold MP.gained
  split
  · refine ⟨⟨h1.pk, h1.path, h1.depth, h1.vals⟩, ?_, ?_⟩
    · show 0 ≤ a.numchild + 1
      omega
    · show a.numchild + 1 = 0 ↔ b.numchild + 1 = 0
      omega
  · exact ⟨h1, h2, h3⟩

/-- one move of the loop -/
theorem LoopInv.step (hok : cfg.Ok) (ho : cfg.ordered = false) {posArg : Option Pos} {pos : Pos} (hprep : preparePosForMove false posArg = .ok pos)
    {x t t0 : Row} {xs : List Row} (h : LoopInv cfg pos db (x :: xs) t t0) :
    ∃ x0 ∈ db.rows, x0.pk = x.pk ∧ ((∃ e, move cfg db x t posArg = .error e ∧ move cfg db x0 t0 posArg = .error e) ∨
      ∃ res res0 t1, move cfg db x t posArg = .ok res ∧ move cfg db x0 t0 posArg = .ok res0 ∧ res.db = res0.db ∧ t1.pk = t0.pk ∧ LoopInv cfg pos res.db xs res.target t1) := by
  obtain ⟨x0, hx0, hxa⟩ := h.stored x (List.mem_cons_self ..)
  refine ⟨x0, hx0, hxa.pk.symm, ?_⟩
  have hs := move_same (db := db) ho hxa h.near hprep
  have hpl := plain_of_prep hprep
  have hout : ToEnd pos ∨ ¬ Under (destPath cfg pos t0) x0.path := h.out.imp id (fun h' => by rw [← hxa.path]; exact h' x (List.mem_cons_self ..))
  have hgood := move_unsorted hok h.inv ho hx0 h.target hprep (moveRoom_loop hok h.inv hx0 hout)
  cases e0 : move cfg db x0 t0 posArg with
  | error e =>
    rw [e0] at hs
    cases e1 : move cfg db x t posArg with
    | error e' => rw [e1] at hs; exact Or.inl ⟨e', rfl, by rw [show e' = e from hs]⟩
    | ok r => rw [e1] at hs; exact hs.elim
  | ok res0 =>
    rw [e0] at hs hgood
    cases e1 : move cfg db x t posArg with
    | error e' => rw [e1] at hs; exact hs.elim
    | ok res =>
      rw [e1] at hs
      obtain ⟨hdb, htt⟩ := hs
      obtain ⟨hnr, ⟨res', e, hg⟩ | ⟨e, _⟩⟩ := hgood.resolve_left (fun h' => by cases h'.2)
      rotate_left
      · cases e
      cases e
      have hkept := move_kept hok h.inv ho hx0 h.target hprep hout e0
      have hstored : ∀ y ∈ xs, ∃ r ∈ res.db.rows, Alike y r := by
        intro y hy
        obtain ⟨r, hr, ha⟩ := h.stored y (List.mem_cons_of_mem _ hy)
        have hap := (List.pairwise_cons.1 h.apart).1 y hy
        obtain ⟨r', hr', ha'⟩ := hkept r hr (by rw [← hxa.path, ← ha.path]; exact hap)
          (h.out.imp id (fun h' => by rw [← ha.path]; exact h' y (List.mem_cons_of_mem _ hy)))
        exact ⟨r', hdb ▸ hr', ha.trans ha'⟩
      have hap := (List.pairwise_cons.1 h.apart).2
      have htk : isChildPos pos = true → ∃ r' ∈ res0.db.rows, Alike t0 r' := by
        intro hc
        refine hkept t0 h.target (fun hp => hnr ?_) (Or.inr ?_)
        · by_cases e : t0 = x0
          · exact Or.inr ⟨hc, by rw [e]⟩
          · exact Or.inl ((isDescendantOf_iff h.inv.toPInv h.target hx0).2 ⟨hp, e⟩)
        · unfold destPath
          rw [if_pos hc]
          exact fun hu => Nat.lt_irrefl _ hu.2
      suffices ∃ t1 : Row, res = res ∧ res0 = res0 ∧ res.db = res0.db ∧ t1.pk = t0.pk ∧ LoopInv cfg pos res.db xs res.target t1 by
        obtain ⟨t1, h1, _, h2, h3, h4⟩ := this
        exact Or.inr ⟨res, res0, t1, rfl, rfl, h2, h3, h4⟩
      rcases (move_objects hx0 h.target (cfg := cfg) (by rw [ho]; exact hprep) e0).2 with ⟨h1, h2⟩ | ⟨h1, h2⟩
      · refine ⟨res0.target, rfl, rfl, hdb, h2, hdb ▸ hg.inv, hstored, hap, hdb ▸ h1, ?_, ?_⟩
        · rcases htt with e | ⟨e, e'⟩
          · rw [e]; exact .refl (hg.inv.count_nonneg h1)
          · rw [e, e']; exact h.near.gained (h.inv.count_nonneg h.target)
        · by_cases hE : ToEnd pos
          · exact Or.inl hE
          refine h.out.imp id (fun h' => ?_)
          have : destPath cfg pos res0.target = destPath cfg pos t0 := by
            by_cases hc : isChildPos pos = true
            · obtain ⟨r', hr', ha⟩ := htk hc
              have : r' = res0.target := hg.inv.inv.pk_inj hr' h1 (by rw [h2, ha.pk])
              unfold destPath
              rw [hc, if_pos rfl, if_pos rfl, ← this, ha.path]
            · have hc : isChildPos pos = false := by simpa using hc
              have := dest_stays hok h.inv hx0 h.target hpl hc (hout.resolve_left hE) hg h1 h2
              unfold destPath
              rw [hc, if_neg (by simp), if_neg (by simp), this]
          rw [this]
          exact fun y hy => h' y (List.mem_cons_of_mem _ hy)
      · have hc : isChildPos pos = true := by rw [isChildPos_eq]; exact h1
        obtain ⟨r', hr', ha⟩ := htk hc
        refine ⟨r', rfl, rfl, hdb, ha.pk.symm, hdb ▸ hg.inv, hstored, hap, hdb ▸ hr', ?_, ?_⟩
        · have e : Alike res.target t0 ∧ 0 < res.target.numchild := by
            have := h.inv.count_nonneg h.target
            have := h.near.le
            have := h.near.alike
            rcases htt with e | ⟨e, _⟩
            · rw [e, h2]
              exact ⟨⟨rfl, rfl, rfl, rfl⟩, by show 0 < t0.numchild + 1; omega⟩
            · rw [e]
              unfold gained
              rw [if_pos hc]
              exact ⟨⟨this.pk, this.path, this.depth, this.vals⟩, by show 0 < t.numchild + 1; omega⟩
          have hin : x0.pk ∈ PF cfg res0.db.rows (some r'.pk) := by
            rw [hg.forest, ← ha.pk]
            cases pos <;> simp [isPlainPos, isChildPos] at hpl hc <;> simp [Forest.moveAsked, Forest.move, Forest.put, Slot.ins]
          have hpos : 0 < r'.numchild := by
            rw [hg.inv.num r' hr']
            have := List.length_pos_of_mem hin
            exact_mod_cast this
          exact ⟨e.1.trans ha, by omega, by omega⟩
        · refine h.out.imp id (fun h' => ?_)
          unfold destPath at h' ⊢
          rw [if_pos hc] at h' ⊢
          rw [← ha.path]
          exact fun y hy => h' y (List.mem_cons_of_mem _ hy)

/-- **The loop with the objects fetched before does the same as that with objects fetched anew.** -/
theorem moveLoop_fresh (hok : cfg.Ok) (ho : cfg.ordered = false) {posArg : Option Pos} {pos : Pos} (hprep : preparePosForMove false posArg = .ok pos) :
    ∀ {xs : List Row} {t t0 : Row} {db : DB}, LoopInv cfg pos db xs t t0 → moveLoop cfg posArg xs t db = moveFresh cfg posArg t0.pk (xs.map Row.pk) db := by
  intro xs
  induction xs with
  | nil => intros; rfl
  | cons x xs ih =>
    intro t t0 db h
    obtain ⟨x0, hx0, hpk, hstep⟩ := h.step hok ho hprep
    have e1 : db.get? x.pk = some x0 := (get?_eq_some h.inv.inv).2 ⟨hx0, hpk⟩
    have e2 : db.get? t0.pk = some t0 := (get?_eq_some h.inv.inv).2 ⟨h.target, rfl⟩
    rw [List.map_cons]
    unfold moveLoop moveFresh
    rw [e1, e2]
    rcases hstep with ⟨e, h1, h2⟩ | ⟨res, res0, t1, h1, h2, h3, h4, h5⟩
    · simp only [h1, h2]
    · simp only [h1, h2]
      rw [← h3, ← h4]
      exact ih h5

end Verif.MP
