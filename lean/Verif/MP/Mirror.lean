/-
MP: the rows an operation changes and the signals it sends.
-/
import Verif.SpecMirror
import Verif.Props.MPHistory

namespace Verif.MP

variable {cfg : Cfg} {db db' : DB} {w : Bool}

/-- the depth of every row is the number of steps of its path (asked only if `w`) -/
def DepthsOk (cfg : Cfg) (w : Bool) (db : DB) : Prop := w = true → ∀ r ∈ db.rows, r.depth = r.path.length / cfg.steplen

/-- the entries that show a table -/
def entries (db : DB) : List Entry := db.rows.map Row.entry

/-- The signals sent from `db` to `db'` say what happened to the paths and depths. -/
def Feeds (cfg : Cfg) (w : Bool) (db db' : DB) : Prop :=
  ∃ s, db'.sigs = db.sigs ++ s ∧ entries db' = s.foldl (listenSig cfg.steplen w) (entries db)

theorem Feeds.refl : Feeds cfg w db db := ⟨[], by simp, rfl⟩

theorem Feeds.trans {db'' : DB} (h : Feeds cfg w db db') (h' : Feeds cfg w db' db'') : Feeds cfg w db db'' := by
  obtain ⟨s, e1, e2⟩ := h
  obtain ⟨t, e3, e4⟩ := h'
  exact ⟨s ++ t, by rw [e3, e1, List.append_assoc], by rw [e4, e2, List.foldl_append]⟩

theorem DepthsOk.of_consistent (hok : cfg.Ok) (h : Consistent cfg db) : DepthsOk cfg w db := by
  intro _ r hr
  have hi := ((consistent_iff hok).1 h).toPInv
  rw [hi.depth r hr]
  have hs := hok.step
  exact (Nat.mul_div_cancel _ (by omega)).symm

/-- updates of `numchild` alone are not seen -/
theorem Feeds.of_rows (he : entries db' = entries db) (hs : db'.sigs = db.sigs) : Feeds cfg w db db' :=
  ⟨[], by simp [hs], he⟩

theorem addNumchild_entries (path : List Nat) (k : Int) : entries (addNumchild db path k) = entries db := by
  simp only [entries, addNumchild, List.map_map]
  exact List.map_congr_left (fun r _ => by simp only [Function.comp]; split <;> rfl)

theorem incNumchildPk_entries (pk : Nat) : entries (incNumchildPk db pk) = entries db := by
  simp only [entries, incNumchildPk, List.map_map]
  exact List.map_congr_left (fun r _ => by simp only [Function.comp]; split <;> rfl)

theorem setNewpath_feeds (h : DepthsOk cfg w db) {old new : List Nat} (e : setNewpath cfg db old new = .ok db') :
    DepthsOk cfg w db' ∧ Feeds cfg w db db' := by
  simp only [setNewpath] at e
  split at e
  · cases e
    have key : ∀ r ∈ db.rows, (newpathRow cfg old new r).entry =
        (if old.isPrefixOf r.path then ⟨r.pk, new ++ r.path.drop old.length,
          if w = true ∨ old.length ≠ new.length then (new ++ r.path.drop old.length).length / cfg.steplen else r.depth⟩ else r.entry) := by
      intro r hr
      simp only [newpathRow, Row.entry]
      by_cases hp : old.isPrefixOf r.path = true
      · simp only [hp, if_true, Entry.mk.injEq, true_and]
        by_cases hl : old.length = new.length
        · rw [if_neg (by simpa using hl)]
          split
          · rename_i hw
            rcases hw with hw | hw
            · rw [h hw r hr]
              have := (List.isPrefixOf_iff_prefix.1 hp).length_le
              simp only [List.length_append, List.length_drop, ← hl]
              congr 1
              omega
            · exact absurd hl hw
          · rfl
        · rw [if_pos hl, if_pos (Or.inr hl)]
      · simp [hp]
    constructor
    · intro hw r hr
      obtain ⟨q, hq, rfl⟩ := List.mem_map.1 hr
      have k := key q hq
      rw [show (newpathRow cfg old new q).depth = (newpathRow cfg old new q).entry.depth from rfl,
          show (newpathRow cfg old new q).path = (newpathRow cfg old new q).entry.path from rfl, k]
      split
      · rw [if_pos (Or.inl hw)]
      · exact h hw q hq
    · by_cases hany : db.rows.any (fun r => old.isPrefixOf r.path) = true
      · refine ⟨[.pathUpdated old new], by simp [hany], ?_⟩
        simp only [entries, List.foldl_cons, List.foldl_nil, listenSig, List.map_map]
        exact List.map_congr_left key
      · refine ⟨[], by simp [hany], ?_⟩
        simp only [entries, List.foldl_nil, List.map_map]
        refine List.map_congr_left (fun r hr => ?_)
        simp only [List.any_eq_true, not_exists, not_and] at hany
        have := key r hr
        rw [if_neg (hany r hr)] at this
        exact this
  · cases e

theorem shiftLoop_feeds : ∀ (l : List Row) {db db' : DB} {o o' : Option (List Nat)}, DepthsOk cfg w db →
    shiftLoop cfg l db o = .ok (db', o') → DepthsOk cfg w db' ∧ Feeds cfg w db db'
  | [], _, _, _, _, h, e => by
    simp only [shiftLoop, Except.ok.injEq, Prod.mk.injEq] at e
    rw [← e.1]; exact ⟨h, .refl⟩
  | n :: ns, _, _, _, _, h, e => by
    simp only [shiftLoop] at e
    split at e
    · cases e
    · split at e
      · cases e
      · rename_i e1
        obtain ⟨h1, f1⟩ := setNewpath_feeds h e1
        obtain ⟨h2, f2⟩ := shiftLoop_feeds ns h1 e
        exact ⟨h2, f1.trans f2⟩

theorem moveToTemp_feeds (h : DepthsOk cfg w db) {target : Row} {sibs : List Row} {nd : Nat} {old new : List Nat} {t : Option (List Nat)}
    (e : moveToTemp cfg db target sibs nd old new = .ok (db', t)) : DepthsOk cfg w db' ∧ Feeds cfg w db db' := by
  simp only [moveToTemp] at e
  split at e
  · split at e
    · cases e
    · split at e
      · cases e
      · split at e
        · cases e
        · split at e
          · cases e
          · rename_i e1
            simp only [Except.ok.injEq, Prod.mk.injEq] at e
            rw [← e.1]
            exact setNewpath_feeds h e1
  · simp only [Except.ok.injEq, Prod.mk.injEq] at e
    rw [← e.1]; exact ⟨h, .refl⟩

theorem reorder_feeds (h : DepthsOk cfg w db) {pos : Pos} {np : Option Int} {nd : Nat} {target : Row} {sibs : List Row}
    {old o' : Option (List Nat)} {new : List Nat} (e : reorder cfg db pos np nd target sibs old = .ok (db', o', new)) :
    DepthsOk cfg w db' ∧ Feeds cfg w db db' := by
  simp only [reorder] at e
  split at e
  · split at e
    · cases e
    · split at e
      · cases e
      · split at e
        · simp only [Except.ok.injEq, Prod.mk.injEq] at e
          rw [← e.1]; exact ⟨h, .refl⟩
        · split at e
          · cases e
          · rename_i e1
            simp only [Except.ok.injEq, Prod.mk.injEq] at e
            rw [← e.1]
            exact setNewpath_feeds h e1
  · split at e
    · cases e
    · split at e
      · cases e
      · split at e
        · cases e
        · rename_i db1 temp e1
          have h1 : DepthsOk cfg w db1 ∧ Feeds cfg w db db1 := by
            cases old with
            | none =>
              simp only [Except.ok.injEq, Prod.mk.injEq] at e1
              rw [← e1.1]; exact ⟨h, .refl⟩
            | some o => exact moveToTemp_feeds h e1
          split at e
          · cases e
          · split at e
            · cases e
            · rename_i e2
              obtain ⟨h2, f2⟩ := shiftLoop_feeds _ h1.1 e2
              split at e
              · simp only [Except.ok.injEq, Prod.mk.injEq] at e
                rw [← e.1]; exact ⟨h2, h1.2.trans f2⟩
              · split at e
                · cases e
                · rename_i e3
                  obtain ⟨h3, f3⟩ := setNewpath_feeds h2 e3
                  simp only [Except.ok.injEq, Prod.mk.injEq] at e
                  rw [← e.1]; exact ⟨h3, (h1.2.trans f2).trans f3⟩

/-- The signals, then the saved row. -/
def FeedsSaved (cfg : Cfg) (w : Bool) (db db' : DB) (obj : Row) : Prop :=
  ∃ s, db'.sigs = db.sigs ++ s ∧
    entries db' = upsert Entry.pk obj.entry (s.foldl (listenSig cfg.steplen w) (entries db))

theorem save_entries {row : Row} (e : save db row = .ok db') : entries db' = upsert Entry.pk row.entry (entries db) ∧ db'.sigs = db.sigs := by
  simp only [save] at e
  split at e
  · rename_i hany
    split at e
    · cases e
      refine ⟨?_, rfl⟩
      have : (entries db).any (fun b => b.pk == row.entry.pk) = true := by simpa [entries, Row.entry] using hany
      rw [upsert, if_pos this, entries, entries, List.map_map, List.map_map]
      exact List.map_congr_left (fun r _ => by by_cases hc : r.pk = row.pk <;> simp [hc, Row.entry])
    · cases e
  · rename_i hany
    split at e
    · cases e
      refine ⟨?_, rfl⟩
      have : ¬ (entries db).any (fun b => b.pk == row.entry.pk) = true := by simpa [entries, Row.entry] using hany
      rw [upsert, if_neg this, entries, entries, List.map_append]; rfl
    · cases e

theorem Feeds.save (h : Feeds cfg w db db') {db1 db2 : DB} (he : entries db1 = entries db') (hs : db1.sigs = db'.sigs) {row : Row}
    (e : MP.save db1 row = .ok db2) : FeedsSaved cfg w db db2 row := by
  obtain ⟨s, e1, e2⟩ := h
  obtain ⟨e3, e4⟩ := save_entries e
  exact ⟨s, by rw [e4, hs, e1], by rw [e3, he, e2]⟩

theorem addSibling_feeds (h : DepthsOk cfg w db) {target : Row} {pos : Option Pos} {new obj : Row}
    (e : addSibling cfg db target pos new = .ok (db', obj)) : FeedsSaved cfg w db db' obj := by
  simp only [addSibling] at e
  split at e
  · cases e
  · split at e
    · cases e
    · split at e
      · cases e
      · rename_i e1
        obtain ⟨h1, f1⟩ := reorder_feeds h e1
        simp only [finishAddSibling] at e
        split at e
        · cases e
        · rename_i e2
          simp only [Except.ok.injEq, Prod.mk.injEq] at e
          rw [← e.1, ← e.2]
          refine f1.save ?_ ?_ e2
          · split
            · exact addNumchild_entries _ _
            · rfl
          · split <;> rfl

theorem addRoot_feeds (h : DepthsOk cfg w db) {new obj : Row}
    (e : addRoot cfg db new = .ok (db', obj)) : FeedsSaved cfg w db db' obj := by
  simp only [addRoot] at e
  split at e
  · split at e
    · exact addSibling_feeds h e
    · split at e
      · cases e
      · split at e
        · cases e
        · rename_i e2
          simp only [Except.ok.injEq, Prod.mk.injEq] at e
          rw [← e.1, ← e.2]
          exact Feeds.refl.save rfl rfl e2
  · split at e
    · cases e
    · split at e
      · cases e
      · rename_i e2
        simp only [Except.ok.injEq, Prod.mk.injEq] at e
        rw [← e.1, ← e.2]
        exact Feeds.refl.save rfl rfl e2

theorem addChild_feeds (h : DepthsOk cfg w db) {target new obj t' : Row}
    (e : addChild cfg db target new = .ok (db', obj, t')) : FeedsSaved cfg w db db' obj := by
  simp only [addChild] at e
  split at e
  · cases e
  · split at e
    · split at e
      · cases e
      · split at e
        · cases e
        · rename_i e2
          simp only [Except.ok.injEq, Prod.mk.injEq] at e
          rw [← e.1, ← e.2.1]
          exact addSibling_feeds h e2
    · split at e
      · cases e
      · split at e
        · cases e
        · rename_i e2
          simp only [Except.ok.injEq, Prod.mk.injEq] at e
          rw [← e.1, ← e.2.1]
          exact Feeds.refl.save (incNumchildPk_entries _) rfl e2

theorem updateParentCounts_entries (old new : List Nat) : entries (updateParentCounts cfg db old new) = entries db ∧
    (updateParentCounts cfg db old new).sigs = db.sigs := by
  simp only [updateParentCounts]
  split
  · constructor
    · split <;> split <;> simp [addNumchild_entries]
    · split <;> split <;> rfl
  · exact ⟨rfl, rfl⟩

theorem moveTo_feeds (h : DepthsOk cfg w db) {node target t' : Row} {v : MoveVars} {res : MoveResult}
    (e : moveTo cfg db node target t' v = .ok res) : Feeds cfg w db res.db := by
  simp only [moveTo] at e
  split at e
  · cases e; exact .refl
  · split at e
    · cases e
    · rename_i e1
      obtain ⟨_, f1⟩ := reorder_feeds h e1
      simp only [finishMove] at e
      split at e
      · cases e
        exact f1.trans (.of_rows (updateParentCounts_entries _ _).1 (updateParentCounts_entries _ _).2)
      · cases e

theorem move_feeds (h : DepthsOk cfg w db) {node target : Row} {pos : Option Pos} {res : MoveResult}
    (e : move cfg db node target pos = .ok res) : Feeds cfg w db res.db := by
  simp only [move] at e
  split at e
  · cases e
  · split at e
    · cases e
    · split at e
      · cases e
      · split at e
        · cases e
        · cases e; exact .refl
        · exact moveTo_feeds h e

theorem execDel_feeds (st : DelStmt) : Feeds cfg w db (execDel db st) := by
  cases st with
  | lose path n =>
    refine .of_rows ?_ rfl
    simp only [entries, execDel, List.map_map]
    exact List.map_congr_left (fun r _ => by simp only [Function.comp]; split <;> rfl)
  | delete pks paths =>
    by_cases hany : db.rows.any (delMatches pks paths) = true
    · refine ⟨[.nodesDeleted pks paths], by simp [execDel, hany], ?_⟩
      simp only [entries, execDel, List.foldl_cons, List.foldl_nil, listenSig, List.filter_map, delMatches, Function.comp_def, Row.entry]
    · refine ⟨[], by simp [execDel, hany], ?_⟩
      simp only [List.any_eq_true, not_exists, not_and, Bool.not_eq_true] at hany
      simp only [entries, execDel, List.foldl_nil]
      rw [List.filter_eq_self.2 (fun r hr => by simp [hany r hr])]

theorem delete_feeds (sel : Row → Bool) : Feeds cfg w db (delete cfg db sel) := by
  unfold delete
  generalize deleteStmts cfg db sel = l
  induction l generalizing db with
  | nil => exact .refl
  | cons st l ih => exact (execDel_feeds st).trans ih

end Verif.MP
