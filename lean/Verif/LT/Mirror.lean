/-
LT: the changes made in bulk are those the signals announce.
-/
import Verif.SpecMirror
import Verif.LT.Move
import Verif.LT.Delete

namespace Verif.LT

variable {cfg : Cfg} {db db' db'' : DB} {pre : Path} {a l : Label}

/-- what a store would hold of the table -/
def entries (db : DB) : List Entry := db.rows.map Row.entry

/-- the changes of the table are those its new signals announce -/
def Feeds (db db' : DB) : Prop := ∃ s, db'.sigs = db.sigs ++ s ∧ entries db' = s.foldl listenSig (entries db)

theorem Feeds.refl : Feeds db db := ⟨[], by simp, rfl⟩

theorem Feeds.trans (h : Feeds db db') (h' : Feeds db' db'') : Feeds db db'' := by
  obtain ⟨s, e1, e2⟩ := h
  obtain ⟨t, e3, e4⟩ := h'
  exact ⟨s ++ t, by rw [e3, e1, List.append_assoc], by rw [e4, e2, List.foldl_append]⟩

/-- the same, with a row saved at the end -/
def FeedsSaved (db db' : DB) (obj : Row) : Prop :=
  ∃ s, db'.sigs = db.sigs ++ s ∧ entries db' = upsert Entry.pk obj.entry (s.foldl listenSig (entries db))

theorem save_entries (row : Row) : entries (save db row) = upsert Entry.pk row.entry (entries db) := by
  by_cases hany : db.rows.any (·.pk == row.pk) = true
  · have : (entries db).any (fun b => b.pk == row.entry.pk) = true := by simpa [entries, Row.entry] using hany
    rw [upsert, if_pos this, entries, entries, save, if_pos hany]
    simp only [List.map_map]
    exact List.map_congr_left (fun r _ => by by_cases hc : r.pk = row.pk <;> simp [hc, Row.entry])
  · have : ¬ (entries db).any (fun b => b.pk == row.entry.pk) = true := by simpa [entries, Row.entry] using hany
    rw [upsert, if_neg this, entries, entries, save, if_neg hany]
    simp only [List.map_append]; rfl

theorem Feeds.save (h : Feeds db db') (row : Row) : FeedsSaved db (LT.save db' row) row := by
  obtain ⟨s, e1, e2⟩ := h
  exact ⟨s, e1, by rw [save_entries, e2]⟩

/-! ### `_move_subtree_right` -/

theorem atOrAfter_iff : ∀ (pre : Path) (a : Label) (p : Path),
    atOrAfter (pre ++ [a]) p = true ↔ ∃ l u, p = pre ++ l :: u ∧ ¬ l < a := by
  intro pre
  induction pre with
  | nil =>
    intro a p
    cases p with
    | nil => simp [atOrAfter]
    | cons m p => simp [atOrAfter]
  | cons x pre ih =>
    intro a p
    cases p with
    | nil =>
      simp only [List.cons_append]
      cases h : pre ++ [a] <;> simp [atOrAfter]
    | cons m p =>
      have hne : pre ++ [a] ≠ [] := by simp
      have : atOrAfter (x :: (pre ++ [a])) (m :: p) = (x == m && atOrAfter (pre ++ [a]) p) := by
        cases h : pre ++ [a] with
        | nil => exact absurd h hne
        | cons y ys => rw [atOrAfter]; simp
      rw [List.cons_append, this, Bool.and_eq_true, ih, beq_iff_eq]
      constructor
      · rintro ⟨rfl, l, u, rfl, h⟩
        exact ⟨l, u, rfl, h⟩
      · rintro ⟨l, u, e, h⟩
        rw [List.cons_append, List.cons.injEq] at e
        exact ⟨e.1.symm, l, u, e.2, h⟩

theorem growLabel_eq : ∀ (pre : Path) (l : Label) (u : Path), growLabel pre.length (pre ++ l :: u) = pre ++ (l ++ [65]) :: u := by
  intro pre
  induction pre with
  | nil => intro l u; rfl
  | cons x pre ih =>
    intro l u
    rw [List.cons_append, List.length_cons, growLabel, ih]
    rfl

/-- the documented rule is what the two UPDATEs do -/
theorem shRow_entry (pre : Path) (a : Label) (r : Row) :
    (shRow pre a r).entry = if atOrAfter (pre ++ [a]) r.entry.path then
      ⟨r.entry.pk, growLabel ((pre ++ [a]).length - 1) r.entry.path⟩ else r.entry := by
  change (⟨r.pk, sh pre a r.path⟩ : Entry) = if atOrAfter (pre ++ [a]) r.path then
      ⟨r.pk, growLabel ((pre ++ [a]).length - 1) r.path⟩ else ⟨r.pk, r.path⟩
  have hlen : (pre ++ [a]).length - 1 = pre.length := by simp
  rcases sh_cases pre a r.path with ⟨l, u, e, hl, hs⟩ | ⟨hk, hs⟩
  · rw [if_pos ((atOrAfter_iff ..).2 ⟨l, u, e, hl⟩), hs, hlen, e, growLabel_eq]
  · rw [if_neg, hs]
    rw [atOrAfter_iff]
    rintro ⟨l, u, e, hl⟩
    exact hl (hk l u e)

theorem moveRight_feeds {b : Row} (hb : b.path = pre ++ [a]) : Feeds db (moveRight db b) := by
  refine ⟨[.movedRight b.path], rfl, ?_⟩
  simp only [entries, moveRight_rows hb, List.foldl_cons, List.foldl_nil, listenSig, List.map_map, hb]
  exact List.map_congr_left (fun r _ => shRow_entry pre a r)

/-! ### `_get_new_path` -/

/-- paths were renamed by a one-to-one map that keeps what is above the place `pre` -/
structure Renamed (db db' : DB) (pre : Path) (g : Path → Path) : Prop where
  rows : db'.rows = db.rows.map (fun r => { r with path := g r.path })
  inj : ∀ p q, g p = g q → p = q
  above : ∀ p, g p <+: pre → p <+: pre

theorem Renamed.refl : Renamed db db pre id := ⟨by simp, fun _ _ h => h, fun _ h => h⟩

theorem Renamed.trans {g f : Path → Path} (h : Renamed db db' pre g) (h' : Renamed db' db'' pre f) : Renamed db db'' pre (f ∘ g) :=
  ⟨by rw [h'.rows, h.rows, List.map_map]; rfl, fun p q e => h.inj _ _ (h'.inj _ _ e), fun p hp => h.above _ (h'.above _ hp)⟩

theorem sh_above {p : Path} (h : sh pre a p <+: pre) : p <+: pre := by
  rcases sh_cases pre a p with ⟨l, u, e, hl, hs⟩ | ⟨_, hs⟩
  · rw [hs] at h
    have := h.length_le
    simp at this
    omega
  · rwa [hs] at h

theorem moveRight_renamed {b : Row} (hb : b.path = pre ++ [a]) : Renamed db (moveRight db b) pre (sh pre a) :=
  ⟨moveRight_rows hb, sh_inj pre a, fun _ => sh_above⟩

/-- Whatever `_get_new_path` does, it announces; the new path is below `pre`. -/
theorem getNewPath_feeds : ∀ (left : Nat) {db : DB} {before after : Option Row} {moved : Bool} {res : DB × Path × Bool},
    (∀ b, before = some b → ∃ a, b.path = pre ++ [a]) → (∀ b, before = some b → db.get? b.pk = some b) → (db.rows.map Row.pk).Nodup →
    getNewPath db pre before after moved left = .ok res →
    Feeds db res.1 ∧ (∃ g, Renamed db res.1 pre g) ∧ (∃ l, res.2.1 = pre ++ [l]) ∧ (res.2.2 = false → res.1 = db) := by
  intro left
  induction left with
  | zero =>
    intro db before after moved res hb _ _ e
    unfold getNewPath at e
    split at e
    · cases e
    · split at e
      · rename_i p hp
        cases e
        obtain ⟨l, _, e'⟩ := generatePath_ok hp
        exact ⟨.refl, ⟨_, .refl⟩, ⟨l, e'⟩, fun _ => rfl⟩
      · split at e
        · cases e
        · split at e
          · cases e
          · cases e
      · cases e
  | succ left ih =>
    intro db before after moved res hb hg hnd e
    unfold getNewPath at e
    split at e
    · cases e
    · split at e
      · rename_i p hp
        cases e
        obtain ⟨l, _, e'⟩ := generatePath_ok hp
        exact ⟨.refl, ⟨_, .refl⟩, ⟨l, e'⟩, fun _ => rfl⟩
      · split at e
        · cases e
        · rename_i b _ _
          obtain ⟨a, ha⟩ := hb b rfl
          have hm : b ∈ db.rows := List.mem_of_find?_eq_some (hg b rfl)
          have hren : Renamed db (moveRight db b) pre (sh pre a) := moveRight_renamed ha
          have hpks : (moveRight db b).rows.map Row.pk = db.rows.map Row.pk := by
            rw [hren.rows, List.map_map]; rfl
          split at e
          · cases e
          · rename_i b' hb'
            have hmem : b' ∈ (moveRight db b).rows := List.mem_of_find?_eq_some hb'
            have hk : b'.pk = b.pk := by simpa using List.find?_some hb'
            have hpath : ∃ a', b'.path = pre ++ [a'] := by
              rw [hren.rows, List.mem_map] at hmem
              obtain ⟨q, hq, rfl⟩ := hmem
              have hqb : q = b := List.inj_on_of_nodup_map hnd hq hm hk
              subst hqb
              exact ⟨a ++ [65], by simp only; rw [ha, sh_moved (plt_irrefl a)]⟩
            simp only at e
            obtain ⟨h1, ⟨g, h2⟩, h3, h4⟩ := ih (by rintro _ ⟨⟩; exact hpath) (by rintro _ ⟨⟩; rw [hk]; exact hb')
              (by rw [hpks]; exact hnd) e
            refine ⟨(moveRight_feeds ha).trans h1, ⟨_, hren.trans h2⟩, h3, ?_⟩
            intro hf
            exfalso
            -- nodes were moved
            have key : ∀ (left : Nat) {db : DB} {bf af : Option Row} {res : DB × Path × Bool},
                getNewPath db pre bf af true left = .ok res → res.2.2 = true := by
              intro left
              induction left with
              | zero =>
                intro db bf af res e
                unfold getNewPath at e
                split at e
                · cases e
                · split at e
                  · cases e; rfl
                  · split at e
                    · cases e
                    · split at e <;> cases e
                  · cases e
              | succ left ih =>
                intro db bf af res e
                unfold getNewPath at e
                split at e
                · cases e
                · split at e
                  · cases e; rfl
                  · split at e
                    · cases e
                    · split at e
                      · cases e
                      · exact ih e
                  · cases e
            rw [key left e] at hf
            cases hf
      · cases e

/-! ### Neighbours -/

theorem below_path {r : Row} {n : Nat} (h : r ∈ below db pre n) (hn : n = pre.length + 1) : r ∈ db.rows ∧ ∃ a, r.path = pre ++ [a] := by
  unfold below at h
  rw [mem_orderByPath, List.mem_filter, Bool.and_eq_true, List.isPrefixOf_iff_prefix, beq_iff_eq] at h
  obtain ⟨hr, ⟨u, hu⟩, hl⟩ := h
  refine ⟨hr, ?_⟩
  rw [← hu, List.length_append, hn] at hl
  obtain ⟨a, rfl⟩ := List.length_eq_one_iff.1 (show u.length = 1 by omega)
  exact ⟨a, hu.symm⟩

theorem sib_path {t r : Row} (ht : t.path ≠ []) (h : r ∈ siblings db t) : r ∈ db.rows ∧ ∃ a, r.path = t.path.dropLast ++ [a] := by
  refine below_path h ?_
  rw [List.length_dropLast]
  have := List.length_pos_iff.2 ht
  omega

theorem child_path {t r : Row} (h : r ∈ children db t) : r ∈ db.rows ∧ ∃ a, r.path = t.path ++ [a] := below_path h rfl

theorem nextSibling_mem {t r : Row} (h : nextSibling db t = some r) : r ∈ siblings db t :=
  (List.mem_filter.1 (List.mem_of_mem_head? h)).1

theorem own_path {t : Row} (ht : t.path ≠ []) : ∃ a, t.path = t.path.dropLast ++ [a] :=
  ⟨t.path.getLast ht, (List.dropLast_append_getLast ht).symm⟩

theorem sibNeighbours_path {t new b : Row} {pos : Pos} (htm : t ∈ db.rows) (ht : t.path ≠ [])
    (h : (sibNeighbours cfg db t pos new).1 = some b) : b ∈ db.rows ∧ ∃ a, b.path = t.path.dropLast ++ [a] := by
  unfold sibNeighbours at h
  split at h
  · split at h
    · cases h
    · rename_i b' hb
      cases h
      exact sib_path ht (firstGreater_mem hb)
  · exact sib_path ht (List.mem_of_mem_head? h)
  · cases h; exact ⟨htm, own_path ht⟩
  · exact sib_path ht (nextSibling_mem h)
  · cases h
  · cases h

theorem moveNeighbours_path {x t b : Row} {pos : Pos} (htm : t ∈ db.rows) (ht : t.path ≠ [])
    (h : (moveNeighbours cfg db x t pos).1.1 = some b) :
    b ∈ db.rows ∧ ∃ a, b.path = (moveNeighbours cfg db x t pos).2 ++ [a] := by
  unfold moveNeighbours at h ⊢
  cases pos with
  | sortedSibling =>
    simp only at h ⊢
    cases hb : (sortedPosQueryset cfg.orderBy Row.vals (siblings db t) x.vals).head? with
    | none => rw [hb] at h; cases h
    | some b' =>
      rw [hb] at h
      cases h
      exact sib_path ht (firstGreater_mem hb)
  | sortedChild =>
    simp only at h ⊢
    cases hb : (sortedPosQueryset cfg.orderBy Row.vals (children db t) x.vals).head? with
    | none => rw [hb] at h; cases h
    | some b' =>
      rw [hb] at h
      cases h
      exact child_path (firstGreater_mem hb)
  | firstSibling => exact sib_path ht (List.mem_of_mem_head? h)
  | lastSibling => cases h
  | left => cases h; exact ⟨htm, own_path ht⟩
  | right => exact sib_path ht (nextSibling_mem h)
  | firstChild => exact child_path (List.mem_of_mem_head? h)
  | lastChild => cases h
  | other n => cases h

theorem moveNeighbours_parent (x t : Row) (pos : Pos) :
    (moveNeighbours cfg db x t pos).2 = if isChildPos pos then t.path else t.path.dropLast := by
  unfold moveNeighbours
  cases pos with
  | sortedSibling =>
    simp only
    cases hb : (sortedPosQueryset cfg.orderBy Row.vals (siblings db t) x.vals).head? <;> rfl
  | sortedChild =>
    simp only
    cases hb : (sortedPosQueryset cfg.orderBy Row.vals (children db t) x.vals).head? <;> rfl
  | _ => rfl

/-! ### Adding -/

theorem commit_eq {α : Type} {r : Except Err (DB × α)} {out : DB × α} (e : commit r = .ok out) : r = .ok out := by
  unfold commit at e
  split at e
  · cases e
  · split at e
    · exact e
    · cases e

theorem ne_nil (h : PI db.rows) {r : Row} (hr : r ∈ db.rows) : r.path ≠ [] := by
  intro e
  have := len_pos h hr
  rw [e] at this
  simp at this

theorem addSiblingIn_feeds (h : PI db.rows) {t new obj : Row} (ht : t ∈ db.rows) {pos : Option Pos}
    (e : addSiblingIn cfg db t pos new = .ok (db', obj)) : FeedsSaved db db' obj := by
  simp only [addSiblingIn] at e
  split at e
  · cases e
  · split at e
    · cases e
    · rename_i pos' _ _ _ _ _ hres
      cases e
      have hb := fun b hb => sibNeighbours_path (cfg := cfg) (new := new) (b := b) (pos := pos') ht (ne_nil h ht) hb
      exact (getNewPath_feeds 2 (fun b e => (hb b e).2) (fun b e => (get?_eq_some h).2 ⟨(hb b e).1, rfl⟩) h.pkNodup hres).1.save _

theorem addRoot_feeds (h : PI db.rows) {new obj : Row} (e : addRoot cfg db new = .ok (db', obj)) : FeedsSaved db db' obj := by
  have e := commit_eq e
  split at e
  · rename_i lastRoot hl
    split at e
    · exact addSiblingIn_feeds h (below_path (pre := []) (n := 1) (by
        have := List.mem_of_getLast? hl
        unfold below; unfold rootNodes at this; simpa using this) rfl).1 e
    · split at e
      · cases e
      · cases e; exact Feeds.refl.save _
  · split at e
    · cases e
    · cases e; exact Feeds.refl.save _

theorem addChild_feeds (h : PI db.rows) {t new obj : Row} (e : addChild cfg db t new = .ok (db', obj)) : FeedsSaved db db' obj := by
  have e := commit_eq e
  split at e
  · cases e
  · split at e
    · split at e
      · cases e
      · rename_i last hl
        exact addSiblingIn_feeds h (child_path (List.mem_of_getLast? hl)).1 e
    · split at e
      · cases e
      · cases e; exact Feeds.refl.save _

theorem addSibling_feeds (h : PI db.rows) {t new obj : Row} (ht : t ∈ db.rows) {pos : Option Pos}
    (e : addSibling cfg db t pos new = .ok (db', obj)) : FeedsSaved db db' obj := addSiblingIn_feeds h ht (commit_eq e)

/-! ### Moving -/

/-- signals, then the saved node, then the signal of the branch -/
def FeedsMove (db db' : DB) (obj : Row) : Prop :=
  ∃ s old, db'.sigs = db.sigs ++ s ++ [.moved old obj.path] ∧
    entries db' = listenSig (upsert Entry.pk obj.entry (s.foldl listenSig (entries db))) (.moved old obj.path)

theorem finishMove_feeds (hpk : (db.rows.map Row.pk).Nodup) (hpath : (db.rows.map Row.path).Nodup) {x : Row} (hx : x ∈ db.rows) {new : Path}
    (hn : ¬ x.path <+: new ∨ x.path = new) :
    entries (finishMove db x new).1 = listenSig (upsert Entry.pk (finishMove db x new).2.entry (entries db)) (.moved x.path new) := by
  have hany : (entries db).any (fun b => b.pk == (finishMove db x new).2.entry.pk) = true := by
    rw [List.any_eq_true]
    exact ⟨x.entry, List.mem_map_of_mem hx, by simp [finishMove, Row.entry]⟩
  have h0 : entries (finishMove db x new).1 = entries (LT.save { db with rows := rewriteBelow x.path new db.rows } { x with path := new }) := rfl
  have hany' : (entries { db with rows := rewriteBelow x.path new db.rows }).any (fun b => b.pk == ({ x with path := new } : Row).entry.pk) = true := by
    rw [List.any_eq_true]
    refine ⟨x.entry, List.mem_map_of_mem ?_, by simp [Row.entry]⟩
    unfold rewriteBelow
    rw [List.mem_map]
    exact ⟨x, hx, by rw [if_neg]; simp⟩
  rw [h0, save_entries, upsert, if_pos hany', upsert, if_pos hany]
  simp only [entries, finishMove, listenSig, rewriteBelow, List.map_map]
  refine List.map_congr_left (fun r hr => ?_)
  simp only [Function.comp_apply]
  by_cases hrx : r = x
  · subst hrx
    have h1 : (r.path.isPrefixOf r.path && decide (r.path.length < r.path.length)) = false := by simp
    simp only [h1, Bool.false_eq_true, if_false, Row.entry, BEq.rfl, if_true]
    rcases hn with hn | hn
    · rw [if_neg]; rwa [List.isPrefixOf_iff_prefix]
    · rw [hn]; simp
  · have hk : r.pk ≠ x.pk := fun e => hrx (List.inj_on_of_nodup_map hpk hr hx e)
    have hp : r.path ≠ x.path := fun e => hrx (List.inj_on_of_nodup_map hpath hr hx e)
    by_cases hc : x.path <+: r.path
    · have hl : x.path.length < r.path.length := by
        rcases Nat.lt_or_ge x.path.length r.path.length with h | h
        · exact h
        · exact absurd (hc.eq_of_length_le h) (Ne.symm hp)
      have h2 : x.path.isPrefixOf r.path = true := List.isPrefixOf_iff_prefix.2 hc
      have h3 : decide (x.path.length < r.path.length) = true := decide_eq_true hl
      simp only [h3, Bool.and_true, if_true, Row.entry, beq_iff_eq, hk, if_false, h2]
    · have h1 : x.path.isPrefixOf r.path = false := by
        rw [Bool.eq_false_iff, ne_eq, List.isPrefixOf_iff_prefix]; exact hc
      simp only [h1, Bool.false_and, Bool.false_eq_true, if_false, Row.entry, beq_iff_eq, hk]

theorem move_feeds (h : Inv db.rows) {x t obj : Row} (hx : x ∈ db.rows) (ht : t ∈ db.rows) {posArg : Option Pos}
    (e : move cfg db x t posArg = .ok (db', obj)) : FeedsMove db db' obj := by
  cases hpos : preparePosForMove cfg.ordered posArg with
  | error er =>
    have e := commit_eq e
    rw [hpos] at e
    cases e
  | ok pos =>
    by_cases hr : (PF db.rows).MoveRefused x.pk t.pk pos
    · rw [move_refused h.inv hx ht hpos hr] at e; cases e
    · obtain ⟨e1, e2⟩ := move_eq h hx ht hpos hr
      rw [e1] at e
      rw [← moveNeighbours_parent (cfg := cfg) (db := db) x t pos] at e2
      have e := commit_eq e
      split at e
      · cases e
      · rename_i db1 newPath moved hres
        have hb := fun b hb => moveNeighbours_path (cfg := cfg) (x := x) (pos := pos) (b := b) ht (ne_nil h.inv ht) hb
        obtain ⟨⟨s, h1, h1'⟩, ⟨g, h2⟩, ⟨l, h3⟩, h4⟩ := getNewPath_feeds 2 (fun b e => (hb b e).2)
          (fun b e => (get?_eq_some h.inv).2 ⟨(hb b e).1, rfl⟩) h.inv.pkNodup hres
        simp only at h1 h1' h2 h3 h4
        have hpk : (db1.rows.map Row.pk).Nodup := by
          have : db1.rows.map Row.pk = db.rows.map Row.pk := by rw [h2.rows, List.map_map]; rfl
          rw [this]; exact h.inv.pkNodup
        have hpath : (db1.rows.map Row.path).Nodup := by
          have : db1.rows.map Row.path = (db.rows.map Row.path).map g := by rw [h2.rows, List.map_map, List.map_map]; rfl
          rw [this]
          exact h.inv.pathNodup.map (fun p q => h2.inj p q)
        split at e
        · cases e
        · rename_i node hnode
          -- the node is a row of the table, not above its new place
          have hn : node ∈ db1.rows ∧ ¬ node.path <+: (moveNeighbours cfg db x t pos).2 := by
            unfold refreshed at hnode
            cases moved with
            | false =>
              cases hnode
              rw [h4 rfl]
              exact ⟨hx, e2⟩
            | true =>
              simp only [if_true] at hnode
              split at hnode
              · cases hnode
              · rename_i n hn
                cases hnode
                have hm : node ∈ db1.rows := List.mem_of_find?_eq_some hn
                have hk : node.pk = x.pk := by simpa using List.find?_some hn
                refine ⟨hm, ?_⟩
                rw [h2.rows, List.mem_map] at hm
                obtain ⟨q, hq, rfl⟩ := hm
                have : q = x := List.inj_on_of_nodup_map h.inv.pkNodup hq hx hk
                subst this
                exact fun hc => e2 (h2.above _ hc)
          have e' : finishMove db1 node newPath = (db', obj) := by injection e
          have hnew : ¬ node.path <+: newPath ∨ node.path = newPath := by
            by_cases hc : node.path <+: newPath
            · right
              rw [h3] at hc ⊢
              rcases List.prefix_concat_iff.1 hc with hc | hc
              · exact hc
              · exact absurd hc hn.2
            · exact Or.inl hc
          have hf := finishMove_feeds hpk hpath hn.1 hnew
          rw [e'] at hf
          have ho : obj.path = newPath := by
            have := congrArg (fun p => p.2.path) e'
            exact this.symm
          refine ⟨s, node.path, ?_, ?_⟩
          · have := congrArg (fun p => p.1.sigs) e'
            simp only [finishMove, save] at this
            rw [← this, h1, ho]
          · rw [hf, ho, h1']

/-! ### Deleting -/

theorem delete_feeds (sel : Row → Bool) : Feeds db (delete db sel) := by
  unfold delete
  simp only
  split
  · exact .refl
  · refine ⟨_, rfl, ?_⟩
    simp only [entries, List.foldl_cons, List.foldl_nil, listenSig, List.filter_map]
    rfl

end Verif.LT
