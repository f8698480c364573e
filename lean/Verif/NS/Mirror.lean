/-
NS: the rows an operation changes and the signals it sends.
-/
import Verif.SpecMirror
import Verif.NS.History

namespace Verif.NS

variable {cfg : Cfg} {db db' : DB}

/-- the entries that show a table -/
def entries (db : DB) : List Entry := db.rows.map Row.entry

/-- The signals sent from `db` to `db'` say what happened to the intervals. -/
def Feeds (db db' : DB) : Prop := ∃ s, db'.sigs = db.sigs ++ s ∧ entries db' = s.foldl listenSig (entries db)

theorem Feeds.refl : Feeds db db := ⟨[], by simp, rfl⟩

theorem Feeds.trans {db'' : DB} (h : Feeds db db') (h' : Feeds db' db'') : Feeds db db'' := by
  obtain ⟨s, e1, e2⟩ := h
  obtain ⟨t, e3, e4⟩ := h'
  exact ⟨s ++ t, by rw [e3, e1, List.append_assoc], by rw [e4, e2, List.foldl_append]⟩

/-- every interval is in order -/
def Lr (db : DB) : Prop := ∀ r ∈ db.rows, r.lft < r.rgt

theorem alterGap_feeds (h : Lr db) (T start offset : Int) : Feeds db (alterGap db T start offset) := by
  have key : ∀ r ∈ db.rows, (gapRow T start offset r).entry = (if r.entry.tree = T then
      { r.entry with lft := if start ≤ r.entry.lft then r.entry.lft + offset else r.entry.lft,
                     rgt := if start ≤ r.entry.rgt then r.entry.rgt + offset else r.entry.rgt } else r.entry) := by
    intro r hr
    rw [gapRow_eq (h r hr)]
    simp only [Row.entry, gapPhi]
    by_cases ht : r.tree = T
    · by_cases h1 : start ≤ r.lft <;> by_cases h2 : start ≤ r.rgt <;> simp [ht, h1, h2]
    · simp [ht]
  by_cases hany : db.rows.any (fun r => decide (start ≤ r.rgt ∧ r.tree = T)) = true
  · refine ⟨[.gapAltered T start offset], if_pos hany, ?_⟩
    simp only [entries, alterGap, List.foldl_cons, List.foldl_nil, listenSig, List.map_map]
    exact List.map_congr_left key
  · refine ⟨[], (if_neg hany).trans (List.append_nil _).symm, ?_⟩
    simp only [entries, alterGap, List.foldl_nil, List.map_map]
    refine List.map_congr_left (fun r hr => ?_)
    simp only [List.any_eq_true, decide_eq_true_eq, not_exists, not_and] at hany
    simp only [Function.comp, gapRow]
    rw [if_neg (fun hc => hany r hr hc.1 hc.2)]

theorem moveTreeRight_feeds (T : Int) : Feeds db (moveTreeRight db T) := by
  by_cases hany : db.rows.any (fun r => decide (T ≤ r.tree)) = true
  · refine ⟨[.treeIdsIncremented T], if_pos hany, ?_⟩
    simp only [entries, moveTreeRight, List.foldl_cons, List.foldl_nil, listenSig, List.map_map]
    refine List.map_congr_left (fun r _ => ?_)
    simp only [Function.comp, treeRightRow, Row.entry]
    by_cases hc : T ≤ r.tree <;> simp [hc]
  · refine ⟨[], (if_neg hany).trans (List.append_nil _).symm, ?_⟩
    simp only [entries, moveTreeRight, List.foldl_nil, List.map_map]
    refine List.map_congr_left (fun r hr => ?_)
    simp only [List.any_eq_true, decide_eq_true_eq, not_exists, not_and] at hany
    simp only [Function.comp, treeRightRow]
    rw [if_neg (hany r hr)]

theorem moveRows_feeds (h : NI db.rows) {x : Row} (hx : x ∈ db.rows) (T j d : Int) : Feeds db (moveRows db x T j d) := by
  have key : ∀ r ∈ db.rows, (jumpRow x.tree x.lft x.rgt T j d r).entry =
      (if r.entry.tree = x.tree ∧ x.lft ≤ r.entry.lft ∧ r.entry.rgt ≤ x.rgt then
        ⟨r.entry.pk, T, r.entry.lft + j, r.entry.rgt + j, r.entry.depth + d⟩ else r.entry) := by
    intro r hr
    have h1 := skip_iff h hx hr
    have h2 := h.inB_iff hx hr
    have h3 : (r.tree = x.tree ∧ x.lft ≤ r.lft ∧ r.rgt ≤ x.rgt) ↔ (r.tree = x.tree ∧ x.lft ≤ r.lft ∧ r.lft ≤ x.rgt) := by
      rw [← h2, ← h1]
      exact ⟨fun ⟨a, b⟩ => ⟨a.symm, b⟩, fun ⟨a, b⟩ => ⟨a.symm, b⟩⟩
    change (if r.tree = x.tree ∧ x.lft ≤ r.lft ∧ r.lft ≤ x.rgt then
        { r with tree := T, lft := r.lft + j, rgt := r.rgt + j, depth := r.depth + d } else r).entry =
      if r.tree = x.tree ∧ x.lft ≤ r.lft ∧ r.rgt ≤ x.rgt then ⟨r.pk, T, r.lft + j, r.rgt + j, r.depth + d⟩ else r.entry
    by_cases hc : r.tree = x.tree ∧ x.lft ≤ r.lft ∧ r.lft ≤ x.rgt
    · rw [if_pos hc, if_pos (h3.2 hc)]; rfl
    · rw [if_neg hc, if_neg (fun hh => hc (h3.1 hh))]
  by_cases hany : db.rows.any (fun r => decide (r.tree = x.tree ∧ x.lft ≤ r.lft ∧ r.lft ≤ x.rgt)) = true
  · refine ⟨[.subtreeMoved x.tree x.lft x.rgt T j d], if_pos hany, ?_⟩
    simp only [entries, moveRows, List.foldl_cons, List.foldl_nil, listenSig, List.map_map]
    exact List.map_congr_left key
  · refine ⟨[], (if_neg hany).trans (List.append_nil _).symm, ?_⟩
    simp only [entries, moveRows, List.foldl_nil, List.map_map]
    refine List.map_congr_left (fun r hr => ?_)
    simp only [List.any_eq_true, decide_eq_true_eq, not_exists, not_and] at hany
    simp only [Function.comp, jumpRow]
    rw [if_neg (fun hc => hany r hr hc.1 hc.2.1 hc.2.2)]

/-- The signals, then the saved row. -/
def FeedsSaved (db db' : DB) (obj : Row) : Prop :=
  ∃ s, db'.sigs = db.sigs ++ s ∧ entries db' = upsert Entry.pk obj.entry (s.foldl listenSig (entries db))

theorem save_entries (row : Row) : entries (save db row) = upsert Entry.pk row.entry (entries db) := by
  by_cases hany : db.rows.any (·.pk == row.pk) = true
  · have : (entries db).any (fun b => b.pk == row.entry.pk) = true := by simpa [entries, Row.entry] using hany
    rw [upsert, if_pos this, entries, entries, save, if_pos hany]
    simp only [List.map_map]
    exact List.map_congr_left (fun r _ => by by_cases hc : r.pk = row.pk <;> simp [hc, Row.entry])
  · have : ¬ (entries db).any (fun b => b.pk == row.entry.pk) = true := by simpa [entries, Row.entry] using hany
    rw [upsert, if_neg this, entries, entries, save, if_neg hany]
    simp only [List.map_append]; rfl

theorem Feeds.save (h : Feeds db db') (row : Row) : FeedsSaved db (NS.save db' row) row := by
  obtain ⟨s, e1, e2⟩ := h
  exact ⟨s, e1, by rw [save_entries, e2]⟩

/-! ### Adding -/

theorem addRootSibling_feeds {target new obj : Row} {pos : Pos} (e : addRootSibling db target pos new = .ok (db', obj)) :
    FeedsSaved db db' obj := by
  simp only [addRootSibling] at e
  split at e
  · cases e
  · split at e
    · cases e; exact Feeds.refl.save _
    · split at e
      · cases e
      · cases e; exact (moveTreeRight_feeds _).save _

theorem addInnerSibling_feeds (h : Lr db) {target new obj : Row} {cached : Option Row} {pos : Pos} {tree depth : Int}
    (e : addInnerSibling db target cached pos tree depth new = .ok (db', obj)) : FeedsSaved db db' obj := by
  simp only [addInnerSibling] at e
  split at e
  · cases e
  · split at e
    · split at e
      · cases e
      · cases e
      · cases e; exact (alterGap_feeds h _ _ _).save _
    · split at e
      · cases e; exact (alterGap_feeds h _ _ _).save _
      · cases e

theorem addSibling_feeds (h : Lr db) {target new obj : Row} {cached : Option Row} {pos : Option Pos}
    (e : addSibling cfg db target cached pos new = .ok (db', obj)) : FeedsSaved db db' obj := by
  simp only [addSibling] at e
  split at e
  · cases e
  · split at e
    · cases e
    · split at e
      · exact addRootSibling_feeds e
      · exact addInnerSibling_feeds h e

theorem addRoot_feeds (h : Lr db) {new obj : Row} (e : addRoot cfg db new = .ok (db', obj)) : FeedsSaved db db' obj := by
  simp only [addRoot] at e
  split at e
  · split at e
    · exact addSibling_feeds h e
    · cases e; exact Feeds.refl.save _
  · cases e; exact Feeds.refl.save _

theorem addChild_feeds (h : Lr db) {target new obj t' : Row} (e : addChild cfg db target new = .ok (db', obj, t')) :
    FeedsSaved db db' obj := by
  simp only [addChild] at e
  split at e
  · cases e
  · split at e
    · cases e; exact (alterGap_feeds h _ _ _).save _
    · split at e
      · cases e
      · split at e
        · cases e
        · rename_i e1
          cases e
          exact addSibling_feeds h e1

/-! ### Moving -/

theorem children_sub {x r : Row} (hr : r ∈ children db x) : r ∈ db.rows := by
  simp only [children, descendants, Bool.false_eq_true, if_false] at hr
  have hr := List.mem_of_mem_filter hr
  split at hr
  · cases hr
  · have hr := List.mem_of_mem_filter hr
    simp only [getTree] at hr
    split at hr <;> exact List.mem_of_mem_filter (mem_order.1 hr)

theorem siblings_sub {x : Row} {l : List Row} (e : siblings db x = .ok l) {r : Row} (hr : r ∈ l) : r ∈ db.rows := by
  simp only [siblings] at e
  split at e
  · cases e; exact List.mem_of_mem_filter (mem_order.1 hr)
  · split at e
    · cases e
    · cases e
    · cases e; exact children_sub hr

theorem nextAfter_mem {t : Row} : ∀ (l : List Row), nextAfter t l = t ∨ nextAfter t l ∈ l
  | [] => Or.inl rfl
  | [_] => Or.inl rfl
  | a :: b :: rest => by
    simp only [nextAfter]
    split
    · exact Or.inr (by simp)
    · rcases nextAfter_mem (t := t) (b :: rest) with e | e
      · exact Or.inl e
      · exact Or.inr (List.mem_cons_of_mem _ e)

theorem resolvePos_mem {t t' : Row} {pos pos' : Pos} (ht : t ∈ db.rows) (e : resolvePos db pos t = .ok (pos', t')) : t' ∈ db.rows := by
  unfold resolvePos at e
  split at e
  · split at e
    · cases e
    · rename_i sibs es
      have hn : nextAfter t sibs ∈ db.rows := by
        rcases nextAfter_mem (t := t) sibs with e | e
        · rw [e]; exact ht
        · exact siblings_sub es e
      dsimp only at e
      generalize hq : (if pos = Pos.right then
        if sameNode t sibs.getLast? = true then (Pos.lastSibling, t) else (Pos.left, nextAfter t sibs) else (pos, t)) = q at e
      have hq2 : q.2 ∈ db.rows := by
        subst hq
        split
        · split
          · exact ht
          · exact hn
        · exact ht
      generalize (if q.1 = Pos.left ∧ sameNode q.2 sibs.head? = true then Pos.firstSibling else q.1) = pp at e
      split at e
      · split at e
        · cases e
        · rename_i f hf
          cases e
          exact siblings_sub es (List.mem_of_mem_head? hf)
      · cases e; exact hq2
  · cases e; exact ht

theorem resolveSorted_mem {t t' : Row} {pos pos' : Pos} {v : Vals} (ht : t ∈ db.rows)
    (e : resolveSorted cfg db pos t v = .ok (pos', t')) : t' ∈ db.rows := by
  simp only [resolveSorted] at e
  split at e
  · split at e
    · cases e
    · rename_i sibs es
      split at e
      · rename_i f hf
        cases e
        have := List.mem_of_mem_head? hf
        exact siblings_sub es ((sortedPos_sublist _ _ _ _).mem this)
      · cases e; exact ht
  · cases e; exact ht

theorem getParent_mem {t p : Row} {c : Option Row} (hc : ∀ q, c = some q → q ∈ db.rows) (e : getParent db t c = .ok (some p)) : p ∈ db.rows := by
  simp only [getParent] at e
  split at e
  · cases e
  · split at e
    · cases e; exact hc _ rfl
    · split at e
      · cases e
      · rename_i hl
        cases e
        have := List.mem_of_getLast? hl
        simp only [ancestors] at this
        split at this
        · cases this
        · exact List.mem_of_mem_filter (mem_order.1 this)

/-- opening a gap at a place other than 1 keeps the intervals nested -/
theorem alterGap_ni (h : NI db.rows) {T start offset : Int} (hs : 1 < start) (ho : 0 ≤ offset) : NI (alterGap db T start offset).rows :=
  (gap_open h hs ho).ni h

theorem makeHole_feeds (h : NI db.rows) {x target : Row} {parent cached : Option Row} {pos : Pos} {T l : Int} (hx : x ∈ db.rows)
    (ht : target ∈ db.rows) (hp : ∀ p, parent = some p → p ∈ db.rows) (hc : ∀ c, cached = some c → c ∈ db.rows)
    (e : makeHole db x target parent cached pos = .ok (db', T, l)) : Feeds db db' ∧ NI db'.rows := by
  have hlr : Lr db := h.lr
  have hg : 0 ≤ x.rgt - x.lft + 1 := by have := h.lr x hx; omega
  have hrgt : ∀ p ∈ db.rows, 1 < p.rgt := fun p hp => by have := h.lr p hp; have := h.one p hp; omega
  simp only [makeHole] at e
  split at e
  · rename_i p
    cases e
    exact ⟨alterGap_feeds hlr _ _ _, alterGap_ni h (hrgt p (hp p rfl)) hg⟩
  · split at e
    · split at e
      · split at e
        · cases e
        · split at e
          · cases e
          · cases e; exact ⟨.refl, h⟩
      · cases e; exact ⟨moveTreeRight_feeds _, (treeRight_renum h _).ni h⟩
      · cases e; exact ⟨moveTreeRight_feeds _, (treeRight_renum h _).ni h⟩
      · cases e; exact ⟨.refl, h⟩
    · rename_i hroot
      have hlft : 1 < target.lft := by
        have := h.one target ht
        simp only [Row.isRoot, beq_iff_eq] at hroot
        omega
      split at e
      · split at e
        · cases e
        · cases e
        · rename_i p ep
          cases e
          exact ⟨alterGap_feeds hlr _ _ _, alterGap_ni h (hrgt p (getParent_mem hc ep)) hg⟩
      · cases e; exact ⟨alterGap_feeds hlr _ _ _, alterGap_ni h hlft hg⟩
      · cases e; exact ⟨alterGap_feeds hlr _ _ _, alterGap_ni h hlft hg⟩
      · cases e

theorem moveTo_feeds (h : NI db.rows) {x target orig : Row} {parent cached : Option Row} {pos : Pos} {res : MoveResult} (hx : x ∈ db.rows)
    (ht : target ∈ db.rows) (hp : ∀ p, parent = some p → p ∈ db.rows) (hc : ∀ c, cached = some c → c ∈ db.rows)
    (e : moveTo db x target orig parent cached pos = .ok res) : Feeds db res.db := by
  simp only [moveTo] at e
  split at e
  · cases e
  · rename_i db1 T l e1
    obtain ⟨f1, h1⟩ := makeHole_feeds h hx ht hp hc e1
    split at e
    · cases e
    · rename_i node hn
      have hnm := ((get?_eq_some h1).1 hn).1
      have f2 := moveRows_feeds h1 hnm T (l - node.lft) (target.depth - node.depth + (if parent.isSome then 1 else 0))
      have f3 : Feeds _ (closeGap (moveRows db1 node T (l - node.lft) (target.depth - node.depth + (if parent.isSome then 1 else 0)))
          node.lft node.rgt node.tree) := alterGap_feeds (by
        intro r' hr'
        obtain ⟨r, hr, rfl⟩ := List.mem_map.1 hr'
        have := h1.lr r hr
        simp only [jumpRow]
        split
        · simp only; omega
        · exact this) _ _ _
      split at e
      · cases e; exact (f1.trans f2).trans f3
      · cases e

theorem move_feeds (h : NI db.rows) {x target : Row} {cached : Option Row} {pos : Option Pos} {res : MoveResult} (hx : x ∈ db.rows)
    (ht : target ∈ db.rows) (hc : ∀ c, cached = some c → c ∈ db.rows)
    (e : move cfg db x target cached pos = .ok res) : Feeds db res.db := by
  simp only [move] at e
  split at e
  · cases e
  · split at e
    · cases e
    · rename_i pos0 _ pos1 t1 parent e1
      have hv : t1 ∈ db.rows ∧ ∀ p, parent = some p → p ∈ db.rows := by
        simp only [moveVars] at e1
        split at e1
        · split at e1
          · cases e1
          · split at e1
            · cases e1; exact ⟨ht, fun p hp => by cases hp; exact ht⟩
            · split at e1
              · cases e1
              · rename_i last hl
                cases e1
                exact ⟨children_sub (List.mem_of_getLast? hl), fun p hp => by cases hp⟩
        · cases e1; exact ⟨ht, fun p hp => by cases hp⟩
      simp only [moveFrom] at e
      split at e
      · cases e
      · split at e
        · cases e
        · cases e; exact .refl
        · split at e
          · cases e
          · rename_i e2
            split at e
            · cases e
            · rename_i e3
              refine moveTo_feeds h hx (resolvePos_mem (resolveSorted_mem hv.1 e2) e3) hv.2 ?_ e
              intro c hcc
              split at hcc
              · exact hc c hcc
              · cases hcc

/-! ### Deleting -/

theorem closing_feeds : ∀ (G : List (Int × Int × Int)) (db : DB), Closing db.rows G → Feeds db ((G.map DelStmt.close).foldl execDel db)
  | [], _, _ => .refl
  | g :: G, db, h => by
    have h1 := (closing_step h).1
    exact (alterGap_feeds (db := db) h.ni.lr g.1 g.2.1 (-(g.2.2 - g.2.1 + 1))).trans (closing_feeds G (execDel db (.close g)) h1)

theorem delete_feeds (h : NInv db.rows) (sel : Row → Bool) : Feeds db (delete db sel) := by
  unfold delete deleteStmts
  simp only
  by_cases he : (removeRanges (order (db.rows.filter sel)) none).isEmpty = true
  · rw [if_pos he]; exact .refl
  · rw [if_neg he, removeRanges_eq]
    have hrows : (execDel db (.delete ((kept (order (db.rows.filter sel)) none).map rng))).rows =
        db.rows.filter (fun r => !doomed db.rows sel r) := removed_rows h.toNI sel
    have hc := closing_init h sel
    rw [← hrows] at hc
    refine Feeds.trans ?_ (closing_feeds _ _ hc)
    refine ⟨[.nodesDeleted ((kept (order (db.rows.filter sel)) none).map rng)], rfl, ?_⟩
    have hkr : ∀ k ∈ kept (order (db.rows.filter sel)) none, k ∈ db.rows :=
      fun k hk => List.mem_of_mem_filter (mem_order.1 ((kept_sublist _ _).mem hk))
    simp only [entries, execDel, List.foldl_cons, List.foldl_nil, listenSig, List.filter_map]
    congr 1
    apply List.filter_congr
    intro r hr
    simp only [Function.comp, List.any_map]
    congr 1
    rw [Bool.eq_iff_iff, List.any_eq_true, List.any_eq_true]
    refine exists_congr (fun k => and_congr_right (fun hk => ?_))
    have h1 := skip_iff h.toNI (hkr k hk) hr
    have h2 := h.toNI.inB_iff (hkr k hk) hr
    refine (decide_eq_true_iff (p := r.tree = k.tree ∧ k.lft ≤ r.lft ∧ r.lft ≤ k.rgt)).trans
      (Iff.trans ?_ (decide_eq_true_iff (p := r.tree = k.tree ∧ k.lft ≤ r.lft ∧ r.rgt ≤ k.rgt)).symm)
    rw [← h2, ← h1]
    exact ⟨fun ⟨a, b⟩ => ⟨a.symm, b⟩, fun ⟨a, b⟩ => ⟨a.symm, b⟩⟩

end Verif.NS
