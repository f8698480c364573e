/-
C21, and C41 for NS: whole histories on the nested sets backend.
-/
import Verif.NS.History
import Verif.Props.NSCheck
import Verif.SpecSortedHistory

namespace Verif.NS

variable {cfg : Cfg} {db : DB}

/-! ### C21 -/

/-- **C21.** From the empty table, after every history of operations on freshly fetched nodes — calls that raise included,
with or without `node_order_by`, whatever the values —: two intervals of a tree are disjoint or strictly nested and share
no endpoint; no number of an interval is left out; each tree has exactly one node that starts at 1, and it encloses the
others; every depth is one more than the number of enclosing intervals; and `find_problems` reports nothing, for the
whole tree and for any branch. -/
theorem C21_history (ops : List Op) {db : DB} (hdb : db = runOps cfg { rows := [] } ops) :
    (db.rows.map Row.pk).Nodup ∧
    (∀ r ∈ db.rows, 1 ≤ r.tree ∧ 1 ≤ r.lft ∧ r.lft < r.rgt) ∧
    (∀ r ∈ db.rows, ∀ q ∈ db.rows, r ≠ q → r.tree = q.tree →
      (r.lft < q.lft ∧ q.rgt < r.rgt) ∨ (q.lft < r.lft ∧ r.rgt < q.rgt) ∨ r.rgt < q.lft ∨ q.rgt < r.lft) ∧
    (∀ r ∈ db.rows, ∀ i, r.lft ≤ i → i ≤ r.rgt → ∃ q ∈ db.rows, q.tree = r.tree ∧ (q.lft = i ∨ q.rgt = i)) ∧
    (∀ r ∈ db.rows, ∃ q ∈ db.rows, q.tree = r.tree ∧ q.lft = 1 ∧ ∀ r' ∈ db.rows, r'.tree = r.tree →
      r' = q ∨ (r'.lft ≠ 1 ∧ q.lft < r'.lft ∧ r'.rgt < q.rgt)) ∧
    (∀ r ∈ db.rows, r.depth = 1 + (db.rows.countP (fun q => decide (q.tree = r.tree ∧ q.lft < r.lft ∧ r.rgt < q.rgt)) : Int)) ∧
    (∀ p, (∀ q, p = some q → q ∈ db.rows) → findProblems db p = noProblems) := by
  subst hdb
  have h : Consistent (runOps cfg { rows := [] } ops) := runOps_consistent ops empty_consistent
  refine ⟨h.pks, fun r hr => ⟨h.tree r hr, h.one r hr, h.lr r hr⟩, ?_, h.full, ?_, ?_, fun p hp => C26_sound h.toNI hp⟩
  · intro r hr q hq hne ht
    rcases h.toNI.tri hr hq hne ht with e | e | e | e
    · exact Or.inl e.2
    · exact Or.inr (Or.inl e.2)
    · exact Or.inr (Or.inr (Or.inl e))
    · exact Or.inr (Or.inr (Or.inr e))
  · intro r hr
    obtain ⟨q, hq, ht, hall⟩ := h.toNI.wellNested.root r hr
    have hq1 : q.lft = 1 := by
      by_contra hl
      obtain ⟨q', hq', _, he⟩ := h.root q hq hl
      rcases hall q' hq' (he.1.trans ht) with rfl | e
      · exact encl_irrefl _ he
      · exact encl_asymm he e
    refine ⟨q, hq, ht, hq1, fun r' hr' ht' => ?_⟩
    rcases hall r' hr' ht' with e | e
    · exact Or.inl e
    · refine Or.inr ⟨?_, e.2⟩
      have := e.2.1
      omega
  · exact h.depth

/-- a history with additions, moves between trees, a refused move, an addition below a missing node, and a deletion -/
def exOps : List Op := [.addRoot 1 [], .addChild 1 2 [], .addSibling 2 (some .left) 3 [], .addRoot 4 [], .addChild 9 5 [],
  .addChild 3 5 [], .move 4 2 (some .firstChild), .move 1 5 (some .left), .move 2 1 (some .left), .delete [3]]

example : (runOps ⟨[]⟩ { rows := [] } exOps).rows.map (fun r => (r.pk, r.tree, r.lft, r.rgt, r.depth)) =
    [(1, 2, 1, 2, 1), (2, 1, 1, 4, 1), (4, 1, 2, 3, 2)] := by decide

/-! ### C41 for NS -/

/-- **C41 for NS, without `node_order_by`**: every history gives the forest and the nodes that the specification
`Tree.run` gives. -/
theorem C41_ns (ho : cfg.ordered = false) (ops : List Op) : Abs (runOps cfg { rows := [] } ops) (Tree.run Tree.empty ops) := by
  suffices ∀ (db : DB) (s : Tree), Consistent db → Abs db s → Abs (runOps cfg db ops) (s.run ops) from
    this _ _ empty_consistent ⟨by funext p; cases p <;> rfl, by simp [Tree.empty]⟩
  induction ops with
  | nil => intro db s _ ha; exact ha
  | cons op ops ih =>
    intro db s h ha
    obtain ⟨h1, h2⟩ := step_sim ho h op ha
    exact ih _ _ h1 h2

/-! ### Sorted histories -/

/-- the table shows the abstract tree -/
def AbsS (db : DB) (s : STree) : Prop := ShowsSTree (forest db) (data db.rows) s

theorem AbsS.toAbs {s : STree} (ha : AbsS db s) : Abs db ⟨s.ids, s.F⟩ :=
  ⟨ha.forest, fun k => by rw [← keys_eq, ha.data]; rfl⟩

theorem keys_of_forest (h : Consistent db) : ∀ q, ∀ a ∈ forest db q, a ∈ (data db.rows).map Prod.fst := fun _ _ hm => forest_keys h hm

theorem absS_added {s : STree} (ha : AbsS db s) (h : Consistent db) {db' : DB} {obj new : Row} {p : Option Nat} (hf : Fresh db new)
    (hadd : AddedSorted cfg db db' obj new p) : AbsS db' (s.add cfg.orderBy p new.pk new.vals) := by
  obtain ⟨⟨sl, hadd'⟩, _, hs⟩ := hadd
  exact ShowsSTree.add ha (keys_of_forest h) (fresh_keys hf) hadd'.forest hadd'.data (forest_nodup hadd'.consistent p) hs

theorem step_simS (ho : cfg.ordered = true) (h : Consistent db) (hs : SortedTree cfg db) {op : Op} (hn : NoNulls cfg.orderBy op)
    {s : STree} (ha : AbsS db s) : SortedTree cfg (step cfg db op) ∧ AbsS (step cfg db op) (s.step cfg.orderBy op) := by
  have ha' := ha.toAbs
  have hmem : ∀ k, k ∈ s.ids ↔ ∃ r, db.get? k = some r := fun k => ha'.mem h k
  cases op with
  | addRoot k v =>
    simp only [step, exec, STree.step]
    cases e : db.get? k with
    | some r => rw [if_pos ((hmem k).2 ⟨r, e⟩)]; exact ⟨hs, ha⟩
    | none =>
      rw [if_neg (fun hk => by obtain ⟨r, e'⟩ := (hmem k).1 hk; rw [e] at e'; cases e')]
      obtain ⟨db', obj, e', hadd⟩ := C16_ns_add_root h ho hs (fresh_of e (v := v)) hn
      rw [e']; exact ⟨hadd.sorted, absS_added ha h (fresh_of e) hadd⟩
  | addChild t k v =>
    simp only [step, exec, STree.step]
    cases e1 : db.get? t with
    | none =>
      rw [if_pos (Or.inr (fun hk => by obtain ⟨r, e'⟩ := (hmem t).1 hk; rw [e1] at e'; cases e'))]
      cases db.get? k <;> exact ⟨hs, ha⟩
    | some target =>
      cases e : db.get? k with
      | some r => rw [if_pos (Or.inl ((hmem k).2 ⟨r, e⟩))]; exact ⟨hs, ha⟩
      | none =>
        rw [if_neg (by
          rintro (hk | hk)
          · obtain ⟨r, e'⟩ := (hmem k).1 hk; rw [e] at e'; cases e'
          · exact hk ((hmem t).2 ⟨target, e1⟩))]
        dsimp only
        obtain ⟨ht, htk⟩ := row_of h e1
        obtain ⟨db', obj, t', e', hadd⟩ := C16_ns_add_child h ho hs ht rfl (fresh_of e (v := v)) hn
        rw [e']
        rw [htk] at hadd
        exact ⟨hadd.sorted, absS_added ha h (fresh_of e) hadd⟩
  | addSibling t pos k v =>
    simp only [step, exec, STree.step]
    cases e1 : db.get? t with
    | none =>
      rw [if_pos (Or.inr (fun hk => by obtain ⟨r, e'⟩ := (hmem t).1 hk; rw [e1] at e'; cases e'))]
      cases db.get? k <;> exact ⟨hs, ha⟩
    | some target =>
      cases e : db.get? k with
      | some r => rw [if_pos (Or.inl ((hmem k).2 ⟨r, e⟩))]; exact ⟨hs, ha⟩
      | none =>
        rw [if_neg (by
          rintro (hk | hk)
          · obtain ⟨r, e'⟩ := (hmem k).1 hk; rw [e] at e'; cases e'
          · exact hk ((hmem t).2 ⟨target, e1⟩))]
        dsimp only
        obtain ⟨ht, htk⟩ := row_of h e1
        cases hp : preparePosForAddSibling true pos with
        | error er =>
          have : addSibling cfg db target none pos ⟨k, 0, 0, 0, 0, v⟩ = .error er := by
            unfold addSibling; rw [ho, hp]
          rw [this]; exact ⟨hs, ha⟩
        | ok q =>
          obtain ⟨p, hm, db', obj, e', hadd⟩ := C16_ns_add_sibling h ho hs ht (cached := none) (prepAddSorted_arg hp).2 (fresh_of e (v := v)) hn
          rw [e']
          rw [htk] at hm
          simp only
          rw [show s.parent t = p from ha'.parent h hm]
          exact ⟨hadd.sorted, absS_added ha h (fresh_of e) hadd⟩
  | move x t pos =>
    simp only [step, exec, STree.step]
    cases e1 : db.get? t with
    | none =>
      rw [if_pos (Or.inr (fun hk => by obtain ⟨r, e'⟩ := (hmem t).1 hk; rw [e1] at e'; cases e'))]
      cases db.get? x <;> exact ⟨hs, ha⟩
    | some target =>
      cases e : db.get? x with
      | none =>
        rw [if_pos (Or.inl (fun hk => by obtain ⟨r, e'⟩ := (hmem x).1 hk; rw [e] at e'; cases e'))]
        exact ⟨hs, ha⟩
      | some node =>
        rw [if_neg (by
          rintro (hk | hk)
          · exact hk ((hmem x).2 ⟨node, e⟩)
          · exact hk ((hmem t).2 ⟨target, e1⟩))]
        dsimp only
        obtain ⟨ht, htk⟩ := row_of h e1
        obtain ⟨hx, hxk⟩ := row_of h e
        cases hp : preparePosForMove true pos with
        | error er =>
          have : move cfg db node target none pos = .error er := by
            unfold move; rw [ho, hp]
          rw [this]; exact ⟨hs, ha⟩
        | ok q =>
          simp only
          by_cases hr : (forest db).MoveRefused node.pk target.pk q
          · rw [C08_ns h hx ht (cached := none) (by rw [ho]; exact hp) hr]
            rw [hxk, htk, ha.forest] at hr
            rw [if_pos hr]
            exact ⟨hs, ha⟩
          · obtain ⟨p, hm, res, sl, e', hmv, hst, hat⟩ :=
              C16_ns_move h ho hx ht hs.nonNull (SortedBy.remove hs.sorted node.pk) (cached := none) hp hr
            rw [hxk, htk, ha.forest] at hr
            rw [if_neg hr]
            rw [htk] at hm
            rw [show s.parent t = p from ha'.parent h hm]
            rw [e']
            refine ⟨hst, ?_, hmv.data.trans ha.data⟩
            refine hmv.forest.trans ?_
            have hnd := forest_nodup hmv.consistent (q.dest p target.pk)
            rw [hmv.forest] at hnd hat
            rw [hmv.data] at hat
            rw [move_sorted_slot hnd hat, hxk, htk, ha.forest, ha.data]
  | delete S =>
    classical
    obtain ⟨D, hD, hc, hf, hd⟩ := C24_delete h S.contains
    have hids : ∀ k, k ∈ db.rows.map Row.pk ↔ k ∈ s.ids := ha'.ids
    refine ⟨?_, ?_, ?_⟩
    · show SortedData _ (forest (delete db (fun r => S.contains r.pk))) (data (delete db (fun r => S.contains r.pk)).rows)
      rw [hf, hd]
      exact hs.prune (keys_nodup h) (keys_of_forest h) D
    · show forest (delete db (fun r => S.contains r.pk)) = _
      rw [hf]
      simp only [STree.step]
      rw [ha.forest]
      congr 1
      funext k
      rw [Bool.eq_iff_iff, hD, decide_eq_true_eq, hids, ha.forest]
    · show data (delete db (fun r => S.contains r.pk)).rows = _
      rw [hd, ha.data]
      simp only [STree.step]
      apply List.filter_congr
      intro e he
      have hk : e.1 ∈ s.ids := List.mem_map_of_mem he
      congr 1
      rw [Bool.eq_iff_iff, hD, decide_eq_true_eq, hids, ha.forest]
      simp [hk]

theorem sortedTree_empty : SortedTree cfg { rows := [] } := by
  refine ⟨(by intro e he; cases he), ?_⟩
  intro p
  cases p with
  | none => exact List.Pairwise.nil
  | some k => exact List.Pairwise.nil

/-- **C41 for NS, with `node_order_by`** and no null order fields: every history gives the forest and the data that the
specification `STree.run` gives, and every group of siblings is sorted. -/
theorem C41_ns_sorted (ho : cfg.ordered = true) {ops : List Op} (hn : ∀ op ∈ ops, NoNulls cfg.orderBy op) :
    AbsS (runOps cfg { rows := [] } ops) (STree.run cfg.orderBy STree.empty ops) ∧ SortedTree cfg (runOps cfg { rows := [] } ops) := by
  suffices ∀ (db : DB) (s : STree), Consistent db → SortedTree cfg db → AbsS db s →
      AbsS (runOps cfg db ops) (s.run cfg.orderBy ops) ∧ SortedTree cfg (runOps cfg db ops) from
    this _ _ empty_consistent sortedTree_empty ⟨by funext p; cases p <;> rfl, rfl⟩
  induction ops with
  | nil => intro db s _ hs ha; exact ⟨ha, hs⟩
  | cons op ops ih =>
    intro db s h hs ha
    obtain ⟨h1, h2⟩ := step_simS ho h hs (hn op (by simp)) ha
    exact ih (fun op hop => hn op (List.mem_cons_of_mem _ hop)) _ _ (step_consistent h op) h1 h2

/-- a sorted history: siblings added out of order and a move -/
def exSOps : List Op := [.addRoot 1 [some 5], .addRoot 2 [some 3], .addChild 1 3 [some 7], .addChild 1 4 [some 2],
  .addSibling 3 none 5 [some 2], .move 2 5 (some .sortedChild)]

example : (∀ op ∈ exSOps, NoNulls exSorted.orderBy op) ∧
    (runOps exSorted { rows := [] } exSOps).rows.map (fun r => (r.pk, r.tree, r.lft, r.rgt, r.depth)) =
      [(1, 2, 1, 10, 1), (2, 2, 5, 6, 3), (3, 2, 8, 9, 2), (4, 2, 2, 3, 2), (5, 2, 4, 7, 2)] := by
  refine ⟨?_, by decide⟩
  intro op hop
  simp only [exSOps, List.mem_cons, List.not_mem_nil, or_false] at hop
  rcases hop with rfl | rfl | rfl | rfl | rfl | rfl <;>
    first
    | trivial
    | (intro e he
       simp only [exSorted, List.mem_cons, List.not_mem_nil, or_false] at he
       subst he
       exact ⟨_, rfl⟩)

end Verif.NS
