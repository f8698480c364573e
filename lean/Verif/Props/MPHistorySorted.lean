/-
C41 for MP with `node_order_by`: whole histories against the sorted specification.
-/
import Verif.Props.MPHistory
import Verif.SpecSortedHistory

namespace Verif

open MP

variable {cfg : Cfg} {db : DB}

namespace MP

/-- the table shows the abstract tree -/
def AbsS (cfg : Cfg) (db : DB) (s : STree) : Prop := ShowsSTree (forest cfg db) (data db.rows) s

theorem valsOf_eq (db : DB) : valsOf db = valsIn (data db.rows) := funext (valsOf_eq_lookup db)

theorem AbsS.toAbs {s : STree} (ha : AbsS cfg db s) : Abs cfg db ⟨s.ids, s.F⟩ := by
  refine ⟨ha.forest, fun k => ?_⟩
  have : s.ids = db.rows.map Row.pk := by
    show s.data.map Prod.fst = _
    rw [← ha.data]; simp [data, Function.comp_def]
  show _ ↔ k ∈ s.ids
  rw [this]

theorem keys_of_forest (hok : cfg.Ok) (h : Consistent cfg db) : ∀ q, ∀ a ∈ forest cfg db q, a ∈ (data db.rows).map Prod.fst := by
  intro q a ha
  have h := (consistent_iff hok).1 h
  rw [forest_eq h hok, mem_PF h.toPInv] at ha
  obtain ⟨r, hr, _, rfl⟩ := ha
  exact List.mem_map_of_mem (f := Prod.fst) (List.mem_map_of_mem (f := fun r : Row => (r.pk, r.vals)) hr)

theorem forest_nodup (hok : cfg.Ok) (h : Consistent cfg db) (p : Option Nat) : (forest cfg db p).Nodup := by
  have h := (consistent_iff hok).1 h
  rw [forest_eq h hok]
  obtain ⟨l, e, s, m⟩ := (shows_pforest h.inv).lists p
  show (PF cfg db.rows p).Nodup
  rw [show PF cfg db.rows p = l.map Row.pk from e]
  unfold List.Nodup
  rw [List.pairwise_map]
  refine s.imp_of_mem ?_
  intro a b ha hb hab e'
  have := h.inv.pk_inj ((m a).1 ha).1 ((m b).1 hb).1 e'
  subst this
  exact plt_irrefl _ hab

theorem absS_added {s : STree} (ha : AbsS cfg db s) (hok : cfg.Ok) (h : Consistent cfg db) {db' : DB} {obj new : Row} {p : Option Nat}
    (hf : Fresh db new) (hadd : SortedAdded cfg db p new db' obj) : AbsS cfg db' (s.add cfg.orderBy p new.pk new.vals) := by
  obtain ⟨⟨sl, hadd'⟩, _, hs⟩ := hadd
  rw [valsOf_eq] at hs
  refine ShowsSTree.add ha (keys_of_forest hok h) ?_ hadd'.forest hadd'.data (forest_nodup hok hadd'.consistent p) hs
  intro hm
  obtain ⟨e, he, hk⟩ := List.mem_map.1 hm
  obtain ⟨r, hr, rfl⟩ := List.mem_map.1 he
  exact hf.1 r hr hk

end MP

/-- One operation with `node_order_by`: the table shows what the operation asked for, unless it raised PathOverflow. -/
theorem step_simS (hok : cfg.Ok) (ho : cfg.ordered = true) (h : Consistent cfg db) (hs : SortedTree cfg db) {op : Op}
    (hg : Guard cfg db op) {s : STree} (ha : MP.AbsS cfg db s) :
    MP.AbsS cfg (step cfg db op) (s.step cfg.orderBy op) ∨ exec cfg db op = .error .pathOverflow := by
  have ha' := ha.toAbs
  have hmem : ∀ k, k ∈ s.ids ↔ ∃ r, db.get? k = some r := fun k => ha'.mem h hok k
  cases op with
  | addRoot k v =>
    simp only [step, exec, STree.step]
    cases e : db.get? k with
    | some r => rw [if_pos ((hmem k).2 ⟨r, e⟩)]; exact Or.inl ha
    | none =>
      rw [if_neg (fun hk => by obtain ⟨r, e'⟩ := (hmem k).1 hk; rw [e] at e'; cases e')]
      rcases C16_add_root hok h ho hs (fresh_of e (v := v)) (hg ho) with ⟨db', obj, e', hadd⟩ | ⟨e', _⟩
      · rw [e']; exact Or.inl (MP.absS_added ha hok h (fresh_of e) hadd)
      · rw [e']; exact Or.inr rfl
  | addChild t k v =>
    simp only [step, exec, STree.step]
    cases e1 : db.get? t with
    | none =>
      rw [if_pos (Or.inr (fun hk => by obtain ⟨r, e'⟩ := (hmem t).1 hk; rw [e1] at e'; cases e'))]
      cases db.get? k <;> exact Or.inl ha
    | some target =>
      cases e : db.get? k with
      | some r => rw [if_pos (Or.inl ((hmem k).2 ⟨r, e⟩))]; exact Or.inl ha
      | none =>
        rw [if_neg (by
          rintro (hk | hk)
          · obtain ⟨r, e'⟩ := (hmem k).1 hk; rw [e] at e'; cases e'
          · exact hk ((hmem t).2 ⟨target, e1⟩))]
        dsimp only
        obtain ⟨ht, htk⟩ := row_of h hok e1
        rcases C16_add_child hok h ho hs ht rfl (fresh_of e (v := v)) (hg ho) with ⟨db', obj, t', e', hadd⟩ | ⟨e', _⟩
        · rw [e']
          rw [htk] at hadd
          exact Or.inl (MP.absS_added ha hok h (fresh_of e) hadd)
        · rw [e']; exact Or.inr rfl
  | addSibling t pos k v =>
    simp only [step, exec, STree.step]
    cases e1 : db.get? t with
    | none =>
      rw [if_pos (Or.inr (fun hk => by obtain ⟨r, e'⟩ := (hmem t).1 hk; rw [e1] at e'; cases e'))]
      cases db.get? k <;> exact Or.inl ha
    | some target =>
      cases e : db.get? k with
      | some r => rw [if_pos (Or.inl ((hmem k).2 ⟨r, e⟩))]; exact Or.inl ha
      | none =>
        rw [if_neg (by
          rintro (hk | hk)
          · obtain ⟨r, e'⟩ := (hmem k).1 hk; rw [e] at e'; cases e'
          · exact hk ((hmem t).2 ⟨target, e1⟩))]
        dsimp only
        obtain ⟨ht, htk⟩ := row_of h hok e1
        cases hp : preparePosForAddSibling true pos with
        | error er =>
          have : addSibling cfg db target pos ⟨k, [], 0, 0, v⟩ = .error er := by
            unfold addSibling; rw [ho, hp]
          rw [this]; exact Or.inl ha
        | ok q =>
          obtain ⟨p, hm, ⟨db', obj, e', hadd⟩ | ⟨e', _⟩⟩ :=
            C16_add_sibling hok h ho hs ht (prepAddSorted_arg hp).2 (fresh_of e (v := v)) (hg ho)
          · rw [e']
            rw [htk] at hm
            simp only
            rw [show s.parent t = p from ha'.parent h hok hm]
            exact Or.inl (MP.absS_added ha hok h (fresh_of e) hadd)
          · rw [e']; exact Or.inr rfl
  | move x t pos =>
    simp only [step, exec, STree.step]
    cases e1 : db.get? t with
    | none =>
      rw [if_pos (Or.inr (fun hk => by obtain ⟨r, e'⟩ := (hmem t).1 hk; rw [e1] at e'; cases e'))]
      cases db.get? x <;> exact Or.inl ha
    | some target =>
      cases e : db.get? x with
      | none =>
        rw [if_pos (Or.inl (fun hk => by obtain ⟨r, e'⟩ := (hmem x).1 hk; rw [e] at e'; cases e'))]
        exact Or.inl ha
      | some node =>
        rw [if_neg (by
          rintro (hk | hk)
          · exact hk ((hmem x).2 ⟨node, e⟩)
          · exact hk ((hmem t).2 ⟨target, e1⟩))]
        dsimp only
        obtain ⟨ht, htk⟩ := row_of h hok e1
        obtain ⟨hx, hxk⟩ := row_of h hok e
        cases hp : preparePosForMove true pos with
        | error er =>
          have : move cfg db node target pos = .error er := by
            unfold move; rw [ho, hp]
          rw [this]; exact Or.inl ha
        | ok q =>
          simp only
          by_cases hr : (forest cfg db).MoveRefused node.pk target.pk q
          · rw [C08_mp hok h hx ht (by rw [ho]; exact hp) hr]
            rw [hxk, htk, ha.forest] at hr
            rw [if_pos hr]
            exact Or.inl ha
          · obtain ⟨p, hm, hmv⟩ := C16_move hok h ho hs hx ht hp hr
            rw [htk] at hm
            rcases hmv with ⟨res, sl, e', hmv, hst, hat⟩ | ⟨e', _⟩
            · rw [hxk, htk, ha.forest] at hr
              rw [if_neg hr]
              rw [show s.parent t = p from ha'.parent h hok hm]
              rw [e']
              refine Or.inl ⟨?_, hmv.data.trans ha.data⟩
              refine hmv.forest.trans ?_
              have hnd := MP.forest_nodup hok hmv.consistent (q.dest p target.pk)
              rw [hmv.forest] at hnd hat
              rw [MP.valsOf_eq, hmv.data] at hat
              rw [move_sorted_slot hnd hat, hxk, htk, ha.forest, ha.data]
            · rw [e']; exact Or.inr rfl
  | delete S =>
    classical
    obtain ⟨D, hD, hc, hf, hd⟩ := C09_delete hok h S.contains
    have hids : ∀ k, k ∈ db.rows.map Row.pk ↔ k ∈ s.ids := ha'.ids
    refine Or.inl ⟨?_, ?_⟩
    · show forest cfg (delete cfg db (fun r => S.contains r.pk)) = _
      rw [hf]
      simp only [STree.step]
      rw [ha.forest]
      congr 1
      funext k
      rw [Bool.eq_iff_iff, hD, decide_eq_true_eq, hids, ha.forest]
    · show data (delete cfg db (fun r => S.contains r.pk)).rows = _
      rw [hd, ha.data]
      simp only [STree.step]
      apply List.filter_congr
      intro e he
      have hk : e.1 ∈ s.ids := List.mem_map_of_mem he
      congr 1
      rw [Bool.eq_iff_iff, hD, decide_eq_true_eq, hids, ha.forest]
      simp [hk]

/-- with `node_order_by`, the guard only excludes nulls -/
theorem guarded_sorted (ho : cfg.ordered = true) {ops : List Op} (hn : ∀ op ∈ ops, NoNulls cfg.orderBy op) (db : DB) : Guarded cfg db ops := by
  induction ops generalizing db with
  | nil => trivial
  | cons op ops ih =>
    refine ⟨?_, ih (fun o h => hn o (by simp [h])) _⟩
    have := hn op (by simp)
    cases op with
    | addRoot k v => exact fun _ => this
    | addChild t k v => exact fun _ => this
    | addSibling t pos k v => exact fun _ => this
    | move x t pos => exact fun h => by rw [ho] at h; cases h
    | delete S => trivial

/-- **C04 with `node_order_by`**: after every history in which no order field of a new node is null, with moves of every kind and however
full the siblings are, the table has no problems and every group of siblings is sorted. -/
theorem C04_history_sorted (hok : cfg.Ok) (ho : cfg.ordered = true) {ops : List Op} (hn : ∀ op ∈ ops, NoNulls cfg.orderBy op) {db : DB}
    (hdb : db = runOps cfg { rows := [] } ops) :
    (∀ p, findProblems cfg db none p = []) ∧ (db.rows.map Row.path).Nodup ∧ (db.rows.map Row.pk).Nodup ∧
    (∀ r ∈ db.rows, cfg.steplen < r.path.length → ∃ q ∈ db.rows, q.path = r.path.take (r.path.length - cfg.steplen)) ∧
    (forest cfg db).SortedBy cfg.orderBy (valsOf db) := by
  obtain ⟨h1, h2, h3, h4, h5⟩ := C04_history_partial hok (guarded_sorted ho hn _) hdb
  exact ⟨h1, h2, h3, h4, h5 ho⟩

/-- **C41 for MP, with `node_order_by`**: a history without nulls that does not run out of positions gives the
forest and the data that the specification `STree.run` gives. -/
theorem C41_mp_sorted (hok : cfg.Ok) (ho : cfg.ordered = true) {ops : List Op} (hn : ∀ op ∈ ops, NoNulls cfg.orderBy op)
    (hr : Roomy cfg { rows := [] } ops) : MP.AbsS cfg (runOps cfg { rows := [] } ops) (STree.run cfg.orderBy STree.empty ops) := by
  suffices ∀ (db : DB) (s : STree), HInv cfg db → MP.AbsS cfg db s → Guarded cfg db ops → Roomy cfg db ops →
      MP.AbsS cfg (runOps cfg db ops) (s.run cfg.orderBy ops) from
    this _ _ (HInv.empty cfg) ⟨by funext p; cases p <;> rfl, rfl⟩ (guarded_sorted ho hn _) hr
  clear hn hr
  induction ops with
  | nil => intro db s _ ha _ _; exact ha
  | cons op ops ih =>
    intro db s h ha hg hr
    rcases step_simS hok ho h.consistent (h.sorted ho) hg.1 ha with h2 | h2
    · exact ih _ _ (HInv.step hok h hg.1) h2 hg.2 hr.2
    · exact absurd h2 hr.1

/-- a sorted history: roots out of order, equal values, a move below another node, a deletion -/
def exSOps : List Op := [.addRoot 1 [some 5, some 0], .addRoot 2 [some 3, some 1], .addChild 1 3 [some 7, some 7],
  .addSibling 3 none 4 [some 7, some 7], .addSibling 3 none 5 [some 7, some 8], .move 2 3 (some .sortedChild), .delete [5]]

theorem exSOps_noNulls : ∀ op ∈ exSOps, NoNulls exCfgS.orderBy op := by
  have hn : ∀ a b, NonNull exCfgS.orderBy [some a, some b] := by
    intro a b e he
    simp only [exCfgS, List.mem_cons, List.not_mem_nil, or_false] at he
    rcases he with rfl | rfl <;> exact ⟨_, rfl⟩
  intro op hop
  simp only [exSOps, List.mem_cons, List.not_mem_nil, or_false] at hop
  rcases hop with rfl | rfl | rfl | rfl | rfl | rfl | rfl <;> first | exact hn _ _ | trivial

example : (∀ op ∈ exSOps, NoNulls exCfgS.orderBy op) ∧ Roomy exCfgS { rows := [] } exSOps ∧
    (runOps exCfgS { rows := [] } exSOps).rows.map (fun r => (r.pk, r.path)) =
      [(1, [50]), (2, [50, 50, 49]), (3, [50, 50]), (4, [50, 51])] :=
  ⟨exSOps_noNulls, by simp only [Roomy, exSOps]; decide, by decide⟩

end Verif
