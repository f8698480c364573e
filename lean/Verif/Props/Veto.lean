/-
C63: deletions that are refused change nothing, the others delete and count the doomed nodes.
-/
import Verif.VetoModel
import Verif.Props.MPDelete
import Verif.Props.NSTree
import Verif.Props.ALTree
import Verif.Props.LTTree

namespace Verif

theorem doomedKeys_eq {F : Forest} {keys : List Nat} {S : Nat → Bool} {D : Nat → Bool}
    (h : ∀ k, D k = true ↔ k ∈ keys ∧ Tree.Doomed F S k) : doomedKeys F keys S = keys.filter D := by
  classical
  unfold doomedKeys
  apply List.filter_congr
  intro k hk
  rw [Bool.eq_iff_iff, decide_eq_true_iff, h]
  exact ⟨fun hd => ⟨hk, hd⟩, fun hd => hd.2⟩

theorem eq_of_filter_not {l : List α} {p q : α → Bool} (h : l.filter (fun a => !p a) = l.filter (fun a => !q a)) {a : α} (ha : a ∈ l) : p a = q a := by
  have h1 : a ∈ l.filter (fun a => !p a) ↔ a ∈ l.filter (fun a => !q a) := by rw [h]
  rw [List.mem_filter, List.mem_filter] at h1
  cases hp : p a <;> cases hq : q a <;> simp [ha, hp, hq] at h1 ⊢

theorem ask_nil (veto : List Nat → Option Refusal) : ask veto [] = none := rfl

/-! ### NS -/

/-- **C63 for NS.** -/
theorem NS.C63_ns {db : NS.DB} (h : NS.Consistent db) (veto : List Nat → Option Refusal) (S : Nat → Bool) :
    NS.deleteV veto db (fun r => S r.pk) =
      answer veto (doomedKeys (NS.forest db) (db.rows.map NS.Row.pk) S) db (NS.delete db (fun r => S r.pk)) := by
  have hni := h.toNI
  rw [doomedKeys_eq (NS.doomed_spec hni S)]
  have hK : (db.rows.map NS.Row.pk).filter (NS.doomedPk db.rows (fun r => S r.pk)) =
      (db.rows.filter (fun r => (NS.removeRanges (NS.order (db.rows.filter (fun r => S r.pk))) none).any (fun g => NS.inRange g r))).map NS.Row.pk := by
    rw [List.filter_map]
    congr 1
    have hr := NS.removed_rows hni (fun r => S r.pk)
    rw [← NS.removeRanges_eq] at hr
    apply List.filter_congr
    intro r hm
    simp only [Function.comp]
    rw [NS.doomedPk_pk hni _ hm]
    exact (eq_of_filter_not hr hm).symm
  unfold NS.deleteV answer NS.delete NS.deleteStmts
  simp only
  rw [hK]
  split
  · rename_i he
    rw [List.isEmpty_iff] at he
    rw [he]
    simp [ask_nil]
  · cases ask veto _ <;> simp

/-! ### LT -/

/-- **C63 for LT.** -/
theorem LT.C63_lt {db : LT.DB} (h : LT.Consistent db) (veto : List Nat → Option Refusal) (S : Nat → Bool) :
    LT.deleteV veto db (fun r => S r.pk) =
      answer veto (doomedKeys (LT.forest db) (db.rows.map LT.Row.pk) S) db (LT.delete db (fun r => S r.pk)) := by
  have hi := (LT.consistent_iff.1 h)
  rw [doomedKeys_eq (LT.doomed_spec hi.inv S)]
  have hR := LT.removed_spec hi.inv (fun r => S r.pk)
  have hK : (db.rows.map LT.Row.pk).filter (LT.doomedPk db.rows (fun r => S r.pk)) =
      (db.rows.filter (fun r => (LT.removedLoop (LT.orderByPath (db.rows.filter (fun r => S r.pk))) []).any (fun p => p.isPrefixOf r.path))).map LT.Row.pk := by
    rw [List.filter_map]
    congr 1
    apply List.filter_congr
    intro r hr
    simp only [Function.comp]
    rw [LT.doomedPk_pk hi.inv _ hr, Bool.eq_iff_iff, hR.doomed_iff, List.any_eq_true]
    simp only [List.isPrefixOf_iff_prefix]
  unfold LT.deleteV answer LT.delete
  simp only
  rw [hK]
  split
  · rename_i he
    rw [List.isEmpty_iff] at he
    rw [he]
    simp [ask_nil]
  · cases ask veto _ <;> simp

/-! ### AL -/

/-- **C63 for AL**, with or without `node_order_by`. -/
theorem AL.C63_al {cfg : AL.Cfg} {db : AL.DB} (h : AL.Wf cfg db) (veto : List Nat → Option Refusal) (S : Nat → Bool) :
    AL.deleteV veto db (fun r => S r.pk) =
      answer veto (doomedKeys (AL.forest cfg db) (db.rows.map AL.Row.pk) S) db (AL.delete db (fun r => S r.pk)) := by
  have hgone : ∀ k, AL.gone db (fun r => S r.pk) k = true ↔ k ∈ db.rows.map AL.Row.pk ∧ Tree.Doomed (AL.forest cfg db) S k := by
    intro k
    rw [AL.forest_eq h.ai]
    exact AL.gone_iff h.ai S
  rw [doomedKeys_eq hgone]
  have hK : (db.rows.map AL.Row.pk).filter (AL.gone db (fun r => S r.pk)) = (db.rows.filter (fun r => AL.gone db (fun r => S r.pk) r.pk)).map AL.Row.pk := by
    rw [List.filter_map]; rfl
  unfold AL.deleteV answer AL.delete
  simp only
  rw [hK]
  unfold AL.gone
  cases ask veto _ <;> simp

/-! ### MP -/

namespace MP

variable {cfg : Cfg} {db : DB}

/-- the table when the children counts are written, but nothing is deleted -/
def lost (cfg : Cfg) (db : DB) (sel : Row → Bool) : DB :=
  ((deletePlan cfg (removedLoop cfg (orderByDepthPath (db.rows.filter sel)) []) ⟨[], [], []⟩).parents.map (fun e => DelStmt.lose e.1 e.2)).foldl execDel db

theorem lost_spec (hok : cfg.Ok) (h : Inv cfg db.rows) (sel : Row → Bool) : ∃ g R, Removed db.rows sel R ∧
    lost cfg db sel = { db with rows := db.rows.map g } ∧ OnlyNum g ∧
    (∀ r ∈ db.rows, doomed db.rows sel r = false → (g r).numchild = r.numchild - R.countP (fun n => decide (pp cfg.steplen n.path = r.path))) := by
  obtain ⟨E, R, rfl, hst, hcnt⟩ := deleteStmts_eq cfg db sel
  have hR := removed_spec h.toPInv hok sel
  obtain ⟨g, hg, og, ng⟩ := exec_lose E db
  have hE : lost cfg db sel = (E.map (fun e => DelStmt.lose e.1 e.2)).foldl execDel db := by
    unfold lost
    unfold deleteStmts at hst
    simp only at hst
    rw [(List.append_inj' hst rfl).1]
  refine ⟨g, _, hR, by rw [hE, hg], og, ?_⟩
  intro r hr hk
  have hne : r.path ≠ [] := by
    intro e
    have := (h.inv.len r hr).2
    have := hok.step
    rw [e] at *
    simp at *
    omega
  have hc : cntOf E r.path = (removedLoop cfg (orderByDepthPath (db.rows.filter sel)) []).countP
      (fun n => decide (pp cfg.steplen n.path = r.path)) := by
    rw [hcnt _ hne]
    apply List.countP_congr
    intro n hn
    rw [h.toPInv.basepath hok (hR.sub n hn).1]
  rw [ng r, hc]
  rw [hc]
  have := prune_counts h hok hR hr hk
  omega

theorem deletePlan_roots : ∀ (R : List Row) (plan : DeletePlan), (∀ n ∈ R, basepath cfg n.path ((n.depth : Int) - 1) = []) →
    (deletePlan cfg R plan).parents = plan.parents := by
  intro R
  induction R with
  | nil => intro plan _; rfl
  | cons n R ih =>
    intro plan hr
    unfold deletePlan
    simp only
    rw [ih _ (fun m hm => hr m (List.mem_cons_of_mem _ hm))]
    simp only [hr n (by simp), ne_eq, not_true_eq_false, if_false]
    split <;> rfl

/-- What is left of a consistent table by a refused deletion: everything but the children counts is as before, `fix_tree` gives the
old table back, and unless all the chosen branches are whole trees the table is not consistent. -/
structure Lost (cfg : Cfg) (db db' : DB) (S : Nat → Bool) : Prop where
  skeleton : skeleton db'.rows = skeleton db.rows
  sigs : db'.sigs = db.sigs
  repair : (fixTree cfg db' none).rows = db.rows
  roots : (∀ p k, k ∈ forest cfg db (some p) → Tree.Doomed (forest cfg db) S k → Tree.Doomed (forest cfg db) S p) → db' = db
  broken : (∃ p k, k ∈ forest cfg db (some p) ∧ Tree.Doomed (forest cfg db) S k ∧ ¬ Tree.Doomed (forest cfg db) S p) → ¬ Consistent cfg db'

/-- **C63 for MP** (partial: a refused deletion leaves wrong children counts behind, unless whole trees were chosen). -/
theorem C63_mp_partial (hok : cfg.Ok) (h : Consistent cfg db) (veto : List Nat → Option Refusal) (S : Nat → Bool) :
    ∃ db', Lost cfg db db' S ∧ deleteV veto cfg db (fun r => S r.pk) =
      answer veto (doomedKeys (forest cfg db) (db.rows.map Row.pk) S) db' (delete cfg db (fun r => S r.pk)) := by
  have hi := (consistent_iff hok).1 h
  obtain ⟨g, R, hR, hg, og, ng⟩ := lost_spec hok hi (fun r => S r.pk)
  refine ⟨lost cfg db (fun r => S r.pk), ⟨?_, by rw [hg], fixTree_onlyNum hok hi og (by rw [hg]), ?_, ?_⟩, ?_⟩
  · rw [hg]
    unfold Verif.skeleton
    simp only
    rw [List.map_map]
    apply List.map_congr_left
    intro r _
    simp only [Function.comp, og.pk, og.path, og.depth, og.vals]
  · intro hall
    unfold lost
    rw [deletePlan_roots]
    · rfl
    have hR := removed_spec hi.toPInv hok (fun r => S r.pk)
    intro n hn
    have hn' := (hR.sub n hn).1
    rw [hi.toPInv.basepath hok hn']
    by_contra hne
    have hlen : cfg.steplen < n.path.length := by
      by_contra hc
      apply hne
      unfold pp
      rw [List.take_eq_nil_iff]
      left; omega
    obtain ⟨q, hq, e⟩ := hi.inv.closed n hn' hlen
    have hmem : n.pk ∈ forest cfg db (some q.pk) := by
      rw [forest_eq hi hok]
      exact (mem_PF hi.toPInv).2 ⟨n, hn', (parOf_eq_some hi.inv).2 ⟨q, hq, e, rfl⟩, rfl⟩
    have hd := hall _ _ hmem (Or.inl (hR.sub n hn).2)
    have hdq := (doomed_spec hok hi S q.pk).2 ⟨List.mem_map_of_mem hq, hd⟩
    rw [doomedPk_pk hi.toPInv _ hq] at hdq
    obtain ⟨m, hm, hp⟩ := hR.doomed_iff.1 hdq
    have hpp : pp cfg.steplen n.path <+: n.path := List.take_prefix _ _
    have := hR.anti m hm n hn ((hp.trans (e ▸ List.prefix_refl _)).trans hpp)
    subst this
    have hl := hp.length_le
    rw [e] at hl
    unfold pp at hl
    rw [List.length_take] at hl
    have := hok.step
    omega
  · rintro ⟨p, k, hk, hd, hp⟩ hc
    have h1 := fixTree_onlyNum hok ((consistent_iff hok).1 hc) .id (db' := lost cfg db (fun r => S r.pk)) (by simp)
    rw [fixTree_onlyNum hok hi og (by rw [hg]), hg] at h1
    simp only at h1
    rw [forest_eq hi hok] at hk
    obtain ⟨n, hn, hpar, rfl⟩ := (mem_PF hi.toPInv).1 hk
    obtain ⟨q, hq, e, rfl⟩ := (parOf_eq_some hi.inv).1 hpar
    have hdn := (doomed_spec hok hi S n.pk).2 ⟨List.mem_map_of_mem hn, hd⟩
    rw [doomedPk_pk hi.toPInv _ hn] at hdn
    have hdq : doomed db.rows (fun r => S r.pk) q = false := by
      rw [Bool.eq_false_iff]
      intro hdq
      exact hp ((doomed_spec hok hi S q.pk).1 (by rw [doomedPk_pk hi.toPInv _ hq]; exact hdq)).2
    have hnum := ng q hq hdq
    have hsame : g q = q := by
      have : ∀ (l : List Row), l = l.map g → ∀ r ∈ l, g r = r := by
        intro l
        induction l with
        | nil => intro _ r hr; cases hr
        | cons a l ih =>
          intro he r hr
          rw [List.map_cons, List.cons.injEq] at he
          rcases List.mem_cons.1 hr with rfl | hr
          · exact he.1.symm
          · exact ih he.2 r hr
      exact this _ h1 q hq
    rw [hsame] at hnum
    have hpos : 0 < R.countP (fun n => decide (pp cfg.steplen n.path = q.path)) := by
      rw [List.countP_pos_iff]
      obtain ⟨m, hm, hmp⟩ := hR.doomed_iff.1 hdn
      by_cases hmn : m = n
      · subst hmn
        exact ⟨m, hm, by simpa using e.symm⟩
      · have := prefix_pp hi.inv (hR.sub m hm).1 hn hmp hmn
        rw [← e] at this
        rw [Bool.eq_false_iff] at hdq
        exact absurd (hR.doomed_iff.2 ⟨m, hm, this⟩) hdq
    omega
  · rw [doomedKeys_eq (doomed_spec hok hi S)]
    have hR := removed_spec hi.toPInv hok (fun r => S r.pk)
    have hpl := deletePlan_spec (cfg := cfg) (removedLoop cfg (orderByDepthPath (db.rows.filter (fun r => S r.pk))) []) ⟨[], [], []⟩
    obtain ⟨e1, e2, -⟩ := hpl
    have hK : (db.rows.map Row.pk).filter (doomedPk db.rows (fun r => S r.pk)) =
        ((lost cfg db (fun r => S r.pk)).rows.filter (delMatches
          (deletePlan cfg (removedLoop cfg (orderByDepthPath (db.rows.filter (fun r => S r.pk))) []) ⟨[], [], []⟩).pks
          (deletePlan cfg (removedLoop cfg (orderByDepthPath (db.rows.filter (fun r => S r.pk))) []) ⟨[], [], []⟩).paths)).map Row.pk := by
      rw [hg, List.filter_map, List.filter_map, List.map_map, e1, e2]
      have hmap : (Row.pk ∘ g) = Row.pk := by funext r; exact og.pk r
      rw [hmap]
      congr 1
      apply List.filter_congr
      intro r hr
      simp only [Function.comp, List.nil_append]
      rw [doomedPk_pk hi.toPInv _ hr, Bool.eq_iff_iff, hR.doomed_iff, ← delMatches_iff hi hok (fun n hn => (hR.sub n hn).1) hr]
      unfold delMatches
      rw [og.pk, og.path]
    have hdel : delete cfg db (fun r => S r.pk) = execDel (lost cfg db (fun r => S r.pk)) (.delete
          (deletePlan cfg (removedLoop cfg (orderByDepthPath (db.rows.filter (fun r => S r.pk))) []) ⟨[], [], []⟩).pks
          (deletePlan cfg (removedLoop cfg (orderByDepthPath (db.rows.filter (fun r => S r.pk))) []) ⟨[], [], []⟩).paths) := by
      unfold delete deleteStmts lost
      rw [List.foldl_append]
      rfl
    rw [hK, hdel]
    unfold deleteV answer
    simp only
    rw [show ((deletePlan cfg (removedLoop cfg (orderByDepthPath (db.rows.filter (fun r => S r.pk))) []) ⟨[], [], []⟩).parents.map
      (fun e => DelStmt.lose e.1 e.2)).foldl execDel db = lost cfg db (fun r => S r.pk) from rfl]
    cases ask veto _ <;> rfl

/-- **C63 fails for MP.** The only child of node 3 is protected.  Deleting it is refused, but node 3 is a leaf now: its child is shown no longer, and
`add_child` below it raises `IntegrityError`, as the path of the first child is taken. -/
theorem C63_mp_refused : Consistent exCfg exDB ∧
    ∃ db', deleteV (fun _ => some .protect) exCfg exDB (fun r => [4].contains r.pk) = (db', .error .protect) ∧
      4 ∈ db'.rows.map Row.pk ∧ forest exCfg exDB (some 3) = [4] ∧ forest exCfg db' (some 3) = [] ∧ findProblems exCfg db' none .wrongNumchild = [3] ∧
      ∀ node ∈ db'.rows, node.pk = 3 → addChild exCfg db' node ⟨9, [], 0, 0, []⟩ = .error .integrity := by
  refine ⟨exDB_consistent, _, rfl, by decide, by decide, by decide, by decide, by decide⟩

/-- refused, done, and nothing to do -/
example : Consistent exCfg exDB ∧
    deleteV (fun K => if K.contains 4 then some .protect else none) exCfg exDB (fun r => [1].contains r.pk) = (exDB, .error .protect) ∧
    (deleteV (fun K => if K.contains 2 then some .protect else none) exCfg exDB (fun r => [3, 4].contains r.pk)).2 = .ok 2 ∧
    deleteV (fun _ => some .handler) exCfg exDB (fun r => [77].contains r.pk) = (exDB, .ok 0) :=
  ⟨exDB_consistent, by decide, by decide, by decide⟩

end MP

example : NS.Consistent NS.exDB ∧ NS.deleteV (fun K => if K.contains 4 then some .restrict else none) NS.exDB (fun r => [3].contains r.pk) = (NS.exDB, .error .restrict) ∧
    (NS.deleteV (fun K => if K.contains 2 then some .protect else none) NS.exDB (fun r => [3, 4, 5].contains r.pk)).2 = .ok 3 :=
  ⟨NS.exDB_inv, by decide, by decide⟩

example : LT.Consistent LT.exDB ∧ LT.deleteV (fun K => if K.contains 4 then some .restrict else none) LT.exDB (fun r => [3].contains r.pk) = (LT.exDB, .error .restrict) ∧
    (LT.deleteV (fun K => if K.contains 2 then some .protect else none) LT.exDB (fun r => [3, 4, 5].contains r.pk)).2 = .ok 3 :=
  ⟨LT.consistent_iff.2 LT.exDB_inv, by decide, by decide⟩

example : AL.Wf AL.exPlain AL.exDB ∧ AL.deleteV (fun K => if K.contains 4 then some .restrict else none) AL.exDB (fun r => [3].contains r.pk) = (AL.exDB, .error .restrict) ∧
    (AL.deleteV (fun K => if K.contains 2 then some .protect else none) AL.exDB (fun r => [3, 4, 5].contains r.pk)).2 = .ok 3 :=
  ⟨(AL.consistent_of_inv rfl AL.exDB_inv).toWf, by decide, by decide⟩

end Verif
