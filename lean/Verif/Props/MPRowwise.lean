/-
C59: MP on a database that looks at the constraints after every row.

Spec: `renameRows` changes one row after the other and fails as soon as two paths are equal; `addNumchildR` fails if a count becomes negative.  On a
consistent table the constraints are never in the way: whatever the order in which the database takes the rows, each call does what it does where
the constraints are looked at after the statement, and so all the other theorems on MP apply.
-/
import Verif.MP.Rowwise
import Verif.Props.MPMove

namespace Verif

open MP

variable {cfg : Cfg} {db : DB} {ord : List Row → List Row}

/-- the database takes every row once, in any order -/
def TakesAll (ord : List Row → List Row) : Prop := ∀ l, (ord l).Perm l

theorem rowwise_sibling (hok : cfg.Ok) (hord : TakesAll ord) (h : Inv cfg db.rows) {target : Row} (ht : target ∈ db.rows) (pos : Option Pos) (new : Row) :
    addSiblingE (.rowwise ord cfg) cfg db target pos new = addSibling cfg db target pos new := by
  have hnn : ∀ r ∈ db.rows, 0 ≤ r.numchild := fun r hr => by have := h.num r hr; omega
  refine addSiblingE_eq (fun _ _ _ hs => (reorderE_rowwise_add hok hord h.toPInv hnn ht _ _ _ hs).1) ?_
  intro _ _ _ db' o np hs e p
  have hpost := (reorderE_rowwise_add hok hord h.toPInv hnn ht _ _ _ hs).2 db' o np e
  simp only [Engine.rowwise]
  unfold addNumchildR
  rw [if_neg]
  rw [List.any_eq_true]
  rintro ⟨r, hr, hc⟩
  rw [Bool.and_eq_true, decide_eq_true_eq] at hc
  have := hpost.nonneg r hr
  omega

/-- **C59** Adding nodes. -/
theorem C59_add (hok : cfg.Ok) (hord : TakesAll ord) (h : MP.Consistent cfg db) (new : Row) :
    addRootE (.rowwise ord cfg) cfg db new = addRoot cfg db new ∧
    (∀ target, addChildE (.rowwise ord cfg) cfg db target new = addChild cfg db target new) ∧
    (∀ target ∈ db.rows, ∀ pos, addSiblingE (.rowwise ord cfg) cfg db target pos new = addSibling cfg db target pos new) := by
  have h := (consistent_iff (db := db) hok).1 h
  exact ⟨addRootE_eq fun t ht => rowwise_sibling hok hord h ht _ _, fun target => addChildE_eq fun t ht => rowwise_sibling hok hord h ht _ _,
    fun t ht pos => rowwise_sibling hok hord h ht pos _⟩

/-- **C59** Moving (partial: under `MoveFits`, as C07; `C59_cramped` shows that it is needed).  With `node_order_by`, the values of the moved node are
not null. -/
theorem C59_move_partial (hok : cfg.Ok) (hord : TakesAll ord) (h : MP.Consistent cfg db) {x t : Row} (hx : x ∈ db.rows) (ht : t ∈ db.rows)
    (hv : cfg.ordered = true → NonNull cfg.orderBy x.vals) {posArg : Option Pos}
    (hfit : ∀ pos p, preparePosForMove cfg.ordered posArg = .ok pos → t.pk ∈ forest cfg db p → MoveFits cfg db x.pk p t.pk pos) :
    moveE (.rowwise ord cfg) cfg db x t posArg = move cfg db x t posArg := by
  have h := (consistent_iff (db := db) hok).1 h
  refine moveE_eq ht ?_
  rintro v ⟨pos, v0, hprep, e0, e1⟩ _ _ hdv hnv
  have hroom := moveRoom_of hok h hx ht (hfit pos _ hprep (mem_forest_par hok h ht))
  have hargs : ∃ P, MoveArgs cfg db x P v.pos v.newpos v.newdepth v.target v.sibs := by
    have hnv : ¬ moveNoop cfg db x v = true := by rw [hnv]; simp
    -- a position among siblings
    have hsib : ∀ s ∈ db.rows, ¬ s.isDescendantOf x = true → ∀ q, isChildPos q = false → MoveRoom cfg db.rows x s q →
        (cfg.ordered = true → q = .sortedSibling) → (cfg.ordered = false → q ≠ .sortedSibling) →
        moveSorted cfg db x ⟨s, s.depth, [], none, q⟩ = .ok (some v) →
        ∃ P, MoveArgs cfg db x P v.pos v.newpos v.newdepth v.target v.sibs := by
      intro s hs hd q hq hr hq1 hq2 e
      cases ho : cfg.ordered with
      | true =>
        have := hq1 ho
        subst this
        exact ⟨_, (moveArgs_sorted hok h hx hs hd ho (hv ho) hr e hnv).2⟩
      | false =>
        have := hq2 ho
        simp only [moveSorted, this, if_false, Except.ok.injEq, Option.some.injEq] at e
        subst e
        exact ⟨_, moveArgs_sib hok h hx hs hd hnv hr hq⟩
    have hq1 : cfg.ordered = true → pos = .sortedSibling ∨ pos = .sortedChild := fun ho => sorted_of_prep (ho ▸ hprep)
    have hq2 : cfg.ordered = false → isPlainPos pos = true := fun ho => plain_of_prep (ho ▸ hprep)
    rcases moveToChildVars_spec hok h hx ht pos with ⟨hr, e | ⟨v', e, hd⟩⟩ | ⟨hr, hc, e, hd⟩ |
      ⟨hr, hc, hleaf, hne, e, hd⟩ | ⟨hr, hc, last, hlm, hlp, e, hd⟩
    · rw [e] at e0; cases e0
    · rw [e, Except.ok.injEq] at e0
      subst e0
      rw [moveSorted_target e1] at hdv
      rw [hd] at hdv
      cases hdv
    · rw [e, Except.ok.injEq] at e0
      subst e0
      refine hsib t ht hd pos hc hroom (fun ho => ?_) (fun ho => ?_) e1
      · rcases hq1 ho with e | e
        · exact e
        · rw [e] at hc; cases hc
      · rintro rfl
        have := hq2 ho
        simp [isPlainPos] at this
    · rw [e, Except.ok.injEq] at e0
      subst e0
      simp only [moveSorted, reduceCtorEq, if_false, Except.ok.injEq, Option.some.injEq] at e1
      subst e1
      exact ⟨_, moveArgs_leaf hok h hx ht hd hne⟩
    · rw [e, Except.ok.injEq] at e0
      subst e0
      have hdp : destPath cfg pos t = pp cfg.steplen last.path := by simp [destPath, hc, hlp]
      refine hsib last hlm hd (childToSib pos) (by cases pos <;> rfl) ?_ (fun ho => ?_) (fun ho => ?_) e1
      · unfold MoveRoom
        have hdq : destPath cfg (childToSib pos) last = destPath cfg pos t := by
          rw [hdp]; cases pos <;> rfl
        rw [hdq]
        refine fun h1 h2 => hroom h1 ?_
        cases pos with
        | firstChild => obtain ⟨z, h3, h4, h5⟩ := h2; exact ⟨z, h3, by rw [h4]; exact hdq, h5⟩
        | lastChild => exact h2.elim
        | sortedChild => obtain ⟨z, h3, h4, h5⟩ := h2; exact ⟨z, h3, by rw [h4]; exact hdq, h5⟩
        | _ => cases hc
      · rcases hq1 ho with e | e
        · rw [e] at hc; cases hc
        · rw [e]; rfl
      · have := hq2 ho
        cases pos <;> simp_all [isPlainPos, isChildPos, childToSib]
  obtain ⟨P, ha⟩ := hargs
  obtain ⟨h1, h2⟩ := reorderE_rowwise_move hok hord h hx ha
  refine ⟨h1, fun db' old new e => ?_⟩
  obtain ⟨hpost, o, rfl⟩ := h2 db' old new e
  exact updateParentCountsE_rowwise hok hpost.path hpost.nonneg (hpost.track o rfl) new

/-- every statement of `delete` keeps the counts from being negative (`Greatest`, mp_tree.py:74) -/
theorem C59_delete (db : DB) (hnn : ∀ r ∈ db.rows, 0 ≤ r.numchild) (st : DelStmt) : ∀ r ∈ (execDel db st).rows, 0 ≤ r.numchild := by
  cases st with
  | lose path n =>
    intro r hr
    obtain ⟨q, hq, rfl⟩ := List.mem_map.1 hr
    split
    · exact le_max_right _ _
    · exact hnn q hq
  | delete pks paths =>
    intro r hr
    exact hnn r (List.mem_filter.1 hr).1

/-- roots at the positions 2, 5 and 9 of 9; the second has a child -/
def crampedDb : DB := ⟨[⟨1, [50], 1, 0, []⟩, ⟨2, [53], 1, 1, []⟩, ⟨3, [53, 49], 2, 0, []⟩, ⟨4, [57], 1, 0, []⟩], []⟩

theorem cramped_consistent : MP.Consistent exCfg crampedDb :=
  ⟨by decide, by decide, by intro p; cases p <;> decide, by decide, by decide⟩

/-- **C59** Without room for the temporary place the call may fail: node 2 goes to the first place by way of "11", and when its child goes from "111"
to "11" before its parent has left that place, the constraint is violated, although the statement as a whole would be right. -/
theorem C59_cramped : MP.Consistent exCfg crampedDb ∧ TakesAll List.reverse ∧
    (∃ res, move exCfg crampedDb ⟨2, [53], 1, 1, []⟩ ⟨1, [50], 1, 0, []⟩ (some .firstSibling) = .ok res ∧
      forest exCfg res.db none = [2, 1, 4] ∧ forest exCfg res.db (some 2) = [3]) ∧
    moveE (.rowwise List.reverse exCfg) exCfg crampedDb ⟨2, [53], 1, 1, []⟩ ⟨1, [50], 1, 0, []⟩ (some .firstSibling) = .error .integrity :=
  ⟨cramped_consistent, fun l => l.reverse_perm, ⟨_, rfl, by decide, by decide⟩, by rfl⟩

/-- the node with a child goes to the left, row by row from the end -/
example : MP.Consistent exCfg exDB ∧ (∀ p, 2 ∈ forest exCfg exDB p → MoveFits exCfg exDB 3 p 2 .left) ∧
    (∃ res, moveE (.rowwise List.reverse exCfg) exCfg exDB ⟨3, [49, 51], 2, 1, []⟩ ⟨2, [49, 49], 2, 0, []⟩ (some .left) = .ok res ∧
      forest exCfg res.db (some 1) = [3, 2] ∧ forest exCfg res.db (some 3) = [4]) := by
  refine ⟨exDB_consistent, ?_, ⟨_, rfl, by decide, by decide⟩⟩
  intro p _ _ _ r hr _ n hn
  simp only [exDB, List.mem_cons, List.not_mem_nil, or_false] at hr
  rcases hr with rfl | rfl | rfl | rfl | rfl <;> (revert hn; simp [lastpos, lastStep, exCfg, NumConv.str2int, NumConv.str2intLoop, NumConv.digit, List.range', List.findIdx?_cons]; rintro rfl; decide)

/-- an UPDATE that is not of this kind does depend on the order: moving "1" below itself -/
example : (setNewpathR id exCfg ⟨[⟨1, [49], 1, 1, []⟩, ⟨2, [49, 49], 2, 0, []⟩], []⟩ [49] [49, 49]).toOption = none ∧
    ((setNewpathR List.reverse exCfg ⟨[⟨1, [49], 1, 1, []⟩, ⟨2, [49, 49], 2, 0, []⟩], []⟩ [49] [49, 49]).toOption.map (·.rows.map Row.path)) =
      some [[49, 49], [49, 49, 49]] := by decide

end Verif
