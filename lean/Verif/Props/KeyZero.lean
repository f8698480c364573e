/-
C66: primary keys that count as false.
-/
import Verif.AL.Zero
import Verif.AL.Example
import Verif.Props.ALQuery

namespace Verif.AL

variable {cfg : Cfg} {db : DB}

/-- the answers of the AL backend for a freshly fetched node `x`, with `get_siblings` as it is -/
def alNav0 (cfg : Cfg) (db : DB) (x : Row) : NavAnswers :=
  { alNav cfg db x with
    siblings := .ok ((siblings0 cfg db x).map Row.pk)
    firstSibling := .ok ((firstSibling0 cfg db x).map Row.pk)
    lastSibling := .ok ((lastSibling0 cfg db x).map Row.pk)
    prev := (prevSibling0 cfg db x).map (fun o => o.map Row.pk)
    next := (nextSibling0 cfg db x).map (fun o => o.map Row.pk) }

theorem not_zero (h : AI db.rows) {t : Row} (ht : t ∈ db.rows) (hz : t.pk ∉ forest cfg db (some 0)) : t.parent ≠ some 0 :=
  fun e => hz ((mem_forest h ht).2 e)

/-- **C66 (partial: no child of a node with the key 0), queries.** -/
theorem C66_al_nav_partial (ho : cfg.ordered = false) (h : Consistent cfg db) {x : Row} (hx : x ∈ db.rows)
    (hz : x.pk ∉ forest cfg db (some 0)) : NavSpec (forest cfg db) x.pk (alNav0 cfg db x) := by
  have e := not_zero h.toWf.ai hx hz
  have : alNav0 cfg db x = alNav cfg db x := by
    simp only [alNav0, firstSibling0, lastSibling0, prevSibling0, nextSibling0, siblings0_eq e]
    rfl
  rw [this]
  exact C32_nav ho h hx

/-- **C66 (partial: the target is no child of a node with the key 0), `add_sibling`.** -/
theorem C66_al_add_sibling_partial (ho : cfg.ordered = false) (h : Consistent cfg db) {t : Row} (ht : t ∈ db.rows)
    (hz : t.pk ∉ forest cfg db (some 0)) {posArg : Option Pos} {pos : Pos}
    (hpos : preparePosForAddSibling false posArg = .ok pos) {new : Row} (hf : Fresh db new) :
    ∃ p, t.pk ∈ forest cfg db p ∧ ∃ db' obj, addSibling0 cfg db t posArg new = .ok (db', obj) ∧
      AddedAt cfg db db' obj new p (sibAsked t.pk pos) := by
  rw [addSibling0_eq (not_zero h.toWf.ai ht hz)]
  exact C31_add_sibling ho h ht hpos hf

/-- **C66 (partial: the node does not go next to or above a child of a node with the key 0), `move`.** -/
theorem C66_al_move_partial (ho : cfg.ordered = false) (h : Consistent cfg db) {x t : Row} (hx : x ∈ db.rows) (ht : t ∈ db.rows)
    (hz : t.pk ∉ forest cfg db (some 0)) {cached : Option Int} {posArg : Option Pos} {pos : Pos}
    (hpos : preparePosForMove false posArg = .ok pos) (hk : isChildPos pos = true → t.pk ≠ 0)
    (hr : ¬ (forest cfg db).MoveRefused x.pk t.pk pos) :
    ∃ p, t.pk ∈ forest cfg db p ∧ ∃ db' obj, move0 cfg db x t cached posArg = .ok (db', obj) ∧
      MovedTo cfg db db' obj x ((forest cfg db).moveAsked x.pk p t.pk pos) := by
  rw [move0_eq (not_zero h.toWf.ai ht hz) (by
    intro q hq
    rw [ho, hpos] at hq
    cases hq
    exact hk)]
  exact C31_move ho h hx ht hpos hr

/-- **C66 fails for `get_siblings`** of every child of a node with the key 0: the answer is the list of the root nodes, and never contains the
node itself, although `is_sibling_of` of the node and itself is true. -/
theorem C66_al_siblings_zero (h : Wf cfg db) {x : Row} (hx : x ∈ db.rows) (hz : x.pk ∈ forest cfg db (some 0)) :
    (alNav0 cfg db x).siblings = .ok (forest cfg db none) ∧ x.pk ∉ forest cfg db none ∧ x.isSiblingOf x = true := by
  have e := (mem_forest h.ai hx).1 hz
  refine ⟨?_, fun hn => ?_, by simp [Row.isSiblingOf]⟩
  · rw [forest_eq h.ai]
    simp only [alNav0, siblings0, sibKey, e]
    rfl
  · rw [mem_forest h.ai hx, e] at hn
    cases hn

/-! ### Witnesses and examples -/

/-- 0 is the only root and has the children 1, 2, 3 -/
def exZero : DB := ⟨[⟨0, none, 1, []⟩, ⟨1, some 0, 1, []⟩, ⟨2, some 0, 2, []⟩, ⟨3, some 0, 3, []⟩]⟩

theorem exZero_consistent : Consistent exPlain exZero :=
  ⟨wf_of_ai (cfg := exPlain) (ai_example id (by decide) (by decide)), by decide, by decide⟩

/-- **C66 fails for `add_sibling`**: next to a child of the node with the key 0 the new node gets a position from the root nodes.  It
does not become the last sibling, and two siblings share a position. -/
theorem C66_al_add_zero : ∃ db t new, Consistent exPlain db ∧ t ∈ db.rows ∧ Fresh db new ∧
    ∃ db' obj, addSibling0 exPlain db t (some .lastSibling) new = .ok (db', obj) ∧
      forest exPlain db' (some 0) ≠ forest exPlain db (some 0) ++ [new.pk] ∧ ¬ Consistent exPlain db' :=
  ⟨exZero, ⟨2, some 0, 2, []⟩, ⟨9, none, 0, []⟩, exZero_consistent, by decide, by unfold Fresh; decide,
    ⟨exZero.rows ++ [⟨9, some 0, 2, []⟩]⟩, ⟨9, some 0, 2, []⟩, by decide, by decide,
    fun h => absurd (h.clash ⟨2, some 0, 2, []⟩ (by decide) ⟨9, some 0, 2, []⟩ (by decide) (by decide) rfl) (by decide)⟩

/-- **C66 fails for `move`**: `move(node, 0, "last-child")` does not make the node the last child of 0. -/
theorem C66_al_move_zero : ∃ db x t, Consistent exPlain db ∧ x ∈ db.rows ∧ t ∈ db.rows ∧
    ¬ (forest exPlain db).MoveRefused x.pk t.pk .lastChild ∧
    ∃ db' obj, move0 exPlain db x t none (some .lastChild) = .ok (db', obj) ∧
      (forest exPlain db' (some t.pk)).getLast? ≠ some x.pk := by
  refine ⟨exZero, ⟨1, some 0, 1, []⟩, ⟨0, none, 1, []⟩, exZero_consistent, by decide, by decide, ?_,
    ⟨[⟨0, none, 1, []⟩, ⟨1, some 0, 2, []⟩, ⟨2, some 0, 2, []⟩, ⟨3, some 0, 3, []⟩]⟩, ⟨1, some 0, 2, []⟩, by decide, by decide⟩
  rw [forest_eq exZero_consistent.toWf.ai]
  rintro (hd | ⟨_, e⟩)
  · obtain ⟨c, hc, _⟩ := hd.cases_head
    revert hc
    rw [show PF exPlain exZero.rows (some 1) = [] from by decide]
    simp
  · cases e

/-- the hypotheses of the partial theorems: the key 0 is in use, but 0 is a leaf (a root next to 1, whose children are 2 and 3) -/
example : ∃ db, Consistent exPlain db ∧ (0 ∈ db.rows.map Row.pk) ∧
    (∃ x ∈ db.rows, x.pk ∉ forest exPlain db (some 0) ∧ (alNav0 exPlain db x).siblings = .ok [2, 3]) :=
  ⟨⟨[⟨0, none, 1, []⟩, ⟨1, none, 2, []⟩, ⟨2, some 1, 1, []⟩, ⟨3, some 1, 3, []⟩]⟩,
    ⟨wf_of_ai (cfg := exPlain) (ai_example id (by decide) (by decide)), by decide, by decide⟩, by decide,
    ⟨3, some 1, 3, []⟩, by decide, by decide, by decide⟩

/-- the hypotheses of `C66_al_siblings_zero`: `get_siblings` of 2 gives `[0]` -/
example : (2 ∈ forest exPlain exZero (some 0)) ∧ (alNav0 exPlain exZero ⟨2, some 0, 2, []⟩).siblings = .ok [0] := by decide

end Verif.AL
