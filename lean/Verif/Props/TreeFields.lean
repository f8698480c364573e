/-
C56: the values that the caller gives for the fields of the tree.
-/
import Verif.Props.MPAdd
import Verif.Props.NSTree
import Verif.Props.ALTree
import Verif.Props.LTTree
import Verif.MP.Example
import Verif.NS.Example
import Verif.AL.Example
import Verif.LT.Example

namespace Verif

namespace MP
variable {cfg : Cfg} {db : DB}

/-- the same key, children count and data: the rows differ at most in `path` and `depth` -/
def SameButPlace (a b : Row) : Prop := a.pk = b.pk ∧ a.numchild = b.numchild ∧ a.vals = b.vals

theorem addSibling_place {a b : Row} (h : SameButPlace a b) (target : Row) (pos : Option Pos) :
    addSibling cfg db target pos a = addSibling cfg db target pos b := by
  unfold addSibling finishAddSibling sortedPos
  simp only [h.1, h.2.1, h.2.2]

theorem addRoot_place {a b : Row} (h : SameButPlace a b) : addRoot cfg db a = addRoot cfg db b := by
  unfold addRoot
  simp only [h.1, h.2.1, h.2.2, addSibling_place h]

theorem addChild_place {a b : Row} (h : SameButPlace a b) (target : Row) : addChild cfg db target a = addChild cfg db target b := by
  unfold addChild
  simp only [h.1, h.2.1, h.2.2, addSibling_place h]

/-- **C56 for MP** (partial: `numchild` must be left alone, see `C56_mp_numchild`).  Whatever values for `path` and `depth` the new
object carries, every addition does exactly the same, on every table. -/
theorem C56_mp_partial {a b : Row} (h : SameButPlace a b) :
    addRoot cfg db a = addRoot cfg db b ∧ (∀ target, addChild cfg db target a = addChild cfg db target b) ∧
    ∀ target pos, addSibling cfg db target pos a = addSibling cfg db target pos b :=
  ⟨addRoot_place h, addChild_place h, addSibling_place h⟩

example : SameButPlace ⟨9, [49, 49], 7, 0, []⟩ ⟨9, [], 0, 0, []⟩ ∧ ∃ db' obj, addRoot exCfg exDB ⟨9, [49, 49], 7, 0, []⟩ = .ok (db', obj) ∧
    obj.path ≠ [49, 49] := ⟨⟨rfl, rfl, rfl⟩, _, _, rfl, by decide⟩

/-- **C56 fails for MP**: `numchild` is stored as given, although the new node has no children, and the table is then
inconsistent; the same in `add_root`, `add_child` and `add_sibling`. -/
theorem C56_mp_numchild : Consistent exCfg exDB ∧
    (∃ db' obj, addRoot exCfg exDB ⟨9, [], 0, 5, []⟩ = .ok (db', obj) ∧ ¬ Consistent exCfg db' ∧ obj.numchild = 5 ∧ forest exCfg db' (some 9) = []) ∧
    (∃ db' obj t, addChild exCfg exDB ⟨2, [49, 49], 2, 0, []⟩ ⟨9, [], 0, 5, []⟩ = .ok (db', obj, t) ∧ ¬ Consistent exCfg db') ∧
    (∃ db' obj, addSibling exCfg exDB ⟨2, [49, 49], 2, 0, []⟩ none ⟨9, [], 0, 5, []⟩ = .ok (db', obj) ∧ ¬ Consistent exCfg db') := by
  refine ⟨exDB_consistent, ⟨_, _, rfl, ?_, by decide, by decide⟩, ⟨_, _, _, rfl, ?_⟩, ⟨_, _, rfl, ?_⟩⟩ <;>
  · intro h
    exact absurd (h.problems .wrongNumchild) (by decide)

end MP

namespace NS
variable {cfg : Cfg} {db : DB}

/-- the same key and data: the rows differ at most in `tree_id`, `lft`, `rgt` and `depth` -/
def SameButPlace (a b : Row) : Prop := a.pk = b.pk ∧ a.vals = b.vals

theorem addSibling_place {a b : Row} (h : SameButPlace a b) (target : Row) (cached : Option Row) (pos : Option Pos) :
    addSibling cfg db target cached pos a = addSibling cfg db target cached pos b := by
  unfold addSibling addRootSibling addInnerSibling
  simp only [h.1, h.2]

/-- **C56 for NS.**  Whatever values for `tree_id`, `lft`, `rgt` and `depth` the new object carries, every addition does exactly the
same, on every table. -/
theorem C56_ns {a b : Row} (h : SameButPlace a b) :
    addRoot cfg db a = addRoot cfg db b ∧ (∀ target, addChild cfg db target a = addChild cfg db target b) ∧
    ∀ target cached pos, addSibling cfg db target cached pos a = addSibling cfg db target cached pos b := by
  refine ⟨?_, fun target => ?_, addSibling_place h⟩
  · unfold addRoot
    simp only [h.1, h.2, addSibling_place h]
  · unfold addChild
    simp only [h.1, h.2, addSibling_place h]

example : SameButPlace ⟨9, 7, 3, 4, 5, []⟩ ⟨9, 0, 0, 0, 0, []⟩ ∧ ∃ db' obj t, addChild ⟨[]⟩ exDB ⟨2, 1, 2, 3, 2, []⟩ ⟨9, 7, 3, 4, 5, []⟩ = .ok (db', obj, t) ∧
    obj = ⟨9, 1, 3, 4, 3, []⟩ ∧ forest db' (some 2) = [9] := ⟨⟨rfl, rfl⟩, _, _, _, rfl, by decide, by decide⟩

end NS

namespace LT
variable {cfg : Cfg} {db : DB}

/-- the same key and data: the rows differ at most in `path` -/
def SameButPlace (a b : Row) : Prop := a.pk = b.pk ∧ a.vals = b.vals

theorem addSiblingIn_place {a b : Row} (h : SameButPlace a b) (target : Row) (pos : Option Pos) :
    addSiblingIn cfg db target pos a = addSiblingIn cfg db target pos b := by
  unfold addSiblingIn sibNeighbours
  simp only [h.1, h.2]

/-- **C56 for LT.**  Whatever path the new object carries, every addition does exactly the same, on every table. -/
theorem C56_lt {a b : Row} (h : SameButPlace a b) :
    addRoot cfg db a = addRoot cfg db b ∧ (∀ target, addChild cfg db target a = addChild cfg db target b) ∧
    ∀ target pos, addSibling cfg db target pos a = addSibling cfg db target pos b := by
  refine ⟨?_, fun target => ?_, fun target pos => ?_⟩
  · unfold addRoot
    simp only [h.1, h.2, addSiblingIn_place h]
  · unfold addChild
    simp only [h.1, h.2, addSiblingIn_place h]
  · unfold addSibling
    simp only [addSiblingIn_place h]

example : SameButPlace ⟨9, [[70]], []⟩ ⟨9, [], []⟩ ∧ ∃ db' obj, addChild ⟨[]⟩ exDB ⟨2, [[65], [65]], []⟩ ⟨9, [[70]], []⟩ = .ok (db', obj) ∧
    obj = ⟨9, [[65], [65], [65]], []⟩ := ⟨⟨rfl, rfl⟩, _, _, rfl, by decide⟩

end LT

namespace AL
variable {cfg : Cfg} {db : DB}

/-- the same key and data: the rows differ at most in `parent` and `sib_order` -/
def SameButPlace (a b : Row) : Prop := a.pk = b.pk ∧ a.vals = b.vals

/-- the table without `sib_order`, which nothing reads when `node_order_by` is set -/
def noSib (db : DB) : DB := ⟨db.rows.map (fun r => { r with sib := 0 })⟩

theorem save_noSib {a b : Row} (h1 : a.pk = b.pk) (h2 : a.vals = b.vals) (h3 : a.parent = b.parent) :
    (save db a).map noSib = (save db b).map noSib := by
  have h : ({ a with sib := 0 } : Row) = { b with sib := 0 } := by cases a; cases b; simp_all
  have key : ∀ r : Row, ({ (if r.pk == a.pk then a else r) with sib := 0 } : Row) = { (if r.pk == b.pk then b else r) with sib := 0 } := by
    intro r
    rw [h1]
    split
    · exact h
    · rfl
  have hany : ∀ p, (db.rows.map (fun r => if r.pk == a.pk then a else r)).any (·.pk == p) =
      (db.rows.map (fun r => if r.pk == b.pk then b else r)).any (·.pk == p) := by
    intro p
    simp only [List.any_map]
    congr 1
    funext r
    have := congrArg Row.pk (key r)
    simp only at this
    simp only [Function.comp_apply, this]
  unfold save
  rw [h3]
  rw [show db.rows.any (·.pk == a.pk) = db.rows.any (·.pk == b.pk) by rw [h1]]
  by_cases hc : db.rows.any (·.pk == b.pk) = true
  · simp only [hc, if_true]
    cases b.parent with
    | none => simp only [Except.map, noSib, List.map_map, Except.ok.injEq, DB.mk.injEq]; congr 1; funext r; exact key r
    | some p =>
      simp only [hany]
      split
      · simp only [Except.map, noSib, List.map_map, Except.ok.injEq, DB.mk.injEq]; congr 1; funext r; exact key r
      · rfl
  · simp only [hc, Bool.false_eq_true, if_false]
    have hany2 : ∀ p, (db.rows ++ [a]).any (·.pk == p) = (db.rows ++ [b]).any (·.pk == p) := by
      intro p; simp [h1]
    cases b.parent with
    | none => simp [Except.map, noSib, h1, h2, h3]
    | some p =>
      simp only [hany2]
      split
      · simp [Except.map, noSib, h1, h2, h3]
      · rfl

/-- **C56 for AL** (partial: `add_root` takes `parent` from the object, see `C56_al_root`).  Without `node_order_by`, whatever values for
`parent` and `sib_order` the new object carries, `add_child` and `add_sibling` do exactly the same, on every table, and so does `add_root` for every
`sib_order`. -/
theorem C56_al_partial (ho : cfg.ordered = false) {a b : Row} (h : SameButPlace a b) :
    (a.parent = b.parent → addRoot cfg db a = addRoot cfg db b) ∧
    (∀ target cached, addChild cfg db target cached a = addChild cfg db target cached b) ∧
    ∀ target pos, addSibling cfg db target pos a = addSibling cfg db target pos b := by
  refine ⟨fun hp => ?_, fun target cached => ?_, fun target pos => ?_⟩
  · unfold addRoot
    simp only [ho, h.1, h.2, hp, Bool.false_eq_true, if_false]
  · unfold addChild
    simp only [ho, h.1, h.2, Bool.false_eq_true, if_false]
  · unfold addSibling addOrder
    simp only [ho, h.1, h.2, Bool.false_eq_true, if_false]

/-- **C56 for AL with `node_order_by`** (partial likewise): the tables differ at most in `sib_order`, which is not used. -/
theorem C56_al_sorted_partial (ho : cfg.ordered = true) {a b : Row} (h : SameButPlace a b) :
    (a.parent = b.parent → (addRoot cfg db a).map (noSib ·.1) = (addRoot cfg db b).map (noSib ·.1)) ∧
    (∀ target cached, (addChild cfg db target cached a).map (noSib ·.1) = (addChild cfg db target cached b).map (noSib ·.1)) ∧
    ∀ target pos, (addSibling cfg db target pos a).map (noSib ·.1) = (addSibling cfg db target pos b).map (noSib ·.1) := by
  have key : ∀ {β : Type} {x y : Except Err DB} {f g : DB → Except Err β} {fst : β → DB}, x.map noSib = y.map noSib →
      (∀ d, (f d).map fst = .ok d) → (∀ d, (g d).map fst = .ok d) →
      (match x with | .error e => .error e | .ok d => f d : Except Err β).map (noSib <| fst ·) =
      (match y with | .error e => .error e | .ok d => g d : Except Err β).map (noSib <| fst ·) := by
    intro β x y f g fst hxy hf hg
    have hm : ∀ {f : DB → Except Err β}, (∀ d, (f d).map fst = .ok d) → ∀ d, (f d).map (noSib <| fst ·) = .ok (noSib d) := by
      intro f hf d
      have := hf d
      cases e : f d with
      | error er => rw [e] at this; cases this
      | ok r => rw [e] at this; simp only [Except.map, Except.ok.injEq] at this ⊢; rw [this]
    cases x with
    | error e =>
      cases y with
      | error e' => simpa [Except.map] using hxy
      | ok d => cases hxy
    | ok d =>
      cases y with
      | error e' => cases hxy
      | ok d' =>
        simp only [hm hf, hm hg]
        exact hxy
  refine ⟨fun hp => ?_, fun target cached => ?_, fun target pos => ?_⟩
  · unfold addRoot
    simp only [ho, if_true]
    exact key (fst := Prod.fst) (save_noSib h.1 h.2 hp) (fun _ => rfl) (fun _ => rfl)
  · unfold addChild
    simp only [ho, if_true]
    exact key (fst := Prod.fst) (save_noSib h.1 h.2 rfl) (fun _ => rfl) (fun _ => rfl)
  · unfold addSibling addOrder
    cases preparePosForAddSibling cfg.ordered pos with
    | error e => rfl
    | ok q =>
      simp only [ho, if_true]
      exact key (fst := Prod.fst) (save_noSib h.1 h.2 rfl) (fun _ => rfl) (fun _ => rfl)

/-- **C56 fails for AL**: `add_root` with a `parent` does not make a root. -/
theorem C56_al_root : Consistent exPlain exDB ∧ ∃ db' obj, addRoot exPlain exDB ⟨9, some 2, 0, []⟩ = .ok (db', obj) ∧
    9 ∉ forest exPlain db' none ∧ 9 ∈ forest exPlain db' (some 2) := ⟨consistent_of_inv rfl exDB_inv, _, _, rfl, by decide, by decide⟩

/-- a node with wrong values for parent and order still goes where it is asked to go -/
example : (∃ db' obj c, addChild exPlain exDB ⟨2, some 1, 1, []⟩ none ⟨9, some 5, 77, []⟩ = .ok (db', obj, c) ∧ obj = ⟨9, some 2, 1, []⟩) ∧
    (∃ db' obj, addSibling exPlain exDB ⟨2, some 1, 1, []⟩ (some .left) ⟨9, some 5, 77, []⟩ = .ok (db', obj) ∧ forest exPlain db' (some 1) = [9, 2, 3]) :=
  ⟨⟨_, _, _, rfl, by decide⟩, ⟨_, _, rfl, by decide⟩⟩

end AL
end Verif
