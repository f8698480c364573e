/-
LT: `move` for objects of different classes.  (`add_sibling` and `add_child` of LT compare no objects.)

`a == b` for model instances (Django's `Model.__eq__`) is false for objects of different classes, even with the same primary key.
-/
import Verif.LT.Move
import Verif.Classes

namespace Verif.LT

/-- ltree/__init__.py:266-334 `move` of an object of the class `cn` to a target of the class `ct` -/
def moveC (cfg : Cfg) (db : DB) (cn ct : Cls) (node target : Row) (pos : Option Pos) : Except Err (DB × Row) :=
  commit (match preparePosForMove cfg.ordered pos with
    | .error e => .error e
    | .ok pos =>
      if isChildPos pos = true ∧ (ct = cn ∧ target.pk = node.pk) then .error .invalidMoveToDescendant
      else if target.isDescendantOf node then .error .invalidMoveToDescendant
      else
        match getNewPath db (moveNeighbours cfg db node target pos).2 (moveNeighbours cfg db node target pos).1.1
            (moveNeighbours cfg db node target pos).1.2 false 2 with
        | .error e => .error e
        | .ok (db, newPath, moved) =>
          match refreshed db node moved with
          | .error e => .error e
          | .ok node => .ok (finishMove db node newPath))

variable {cfg : Cfg} {db : DB}

/-- The class matters in the test for the node itself only. -/
theorem moveC_eq {cn ct : Cls} {x t : Row} {posArg : Option Pos}
    (hs : ct = cn ∨ ∀ pos, preparePosForMove cfg.ordered posArg = .ok pos → ¬ (isChildPos pos = true ∧ t.pk = x.pk)) :
    moveC cfg db cn ct x t posArg = move cfg db x t posArg := by
  unfold moveC move
  cases hp : preparePosForMove cfg.ordered posArg with
  | error e => rfl
  | ok pos =>
    simp only
    rcases hs with rfl | hs
    · simp only [true_and]; rfl
    · have hn := hs pos hp
      rw [if_neg (fun h => hn ⟨h.1, h.2.2⟩), if_neg hn]
      rfl

end Verif.LT
