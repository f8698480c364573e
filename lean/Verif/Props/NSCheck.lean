/-
C26: `find_problems` of the nested sets backend.
-/
import Verif.Props.NSTree
import Verif.NS.Check

namespace Verif.NS

variable {db : DB}

/-- four empty lists -/
def noProblems : List Nat × List Nat × List Nat × List Nat := ([], [], [], [])

theorem problems_none_iff {s : FP} : (s.reversed, s.overlapping, s.duplicate, s.wrongDepth) = noProblems ↔ s.Clean := by
  unfold noProblems FP.Clean
  simp only [Prod.mk.injEq]

/-- **C26.** For every table content (primary keys are unique), `find_problems()` returns four empty lists exactly when
every `lft` is less than its `rgt`, any two intervals of one tree are disjoint or strictly nested, one interval of each
tree encloses all the others, and every depth is one more than the number of enclosing intervals. -/
theorem C26_iff (hpk : (db.rows.map Row.pk).Nodup) : findProblems db none = noProblems ↔ WellNested 0 db.rows :=
  problems_none_iff.trans (checkRows_iff (hpk.of_map _))

/-- **C26, limited to a branch.** The same for the rows within the interval of the parent, with depths counted from the
number of the parent's ancestors. -/
theorem C26_iff_parent (hpk : (db.rows.map Row.pk).Nodup) (p : Row) : findProblems db (some p) = noProblems ↔
    WellNested ((ancestors db p).length : Int) (branchRows db.rows p) :=
  problems_none_iff.trans (checkRows_iff ((hpk.of_map _).filter _))

/-- **C26, soundness.** On a consistent tree `find_problems` reports nothing, for the whole tree and for any branch; gaps
in the numbering do not matter. -/
theorem C26_sound (h : NI db.rows) {p : Option Row} (hp : ∀ q, p = some q → q ∈ db.rows) : findProblems db p = noProblems := by
  cases p with
  | none => exact (C26_iff h.pks).2 h.wellNested
  | some q => exact (C26_iff_parent h.pks q).2 (h.wellNested_branch (hp q rfl))

example : NI exDB.rows ∧ (⟨3, 1, 4, 7, 2, []⟩ : Row) ∈ exDB.rows ∧ findProblems exDB (some ⟨3, 1, 4, 7, 2, []⟩) = noProblems :=
  ⟨exDB_inv.toNI, by decide, by decide⟩

/-- **C26, the first list.** Exactly the nodes whose `rgt` is not greater than their `lft` are reported as reversed. -/
theorem C26_reversed (db : DB) (k : Nat) : k ∈ (findProblems db none).1 ↔ ∃ r ∈ db.rows, r.pk = k ∧ r.rgt ≤ r.lft := by
  show k ∈ (checkRows 0 db.rows).reversed ↔ _
  unfold checkRows
  rw [fold_reversed]
  show k ∈ [] ++ _ ↔ _
  simp only [List.nil_append, List.mem_map, List.mem_filter, mem_order, decide_eq_true_eq]
  constructor
  · rintro ⟨r, ⟨h1, h2⟩, h3⟩; exact ⟨r, h1, h3, h2⟩
  · rintro ⟨r, h1, h3, h2⟩; exact ⟨r, ⟨h1, h2⟩, h3⟩

/-- one example for each list: overlapping intervals, a second root in the tree, a wrong depth, a reversed interval -/
example : findProblems { rows := [⟨1, 1, 1, 6, 1, []⟩, ⟨2, 1, 2, 4, 2, []⟩, ⟨3, 1, 3, 5, 3, []⟩] } none = ([], [3], [], []) ∧
    findProblems { rows := [⟨1, 1, 1, 2, 1, []⟩, ⟨2, 1, 3, 4, 1, []⟩] } none = ([], [], [2], []) ∧
    findProblems { rows := [⟨1, 1, 1, 4, 1, []⟩, ⟨2, 1, 2, 3, 1, []⟩] } none = ([], [], [], [2]) ∧
    findProblems { rows := [⟨1, 1, 1, 4, 1, []⟩, ⟨2, 1, 3, 2, 2, []⟩] } none = ([2], [], [], []) := by decide

/-- **What `find_problems` does not see.** Gaps in the numbering and a root that does not start at 1 pass the check, so
`is_leaf`, `get_descendant_count` and `is_root` can be wrong on a table without reported problems. -/
theorem C26_misses : ∃ db : DB, findProblems db none = noProblems ∧ ¬ NInv db.rows ∧
    ∃ x ∈ db.rows, x.isLeaf = false ∧ children db x = [] ∧ x.isRoot = false ∧ ancestors db x = [] := by
  refine ⟨{ rows := [⟨1, 1, 2, 5, 1, []⟩] }, by decide, ?_, ⟨1, 1, 2, 5, 1, []⟩, by decide, by decide, by decide, by decide, by decide⟩
  intro h
  obtain ⟨q, hq, h1, _⟩ := h.root ⟨1, 1, 2, 5, 1, []⟩ (by decide) (by decide)
  rw [List.mem_singleton] at hq
  rw [hq] at h1
  exact absurd h1 (by decide)

end Verif.NS
