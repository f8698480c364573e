/-
AL: example tables.
-/
import Verif.AL.Sorted
import Verif.AL.Delete

namespace Verif.AL

/-- without `node_order_by` -/
def exPlain : Cfg := { orderBy := [] }

/-- `node_order_by = ["val"]` -/
def exSorted : Cfg := { orderBy := [(0, false)] }

/-- 1 has the children 2, 3 (at positions 1 and 4), 3 has the child 4; 5 is a second root -/
def exDB : DB := ⟨[⟨1, none, 2, []⟩, ⟨3, some 1, 4, []⟩, ⟨2, some 1, 1, []⟩, ⟨4, some 3, 1, []⟩, ⟨5, none, 3, []⟩]⟩

/-- a sorted tree: the children of 1 have the values 1, 4, 7 -/
def exSDB : DB := ⟨[⟨1, none, 0, [some 5]⟩, ⟨3, some 1, 0, [some 4]⟩, ⟨2, some 1, 0, [some 1]⟩, ⟨4, some 1, 0, [some 7]⟩, ⟨5, none, 0, [some 3]⟩]⟩

theorem ai_example {rows : List Row} (rank : Nat → Nat) (h1 : (rows.map Row.pk).Nodup)
    (h2 : ∀ r ∈ rows, ∀ p, r.parent = some p → p ∈ rows.map Row.pk ∧ rank p < rank r.pk) : AI rows :=
  ⟨h1, fun r hr p e => by
    obtain ⟨q, hq, e'⟩ := List.mem_map.1 (h2 r hr p e).1
    exact ⟨q, hq, e'⟩, rank, fun r hr p e => (h2 r hr p e).2⟩

theorem exDB_inv : AInv exPlain exDB.rows := by
  refine ⟨ai_example id (by decide) ?_, ?_, ?_⟩
  · intro r hr p e
    simp only [exDB, List.mem_cons, List.not_mem_nil, or_false] at hr
    rcases hr with rfl | rfl | rfl | rfl | rfl <;> simp at e <;> subst e <;> decide
  · intro _; decide
  · unfold lt; decide

theorem exSDB_inv : AInv exSorted exSDB.rows := by
  refine ⟨ai_example id (by decide) ?_, ?_, ?_⟩
  · intro r hr p e
    simp only [exSDB, List.mem_cons, List.not_mem_nil, or_false] at hr
    rcases hr with rfl | rfl | rfl | rfl | rfl <;> simp at e <;> subst e <;> decide
  · intro h; cases h
  · unfold lt; decide

end Verif.AL
