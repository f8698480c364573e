/-
NS: a concrete table for the examples beside the theorems.
-/
import Verif.NS.Delete
import Verif.SortedHead

namespace Verif.NS

instance {rows : List Row} : Decidable (NI rows) :=
  decidable_of_iff ((rows.map Row.pk).Nodup ∧ (∀ r ∈ rows, r.lft < r.rgt) ∧ (∀ r ∈ rows, 1 ≤ r.lft) ∧ (∀ r ∈ rows, 1 ≤ r.tree) ∧
    (∀ r ∈ rows, ∀ q ∈ rows, r ≠ q → r.tree = q.tree → r.lft ≠ q.lft ∧ r.lft ≠ q.rgt ∧ r.rgt ≠ q.rgt) ∧
    (∀ r ∈ rows, ∀ q ∈ rows, r.tree = q.tree → r.lft < q.lft → q.lft < r.rgt → q.rgt < r.rgt) ∧
    (∀ r ∈ rows, r.lft ≠ 1 → ∃ q ∈ rows, q.lft = 1 ∧ encl q r) ∧ (∀ r ∈ rows, r.depth = 1 + (above rows r : Int)))
    ⟨fun ⟨a, b, c, d, e, f, g, h⟩ => ⟨a, b, c, d, e, f, g, h⟩, fun ⟨a, b, c, d, e, f, g, h⟩ => ⟨a, b, c, d, e, f, g, h⟩⟩

/-- `full` for a finite range -/
theorem full_of_range {rows : List Row} {r : Row} (n : Nat)
    (h : ∀ k < n, r.lft + (k : Int) ≤ r.rgt → ∃ q ∈ rows, q.tree = r.tree ∧ (q.lft = r.lft + (k : Int) ∨ q.rgt = r.lft + (k : Int))) (hn : r.rgt < r.lft + n) :
    ∀ i, r.lft ≤ i → i ≤ r.rgt → ∃ q ∈ rows, q.tree = r.tree ∧ (q.lft = i ∨ q.rgt = i) := by
  intro i h1 h2
  have := h (i - r.lft).toNat (by omega) (by omega)
  rwa [show r.lft + ((i - r.lft).toNat : Int) = i by omega] at this

/-- Two trees: 1 with the children 2 and 3, node 4 below 3; and the root 5. -/
def exDB : DB := { rows := [⟨4, 1, 5, 6, 3, []⟩, ⟨1, 1, 1, 8, 1, []⟩, ⟨5, 2, 1, 2, 1, []⟩, ⟨2, 1, 2, 3, 2, []⟩, ⟨3, 1, 4, 7, 2, []⟩] }

theorem exDB_inv : NInv exDB.rows := by
  refine ⟨by decide, ?_⟩
  intro r hr
  refine full_of_range 8 ?_ ?_
  · revert r; decide
  · revert r; decide

/-- a model with one ascending order field -/
def exSorted : Cfg := ⟨[(0, false)]⟩

/-- a sorted tree: the root 1 (value 5) with the children 2, 3, 4 (values 1, 3, 3) -/
def exSDB : DB := { rows := [⟨1, 1, 1, 8, 1, [some 5]⟩, ⟨2, 1, 2, 3, 2, [some 1]⟩, ⟨3, 1, 4, 5, 2, [some 3]⟩, ⟨4, 1, 6, 7, 2, [some 3]⟩] }

theorem exSDB_inv : NInv exSDB.rows := by
  refine ⟨by decide, ?_⟩
  intro r hr
  refine full_of_range 8 ?_ ?_
  · revert r; decide
  · revert r; decide

theorem forest_nil {db : DB} {k : Nat} (h : k ∉ db.rows.map Row.pk) : forest db (some k) = [] := by
  have : db.get? k = none := get?_eq_none.2 (fun r hr e => h (List.mem_map.2 ⟨r, hr, e⟩))
  simp [forest, this]

theorem exSDB_sorted : SortedData exSorted.orderBy (forest exSDB) (data exSDB.rows) := by
  refine ⟨?_, sortedBy_of_keys [1, 2, 3, 4] (fun k hk => forest_nil hk) (by decide)⟩
  intro e he f hf
  simp only [exSorted, List.mem_cons, List.not_mem_nil, or_false] at hf
  simp only [exSDB, data, List.map_cons, List.map_nil, List.mem_cons, List.not_mem_nil, or_false] at he
  rcases he with rfl | rfl | rfl | rfl <;> subst hf <;> exact ⟨_, rfl⟩

end Verif.NS
