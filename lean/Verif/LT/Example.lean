/-
Example tables for the LT backend.
-/
import Verif.LT.Query
import Verif.LT.Delete
import Verif.SortedHead

namespace Verif.LT

/-- a decidable form of the invariant -/
def checkInv (rows : List Row) : Bool :=
  decide (rows.map Row.pk).Nodup && decide (rows.map Row.path).Nodup &&
  rows.all (fun r => decide (1 ≤ r.path.length) && (r.path.length == 1 || rows.any (fun q => q.path == r.path.dropLast)) &&
    r.path.all (fun l => !l.isEmpty && l.all (fun c => allChars.contains c)))

theorem inv_of_check {rows : List Row} (h : checkInv rows = true) : Inv rows := by
  unfold checkInv at h
  simp only [Bool.and_eq_true, decide_eq_true_iff, List.all_eq_true, Bool.or_eq_true, beq_iff_eq, List.any_eq_true,
    List.contains_iff_mem, Bool.not_eq_true', List.isEmpty_eq_false_iff] at h
  obtain ⟨⟨h1, h2⟩, h3⟩ := h
  refine ⟨⟨h1, h2, fun r hr => ⟨by simp, (h3 r hr).1.1⟩, ?_⟩, fun r hr l hl => (h3 r hr).2 l hl⟩
  intro r hr hlen
  rcases (h3 r hr).1.2 with h | ⟨q, hq, e⟩
  · omega
  · exact ⟨q, hq, by rw [e, pp_one]⟩

/-- roots A and B; below A: A.A and A.B; below A.B: A.B.A -/
def exDB : DB := { rows := [⟨5, [[66]], []⟩, ⟨1, [[65]], []⟩, ⟨2, [[65], [65]], []⟩, ⟨3, [[65], [66]], []⟩, ⟨4, [[65], [66], [65]], []⟩] }

theorem exDB_inv : Inv exDB.rows := inv_of_check (by decide)

/-- sorted by the first field, with two equal siblings: below A the values 1, 3, 3 -/
def exSorted : Cfg := ⟨[(0, false)]⟩
def exSDB : DB := { rows := [⟨1, [[65]], [some 5]⟩, ⟨2, [[65], [65]], [some 1]⟩, ⟨3, [[65], [66]], [some 3]⟩, ⟨4, [[65], [67]], [some 3]⟩] }

theorem exSDB_inv : Inv exSDB.rows := inv_of_check (by decide)

theorem forest_nil {db : DB} {k : Nat} (h : k ∉ db.rows.map Row.pk) : forest db (some k) = [] := by
  have : db.get? k = none := get?_eq_none.2 (fun r hr e => h (List.mem_map.2 ⟨r, hr, e⟩))
  simp [forest, this]

theorem exSDB_sorted : SortedData exSorted.orderBy (forest exSDB) (data exSDB.rows) := by
  refine ⟨?_, sortedBy_of_keys [1, 2, 3, 4] (fun k hk => forest_nil hk) (by decide)⟩
  intro e he f hf
  simp only [exSorted, List.mem_cons, List.not_mem_nil, or_false] at hf
  simp only [exSDB, data, List.map_cons, List.map_nil, List.mem_cons, List.not_mem_nil, or_false] at he
  rcases he with rfl | rfl | rfl | rfl <;> subst hf <;> exact ⟨_, rfl⟩

end Verif.LT
