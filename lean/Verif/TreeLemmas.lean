/-
Histories: what all backends need to relate a table to the abstract tree of the specification.
-/
import Verif.SpecHistory
import Verif.SortedHead

namespace Verif

namespace Tree

variable {s : Tree}

theorem parent_eq {F : Forest} {ids : List Nat} (hu : ∀ p q k, k ∈ F p → k ∈ F q → p = q)
    (hm : ∀ p k, k ∈ F (some p) → p ∈ ids) (hF : F = s.F) (hids : ∀ k, k ∈ ids ↔ k ∈ s.ids) {p : Option Nat} {t : Nat}
    (ht : t ∈ F p) : s.parent t = p := by
  unfold parent
  subst hF
  cases p with
  | none =>
    rw [List.find?_eq_none]
    intro q _ hq
    have := hu _ _ _ ht (List.contains_iff_mem.1 hq)
    cases this
  | some q =>
    cases hf : s.ids.find? (fun p => (s.F (some p)).contains t) with
    | none =>
      rw [List.find?_eq_none] at hf
      exact absurd (List.contains_iff_mem.2 ht) (hf q ((hids q).1 (hm q t ht)))
    | some r =>
      have := List.find?_some hf
      have := hu _ _ _ ht (List.contains_iff_mem.1 this)
      rw [this]

end Tree

/-- a table with the forest `F` and the keys `ids` shows the abstract tree `s` -/
structure ShowsTree (F : Forest) (ids : List Nat) (s : Tree) : Prop where
  forest : F = s.F
  ids : ∀ k, k ∈ ids ↔ k ∈ s.ids

end Verif
