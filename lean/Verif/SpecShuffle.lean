/-
Specification: a forest up to the order of the siblings right of one node.
-/
import Verif.Spec

namespace Verif

/-- `F` is the forest `A`, except that the siblings right of `x` (a child of `p`) may stand in another order. -/
def Forest.UpToRight (A F : Forest) (p : Option Nat) (x : Nat) : Prop :=
  (∀ q, q ≠ p → F q = A q) ∧ ∃ l r r', A p = l ++ x :: r ∧ F p = l ++ x :: r' ∧ r'.Perm r

theorem Forest.UpToRight.refl {A : Forest} {p : Option Nat} {x : Nat} (h : x ∈ A p) : A.UpToRight A p x := by
  obtain ⟨l, r, e⟩ := List.append_of_mem h
  exact ⟨fun _ _ => rfl, l, r, r, e, e, .refl _⟩

/-- the same nodes have the same parents -/
theorem Forest.UpToRight.mem {A F : Forest} {p : Option Nat} {x : Nat} (h : A.UpToRight F p x) (q : Option Nat) (k : Nat) :
    k ∈ F q ↔ k ∈ A q := by
  obtain ⟨h1, l, r, r', e, e', hp⟩ := h
  by_cases hq : q = p
  · subst hq
    rw [e, e']
    simp only [List.mem_append, List.mem_cons, hp.mem_iff]
  · rw [h1 q hq]

/-- The same nodes with the same parents; siblings may stand in another order. -/
def Forest.Near (A F : Forest) : Prop := ∀ p, (F p).Perm (A p)

end Verif
