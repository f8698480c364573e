/-
Specification: what several deletions at the same time are to leave.
-/
import Verif.SpecHistory

namespace Verif

/-- `D` is what goes when the clients that have `begun` delete: the nodes that one of them chose (`S`), and everything below them. -/
def Forest.DoomedBy {ι : Type} (F : Forest) (ids : List Nat) (S : ι → Nat → Bool) (begun : ι → Prop) (D : Nat → Bool) : Prop :=
  ∀ k, D k = true ↔ k ∈ ids ∧ ∃ i, begun i ∧ Tree.Doomed F (S i) k

/-- no node is chosen by two clients -/
def ChosenOnce {ι : Type} (S : ι → Nat → Bool) : Prop := ∀ i j k, S i k = true → S j k = true → i = j

/-- no tree has nodes chosen by two clients -/
def Forest.TreesOnce {ι : Type} (F : Forest) (S : ι → Nat → Bool) : Prop :=
  ∀ i j r a b, r ∈ F none → (a = r ∨ F.Desc r a) → (b = r ∨ F.Desc r b) → S i a = true → S j b = true → i = j

end Verif
