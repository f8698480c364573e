/-
Specification: a group of siblings is sorted anew.
-/
import Verif.SpecSorted

namespace Verif

/-- The order of the nodes `ks` when they are sorted: by their values, those with equal values in the order of `ks`. -/
def Precedes (ob : List (Nat × Bool)) (v : Nat → Vals) (ks : List Nat) (a b : Nat) : Prop :=
  keyLt ob (v a) (v b) ∨ (¬ keyLt ob (v b) (v a) ∧ [a, b].Sublist ks)

/-- `G` is `F` with the nodes `ks` sorted among their siblings: no node changes its parent, the groups of siblings with all their nodes in `ks` are sorted (stably, as `ks` has them), and
the groups without any node of `ks` are as before. -/
structure Forest.Resorted (ob : List (Nat × Bool)) (v : Nat → Vals) (ks : List Nat) (F G : Forest) : Prop where
  same : ∀ p, (G p).Perm (F p)
  sorted : ∀ p, (∀ x ∈ F p, x ∈ ks) → (G p).Pairwise (Precedes ob v ks)
  others : ∀ p, (∀ x ∈ F p, x ∉ ks) → G p = F p

/-- Greater nodes come first in `ks`, as far as they are siblings; with one sibling all are there. -/
structure Forest.Descending (ob : List (Nat × Bool)) (v : Nat → Vals) (ks : List Nat) (F : Forest) : Prop where
  order : ∀ p, ∀ a ∈ F p, ∀ b ∈ F p, [a, b].Sublist ks → ¬ keyLt ob (v a) (v b)
  whole : ∀ p, (∃ x ∈ F p, x ∈ ks) → ∀ x ∈ F p, x ∈ ks

/-- a wholly sorted forest -/
theorem Forest.Resorted.sortedBy {ob : List (Nat × Bool)} {v : Nat → Vals} {ks : List Nat} {F G : Forest} (h : Resorted ob v ks F G) (hall : ∀ p, ∀ x ∈ F p, x ∈ ks) :
    G.SortedBy ob v := by
  intro p
  refine (h.sorted p (hall p)).imp ?_
  rintro a b (h | h)
  · exact keyLt_asymm h
  · exact h.1

end Verif
