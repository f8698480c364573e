/-
Specification: the place of a node, as a position relative to another node.
-/
import Verif.SpecPos

namespace Verif.Forest

/-- `WasAt F x q s pos`: the node `x` is a child of `q` (a root for `none`) and stands at the position `pos` relative to the node `s`. -/
inductive WasAt (F : Forest) (x : Nat) : Option Nat → Nat → Pos → Prop where
  | right {q l s r} : F q = l ++ s :: x :: r → WasAt F x q s .right
  | left {q l s r} : F q = l ++ x :: s :: r → WasAt F x q s .left
  | firstSibling {q s r} : F q = x :: r → s ∈ r → WasAt F x q s .firstSibling
  | lastSibling {q s l} : F q = l ++ [x] → s ∈ l → WasAt F x q s .lastSibling
  | firstChild {s r} : F (some s) = x :: r → WasAt F x (some s) s .firstChild
  | lastChild {s l} : F (some s) = l ++ [x] → WasAt F x (some s) s .lastChild

/-- every node has such a place, but for a root without other roots -/
theorem wasAt_exists {F : Forest} {x : Nat} {q : Option Nat} (hx : x ∈ F q) : (q = none ∧ F none = [x]) ∨ ∃ s pos, F.WasAt x q s pos := by
  obtain ⟨l, r, e⟩ := List.append_of_mem hx
  rcases List.eq_nil_or_concat l with rfl | ⟨l, s, rfl⟩
  · cases r with
    | cons s r => exact Or.inr ⟨s, .left, .left (l := []) e⟩
    | nil =>
      cases q with
      | none => exact Or.inl ⟨rfl, e⟩
      | some s => exact Or.inr ⟨s, .firstChild, .firstChild e⟩
  · refine Or.inr ⟨s, .right, .right (l := l) (r := r) ?_⟩
    rw [e]
    simp

end Verif.Forest
