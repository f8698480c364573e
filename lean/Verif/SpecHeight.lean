/-
Specification: how deep a forest is, and what additions and moves do to it.
-/
import Verif.Spec

namespace Verif
namespace Forest

/-- the level of a parent: `none`, above the roots, is at level 0 -/
def LevelOf (F : Forest) : Option Nat → Nat → Prop
  | none, n => n = 0
  | some p, n => F.Level p n

/-- `Below F x y e`: `y` is in the branch of `x`, `e` levels below it -/
inductive Below (F : Forest) (x : Nat) : Nat → Nat → Prop where
  | self : Below F x x 0
  | child {m y e} : Below F x m e → y ∈ F (some m) → Below F x y (e + 1)

/-- no node is deeper than `n` levels -/
def HeightLE (F : Forest) (n : Nat) : Prop := ∀ k d, F.Level k d → d ≤ n

end Forest
end Verif
