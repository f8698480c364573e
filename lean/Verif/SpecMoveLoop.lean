/-
Specification: moving several nodes, one after the other, to places relative to one target.
-/
import Verif.SpecPos

namespace Verif
namespace Forest

/-- `MovedAll pos t xs F G`: the nodes `xs` go, in this order, to the position `pos` relative to `t`; none of these moves is refused. -/
inductive MovedAll (pos : Pos) (t : Nat) : List Nat → Forest → Forest → Prop where
  | nil (F : Forest) : MovedAll pos t [] F F
  | cons {x : Nat} {xs : List Nat} {F G : Forest} {p : Option Nat} : t ∈ F p → ¬ F.MoveRefused x t pos → MovedAll pos t xs (F.moveAsked x p t pos) G → MovedAll pos t (x :: xs) F G

/-- How a loop of moves ends: some of the nodes, from the first one on, have moved, and it is all of them or the next one could not move, for the reason given. -/
def LoopOut (pos : Pos) (t : Nat) (xs : List Nat) (F G : Forest) (err : Option Err) (Why : Nat → Err → Prop) : Prop :=
  ∃ done rest, xs = done ++ rest ∧ MovedAll pos t done F G ∧
    match rest with
    | [] => err = none
    | x :: _ => ∃ e, err = some e ∧ ((e = .invalidMoveToDescendant ∧ G.MoveRefused x t pos) ∨ Why x e)

/-- no node of the list is there twice or below an earlier one -/
def NoneBelow (F : Forest) (xs : List Nat) : Prop := xs.Pairwise (fun a b => b ≠ a ∧ ¬ F.Desc a b)

/-- the new place is the last one, or below a parent that has none of the nodes below it -/
def Outside (F : Forest) (pos : Pos) (p : Option Nat) (t : Nat) (xs : List Nat) : Prop :=
  pos = .lastSibling ∨ pos = .lastChild ∨ ∃ q, pos.dest p t = some q ∧ ∀ x ∈ xs, ¬ F.Desc q x

theorem LoopOut.nil {pos : Pos} {t : Nat} {F : Forest} {Why : Nat → Err → Prop} : LoopOut pos t [] F F none Why := ⟨[], [], rfl, .nil F, rfl⟩

theorem LoopOut.stop {pos : Pos} {t x : Nat} {xs : List Nat} {F : Forest} {e : Err} {Why : Nat → Err → Prop}
    (h : (e = .invalidMoveToDescendant ∧ F.MoveRefused x t pos) ∨ Why x e) : LoopOut pos t (x :: xs) F F (some e) Why :=
  ⟨[], x :: xs, rfl, .nil F, e, rfl, h⟩

theorem LoopOut.cons {pos : Pos} {t x : Nat} {xs : List Nat} {F G : Forest} {p : Option Nat} {err : Option Err} {Why : Nat → Err → Prop} (hp : t ∈ F p)
    (hr : ¬ F.MoveRefused x t pos) (h : LoopOut pos t xs (F.moveAsked x p t pos) G err Why) : LoopOut pos t (x :: xs) F G err Why := by
  obtain ⟨done, rest, e, hm, hend⟩ := h
  exact ⟨x :: done, rest, by rw [e]; rfl, .cons hp hr hm, hend⟩

end Forest
end Verif
