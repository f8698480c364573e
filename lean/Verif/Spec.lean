/-
The specification: ordered forests.

This file is independent of the models of the four implementations.  It is what the property theorems
are stated with; somebody who knows the English properties should be able to read it in a few minutes.
-/
namespace Verif

/-- An ordered forest of primary keys.  `F none` is the ordered list of roots and `F (some p)` the
ordered list of the children of `p`. -/
abbrev Forest := Option Nat → List Nat

/-- A place among siblings. -/
inductive Slot where
  /-- leftmost -/
  | first
  /-- rightmost -/
  | last
  /-- immediately to the left of `t` -/
  | before (t : Nat)
  /-- immediately to the right of `t` -/
  | after (t : Nat)
deriving DecidableEq, Repr

/-- `insertBefore t x [.., t, ..] = [.., x, t, ..]` -/
def insertBefore (t x : Nat) : List Nat → List Nat
  | [] => []
  | y :: ys => if y = t then x :: y :: ys else y :: insertBefore t x ys

/-- `insertAfter t x [.., t, ..] = [.., t, x, ..]` -/
def insertAfter (t x : Nat) : List Nat → List Nat
  | [] => []
  | y :: ys => if y = t then y :: x :: ys else y :: insertAfter t x ys

/-- Insert `x` into a list of siblings at a place. -/
def Slot.ins (s : Slot) (x : Nat) (l : List Nat) : List Nat :=
  match s with
  | .first => x :: l
  | .last => l ++ [x]
  | .before t => insertBefore t x l
  | .after t => insertAfter t x l

namespace Forest

/-- Take `x` out of its list of siblings (its own children stay attached to it). -/
def remove (F : Forest) (x : Nat) : Forest := fun p => (F p).filter (· ≠ x)

/-- Put `x` among the children of `p` (roots if `none`) at a place; everything else is unchanged. -/
def put (F : Forest) (p : Option Nat) (s : Slot) (x : Nat) : Forest :=
  fun q => if q = p then s.ins x (F q) else F q

/-- Move `x`, with the branch below it, to a place among the children of `p`. -/
def move (F : Forest) (x : Nat) (p : Option Nat) (s : Slot) : Forest := (F.remove x).put p s x

/-- `Desc F a d`: `d` is a proper descendant of `a`. -/
inductive Desc (F : Forest) (a : Nat) : Nat → Prop where
  | child {d} : d ∈ F (some a) → Desc F a d
  | step {m d} : Desc F a m → d ∈ F (some m) → Desc F a d

/-- Remove every node satisfying `D` (used with `D` closed under descendants). -/
def prune (F : Forest) (D : Nat → Bool) : Forest :=
  fun p => match p with
    | none => (F none).filter (fun y => !D y)
    | some q => if D q then [] else (F (some q)).filter (fun y => !D y)

/-- `DFS F cs l`: `l` lists the branches of the siblings `cs` in depth-first pre-order: each node,
then the branches of its children, then the branches of its later siblings. -/
inductive DFS (F : Forest) : List Nat → List Nat → Prop where
  | nil : DFS F [] []
  | cons {c cs l₁ l₂} : DFS F (F (some c)) l₁ → DFS F cs l₂ → DFS F (c :: cs) (c :: (l₁ ++ l₂))

/-- `Level F x k`: `x` is at level `k` (roots are at level 1). -/
inductive Level (F : Forest) : Nat → Nat → Prop where
  | root {x} : x ∈ F none → Level F x 1
  | child {p x k} : Level F p k → x ∈ F (some p) → Level F x (k + 1)

/-- `F` is a forest on exactly the nodes `ids`: its pre-order listing contains every one of them
exactly once (so there is no cycle, no orphan and no node with two parents), and nothing else
has children. -/
structure IsForestOn (F : Forest) (ids : List Nat) : Prop where
  listing : ∃ l, DFS F (F none) l ∧ l.Nodup ∧ l.Perm ids
  outside : ∀ p, p ∉ ids → F (some p) = []

end Forest
end Verif
