/-
Specification of the navigation queries: what a forest implies for each of them.
-/
import Verif.Spec
import Verif.Common

namespace Verif

namespace Forest

/-- `Anc F x l`: `l` lists the ancestors of `x` from its root down to its parent. -/
inductive Anc (F : Forest) : Nat → List Nat → Prop where
  | root {x} : x ∈ F none → Anc F x []
  | step {x p l} : Anc F p l → x ∈ F (some p) → Anc F x (l ++ [p])

end Forest

/-- The answers of the navigation queries for one node, as primary keys.  Queries that could fail are results. -/
structure NavAnswers where
  /-- `get_parent` -/
  parent : Except Err (Option Nat)
  /-- `get_root` -/
  root : Except Err Nat
  /-- `get_children` -/
  children : List Nat
  /-- `get_siblings` -/
  siblings : Except Err (List Nat)
  /-- `get_ancestors` -/
  ancestors : Except Err (List Nat)
  /-- `get_descendants` -/
  descendants : Except Err (List Nat)
  /-- `get_first_child` -/
  firstChild : Option Nat
  /-- `get_last_child` -/
  lastChild : Option Nat
  /-- `get_first_sibling` -/
  firstSibling : Except Err (Option Nat)
  /-- `get_last_sibling` -/
  lastSibling : Except Err (Option Nat)
  /-- `get_prev_sibling` -/
  prev : Except Err (Option Nat)
  /-- `get_next_sibling` -/
  next : Except Err (Option Nat)
  /-- `is_root` -/
  isRoot : Bool
  /-- `is_leaf` -/
  isLeaf : Bool
  /-- `get_children_count` -/
  childrenCount : Int
  /-- `get_descendant_count`; NS returns a float -/
  descendantCount : Except Err Rat
  /-- `get_depth` -/
  depth : Except Err Int

/-- The answers are what the forest `F` implies for the node `x`. -/
structure NavSpec (F : Forest) (x : Nat) (a : NavAnswers) : Prop where
  parent : ∃ p, a.parent = .ok p ∧ x ∈ F p ∧ a.siblings = .ok (F p) ∧ a.firstSibling = .ok (F p).head? ∧
    a.lastSibling = .ok (F p).getLast? ∧ ∃ l₁ l₂, F p = l₁ ++ x :: l₂ ∧ a.prev = .ok l₁.getLast? ∧ a.next = .ok l₂.head?
  children : a.children = F (some x)
  firstChild : a.firstChild = (F (some x)).head?
  lastChild : a.lastChild = (F (some x)).getLast?
  isRoot : a.isRoot = true ↔ x ∈ F none
  isLeaf : a.isLeaf = true ↔ F (some x) = []
  childrenCount : a.childrenCount = (F (some x)).length
  ancestors : ∃ l, a.ancestors = .ok l ∧ F.Anc x l ∧ a.root = .ok ((l ++ [x]).headD x)
  descendants : ∃ l, a.descendants = .ok l ∧ F.DFS (F (some x)) l ∧ (∀ k, k ∈ l ↔ F.Desc x k) ∧ l.Nodup ∧
    a.descendantCount = .ok (l.length : Rat)
  depth : ∃ n : Nat, a.depth = .ok n ∧ F.Level x n

/-- The answers about two nodes: `is_child_of`, `is_descendant_of`, `is_sibling_of`. -/
structure PairAnswers where
  childOf : Bool
  descendantOf : Except Err Bool
  siblingOf : Except Err Bool

/-- They are what the forest implies for `x` and `y`. -/
structure PairSpec (F : Forest) (x y : Nat) (a : PairAnswers) : Prop where
  childOf : a.childOf = true ↔ x ∈ F (some y)
  descendantOf : ∃ b, a.descendantOf = .ok b ∧ (b = true ↔ F.Desc y x)
  siblingOf : ∃ b, a.siblingOf = .ok b ∧ (b = true ↔ ∃ p, x ∈ F p ∧ y ∈ F p)

/-- `l` is a depth-first listing of the whole forest, or of the branch of `p`, restricted to the nodes at most
`m` levels below the top (with `m = none` no restriction).  Roots, or `p`'s children, are one level below the top;
`p` itself is at level 0. -/
def TreeListing (F : Forest) (p : Option Nat) (m : Option Nat) (l : List Nat) : Prop :=
  ∃ full base, (match p with
      | none => F.DFS (F none) full ∧ base = 0
      | some k => F.DFS [k] full ∧ F.Level k base) ∧
    full.Nodup ∧ ∃ keep : Nat → Bool, l = full.filter keep ∧
      ∀ k ∈ full, (keep k = true ↔ ∀ n, m = some n → ∃ lv, F.Level k lv ∧ lv ≤ base + n)

end Verif
