/-
Specification: histories that differ only in values that do not matter.
-/
import Verif.SpecApi

namespace Verif

/-- the same values in the fields of `node_order_by` (all values are twins without it) -/
def TwinVals (ob : List (Nat × Bool)) (v w : Vals) : Prop := ∀ e ∈ ob, fieldOf v e.1 = fieldOf w e.1

/-- the same nodes, with twins as values -/
def TwinData (ob : List (Nat × Bool)) (D D' : List (Nat × Vals)) : Prop := List.Forall₂ (fun a b => a.1 = b.1 ∧ TwinVals ob a.2 b.2) D D'

/-- the same structure to load, with twins as values -/
inductive TwinNest (ob : List (Nat × Bool)) : Nest (Nat × Vals) → Nest (Nat × Vals) → Prop
  | nil : TwinNest ob .nil .nil
  | cons {k v w c c' r r'} : TwinVals ob v w → TwinNest ob c c' → TwinNest ob r r' → TwinNest ob (.cons (k, v) c r) (.cons (k, w) c' r')

/-- the same call, with twins as values -/
inductive TwinOp (ob : List (Nat × Bool)) : ApiOp → ApiOp → Prop
  | addRoot {k v w} : TwinVals ob v w → TwinOp ob (.tree (.addRoot k v)) (.tree (.addRoot k w))
  | addChild {t k v w} : TwinVals ob v w → TwinOp ob (.tree (.addChild t k v)) (.tree (.addChild t k w))
  | addSibling {t pos k v w} : TwinVals ob v w → TwinOp ob (.tree (.addSibling t pos k v)) (.tree (.addSibling t pos k w))
  | move {x t pos} : TwinOp ob (.tree (.move x t pos)) (.tree (.move x t pos))
  | delete {S} : TwinOp ob (.tree (.delete S)) (.tree (.delete S))
  | edit {k v w} : TwinVals ob v w → TwinOp ob (.edit k v) (.edit k w)
  | load {p d d'} : TwinNest ob d d' → TwinOp ob (.load p d) (.load p d')
  | fixTree {p b} : TwinOp ob (.fixTree p b) (.fixTree p b)

/-- The same history, but for values that do not matter; without `node_order_by`, edits do not matter at all. -/
inductive TwinHist (ob : List (Nat × Bool)) : List ApiOp → List ApiOp → Prop
  | nil : TwinHist ob [] []
  | both {a b l m} : TwinOp ob a b → TwinHist ob l m → TwinHist ob (a :: l) (b :: m)
  | left {k v l m} : ob = [] → TwinHist ob l m → TwinHist ob (.edit k v :: l) m
  | right {k v l m} : ob = [] → TwinHist ob l m → TwinHist ob l (.edit k v :: m)

end Verif
