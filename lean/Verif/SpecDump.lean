/-
Specification: nested structures, as `dump_bulk` returns them and `load_bulk` takes them.
-/
import Verif.Spec
import Verif.Common

namespace Verif

/-- A list of nested items.  `cons a children rest` is a list whose first item has the label `a` and the given children,
followed by the items `rest`.  (An item without the key `children` and one with an empty list are not told apart: load_bulk treats
them alike, and dump_bulk only writes the first.) -/
inductive Nest (α : Type) where
  | nil
  | cons (a : α) (children rest : Nest α)
deriving DecidableEq, Repr

/-- An item: the primary key, if it is given, and the data. -/
abbrev Item := Option Nat × Vals

namespace Nest

/-- relabel -/
def map (f : α → β) : Nest α → Nest β
  | nil => nil
  | cons a c r => cons (f a) (c.map f) (r.map f)

/-- the labels of the items of the list itself -/
def tops : Nest α → List α
  | nil => []
  | cons a _ r => a :: r.tops

/-- all labels, each item before its children and these before the later items -/
def labels : Nest α → List α
  | nil => []
  | cons a c r => a :: (c.labels ++ r.labels)

/-- `Shown kids cs n`: the structure has exactly the items `cs`, in this order, and each item has exactly its `kids` as children,
in this order, at every level. -/
inductive Shown (kids : α → List α) : List α → Nest α → Prop where
  | nil : Shown kids [] nil
  | cons {a cs c r} : Shown kids (kids a) c → Shown kids cs r → Shown kids (a :: cs) (cons a c r)

end Nest

/-- The structure shows the part of the forest below and including the siblings `cs`, with the data `v` of the nodes, and with their primary
keys if `keep`. -/
def Dumps (F : Forest) (v : Nat → Vals) (keep : Bool) (cs : List Nat) (d : Nest Item) : Prop :=
  ∃ n : Nest Nat, Nest.Shown (fun k => F (some k)) cs n ∧ d = n.map (fun k => (if keep then some k else none, v k))

/-- the top nodes of a dump: the roots, or the given node -/
def Forest.dumpTops (F : Forest) : Option Nat → List Nat
  | none => F none
  | some k => [k]

/-- `F'` is `F` with the structure `n` of new nodes attached below `p` (as roots for `none`), after the children that are there. -/
structure Grafted (F F' : Forest) (p : Option Nat) (n : Nest Nat) : Prop where
  tops : F' p = F p ++ n.tops
  inside : Nest.Shown (fun k => F' (some k)) n.tops n
  others : ∀ q, q ≠ p → (∀ k ∈ n.labels, q ≠ some k) → F' q = F q

/-- `F'` is `F` with its nodes `ks` renamed by `f`, different nodes differently. -/
structure Forest.Renamed (F F' : Forest) (ks : List Nat) (f : Nat → Nat) : Prop where
  inj : ∀ a ∈ ks, ∀ b ∈ ks, f a = f b → a = b
  roots : F' none = (F none).map f
  kids : ∀ k ∈ ks, F' (some (f k)) = (F (some k)).map f
  outside : ∀ k, k ∉ ks.map f → F' (some k) = []

/-- The tree `F'` with the data `D'` is the tree `F` with the data `D`, with new primary keys (`D` lists the primary keys with the data).
With `keep` the primary keys are the same. -/
structure Restored (keep : Bool) (F F' : Forest) (D D' : List (Nat × Vals)) : Prop where
  renamed : ∃ f : Nat → Nat, F.Renamed F' (D.map Prod.fst) f ∧ D'.Perm (D.map (fun e => (f e.1, e.2)))
  same : keep = true → F' = F ∧ D'.Perm D

end Verif
