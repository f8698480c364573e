/-
Specification: the many-to-many relations of nodes, and what becomes of them when nested data is loaded.
-/
import Verif.SpecDump

namespace Verif

/-- `L k a`: the keys of the objects that the node with the key `k` is related to through the field `a` -/
abbrev Links := Nat → Nat → List Nat

/-- the relations that the data of one node gives: fields with keys -/
abbrev M2M := List (Nat × List Nat)

/-- The relations `L'` are `L` after the relations `ps` have been given to nodes (keys with relations): these nodes have exactly the given related
objects in every given field, and nothing else has changed. -/
structure Linked (L L' : Links) (ps : List (Nat × M2M)) : Prop where
  given : ∀ p ∈ ps, ∀ e ∈ p.2, L' p.1 e.1 = e.2
  notGiven : ∀ p ∈ ps, ∀ a, a ∉ p.2.map Prod.fst → L' p.1 a = L p.1 a
  others : ∀ k, k ∉ ps.map Prod.fst → L' k = L k

/-- `Restored`, and every node is related to the same objects as before in the fields `as`; the relations of keys that are not loaded, and those in
other fields, are the ones that were there, `L₀`. -/
structure RestoredLinks (keep : Bool) (F F' : Forest) (D D' : List (Nat × Vals)) (as : List Nat) (L L₀ L' : Links) : Prop where
  renamed : ∃ f : Nat → Nat, F.Renamed F' (D.map Prod.fst) f ∧ D'.Perm (D.map (fun e => (f e.1, e.2))) ∧
    ∀ k ∈ D.map Prod.fst, ∀ a ∈ as, L' (f k) a = L k a
  same : keep = true → F' = F ∧ D'.Perm D ∧ ∀ k ∈ D.map Prod.fst, ∀ a ∈ as, L' k a = L k a
  others : ∀ k, k ∉ D'.map Prod.fst → L' k = L₀ k
  fields : ∀ k a, a ∉ as → L' k a = L₀ k a

end Verif
