/-
C98: what an object is after `refresh_from_db()`.
-/
import Verif.RefreshModel

namespace Verif

/-- The object has the fields of the row `r`; the attributes `names` and the related objects `rels` are gone, all the others are as they were. -/
structure Refreshed {ρ : Type} (names rels : List String) (o o' : PyObj ρ) (r : ρ) : Prop where
  row : o'.row = r
  gone : ∀ n ∈ names, o'.attrs.lookup n = none
  kept : ∀ n, n ∉ names → o'.attrs.lookup n = o.attrs.lookup n
  relsGone : ∀ n ∈ rels, o'.rels.lookup n = none
  relsKept : ∀ n, n ∉ rels → o'.rels.lookup n = o.rels.lookup n

end Verif
