/-
Specification: what becomes of a tree when siblings are put in a chosen order, and when a node is merged into another one.
-/
import Verif.Spec
import Verif.Common

namespace Verif
namespace Forest

/-- the children of `p` (the roots if `none`) are now `l`, everything else is as before -/
def withKids (F : Forest) (p : Option Nat) (l : List Nat) : Forest := fun q => if q = p then l else F q

/-- `ws`, some of the siblings `l`, stand at the end in the order of `ws`; the others are before them, in the order they had -/
def toEnd (l ws : List Nat) : List Nat := l.filter (fun k => decide (k ∉ ws)) ++ ws

/-- How putting the siblings `ws`, children of `p`, at the end finishes: it is done for some of them, from the first one on, and these are all of them or there was an error, for the
reason given. -/
def Arranged (F G : Forest) (p : Option Nat) (ws : List Nat) (err : Option Err) (Why : Err → Prop) : Prop :=
  ∃ done rest, ws = done ++ rest ∧ G = F.withKids p (toEnd (F p) done) ∧ if rest = [] then err = none else ∃ e, err = some e ∧ Why e

/-- the children `done` of `a` now come after those of `b`, everything else is as before -/
def handed (F : Forest) (a b : Nat) (done : List Nat) : Forest :=
  fun q => if q = some a then (F (some a)).filter (fun k => decide (k ∉ done)) else if q = some b then F (some b) ++ done else F q

/-- `a` is merged into `b`: `a` is not there any more, and the children it had come after those of `b` -/
def merged (F : Forest) (a b : Nat) : Forest :=
  fun q => if q = some a then [] else if q = some b then (F (some b)).filter (fun k => decide (k ≠ a)) ++ F (some a) else (F q).filter (fun k => decide (k ≠ a))

theorem toEnd_perm {l ws : List Nat} (h : ws.Perm l) : toEnd l ws = ws := by
  unfold toEnd
  rw [List.filter_eq_nil_iff.2 (fun k hk => by simpa using h.mem_iff.2 hk), List.nil_append]

end Forest
end Verif
