/-
Specification: deletions that Django can refuse, and what they return.
-/
import Verif.SpecHistory

namespace Verif

/-- Why Django does not delete: a foreign key with `PROTECT` or with `RESTRICT` refers to one of the rows, or a `pre_delete` handler raises. -/
inductive Refusal where
  | protect | restrict | handler
deriving DecidableEq, Repr

/-- The answer of the rest of the project about deleting the rows with these keys.  Nobody is asked about no row. -/
def ask (veto : List Nat → Option Refusal) (K : List Nat) : Option Refusal := if K = [] then none else veto K

open Classical in
/-- the selected keys and those of the nodes below them -/
noncomputable def doomedKeys (F : Forest) (keys : List Nat) (S : Nat → Bool) : List Nat :=
  keys.filter (fun k => decide (Tree.Doomed F S k))

/-- The table and the result of a deletion of the keys `K`: refused, with the table `refused`, or done, with the table `done` and the
number of nodes deleted. -/
def answer (veto : List Nat → Option Refusal) (K : List Nat) (refused done : σ) : σ × Except Refusal Nat :=
  match ask veto K with
  | some e => (refused, .error e)
  | none => (done, .ok K.length)

end Verif
