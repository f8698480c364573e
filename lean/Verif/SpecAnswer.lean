/-
Specification: the answers of the admin's views that write, and what they promise about the table.
-/
import Verif.Common

namespace Verif

/-- The answer to a submitted add or change page. -/
inductive FormAnswer where
  /-- a redirect: the page was saved -/
  | saved
  /-- the page again, with the errors -/
  | errors
  /-- an exception, which the user sees as a server error -/
  | exception (e : Err)
  /-- `TransactionManagementError`, likewise -/
  | transaction
deriving DecidableEq, Repr

/-- The answer to a drag and drop. -/
inductive MoveAnswer where
  | ok | badRequest | forbidden
  /-- an exception, which the user sees as a server error -/
  | exception (e : Err)
deriving DecidableEq, Repr

/-- All or nothing: either the user is told that it is done, and the table is the one asked for, or the user is told something else, and the table is as it was. -/
def AllOrNothing {σ α : Type} (done : α) (db : σ) (want : σ → Prop) (out : σ × α) : Prop :=
  (out.2 = done ∧ want out.1) ∨ (out.2 ≠ done ∧ out.1 = db)

end Verif
