/-
Model of `queryset.delete()` where Django's own `delete()` can refuse: django/db/models/deletion.py collects all the rows, raises `ProtectedError` or
`RestrictedError` before it deletes anything, and deletes (`pre_delete` handlers included) in one transaction.  It returns the number of
rows deleted; the rows of other tables that it deletes are not counted here.
-/
import Verif.SpecVeto
import Verif.MP.Model
import Verif.NS.Model
import Verif.AL.Model
import Verif.LT.Model

namespace Verif

/-- mp_tree.py:32-86 `delete`: the children counts are written first (73-74), and no transaction is open. -/
def MP.deleteV (veto : List Nat → Option Refusal) (cfg : MP.Cfg) (db : MP.DB) (sel : MP.Row → Bool) : MP.DB × Except Refusal Nat :=
  let removed := MP.removedLoop cfg (MP.orderByDepthPath (db.rows.filter sel)) []
  let plan := MP.deletePlan cfg removed ⟨[], [], []⟩
  let db := (plan.parents.map (fun e => MP.DelStmt.lose e.1 e.2)).foldl MP.execDel db
  let K := (db.rows.filter (MP.delMatches plan.pks plan.paths)).map MP.Row.pk
  match ask veto K with
  | some e => (db, .error e)
  | none => (MP.execDel db (.delete plan.pks plan.paths), .ok K.length)

/-- ns_tree.py:30-73 `delete`: the deletion is the first statement that writes. -/
def NS.deleteV (veto : List Nat → Option Refusal) (db : NS.DB) (sel : NS.Row → Bool) : NS.DB × Except Refusal Nat :=
  let ranges := NS.removeRanges (NS.order (db.rows.filter sel)) none
  if ranges.isEmpty then (db, .ok 0)
  else
    let K := (db.rows.filter (fun r => ranges.any (fun g => NS.inRange g r))).map NS.Row.pk
    match ask veto K with
    | some e => (db, .error e)
    | none => (((sortBy (fun a b => NS.rangeLt b a) ranges).map NS.DelStmt.close).foldl NS.execDel (NS.execDel db (.delete ranges)), .ok K.length)

/-- models.py:97-100: Django's own `delete`; the foreign key `parent` is the project's, with `on_delete=CASCADE` as in the documentation -/
def AL.deleteV (veto : List Nat → Option Refusal) (db : AL.DB) (S : AL.Row → Bool) : AL.DB × Except Refusal Nat :=
  let D := AL.cascade db db.rows.length (fun k => db.rows.any (fun r => r.pk == k && S r))
  let K := (db.rows.filter (fun r => D r.pk)).map AL.Row.pk
  match ask veto K with
  | some e => (db, .error e)
  | none => (⟨db.rows.filter (fun r => !D r.pk)⟩, .ok K.length)

/-- ltree/__init__.py:99-128 `delete` -/
def LT.deleteV (veto : List Nat → Option Refusal) (db : LT.DB) (sel : LT.Row → Bool) : LT.DB × Except Refusal Nat :=
  let paths := LT.removedLoop (LT.orderByPath (db.rows.filter sel)) []
  if paths.isEmpty then (db, .ok 0)
  else
    let K := (db.rows.filter (fun r => paths.any (fun p => p.isPrefixOf r.path))).map LT.Row.pk
    match ask veto K with
    | some e => (db, .error e)
    | none => ({ rows := db.rows.filter (fun r => !paths.any (fun p => p.isPrefixOf r.path)), sigs := db.sigs ++ [.nodesDeleted paths] }, .ok K.length)

end Verif
