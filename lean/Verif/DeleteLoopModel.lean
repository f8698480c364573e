/-
`node.delete()`, and deleting several nodes one after the other.
-/
import Verif.MP.Model
import Verif.NS.Model
import Verif.AL.Model
import Verif.LT.Model

namespace Verif

/-- models.py:97-100 `delete` of the materialized path backend: of the object only the primary key counts -/
def MP.deleteNode (cfg : MP.Cfg) (db : MP.DB) (node : MP.Row) : MP.DB := MP.delete cfg db (fun r => r.pk == node.pk)

/-- `for node in nodes: node.delete()` (models.py:97-100); an object whose row is gone already selects nothing, and no exception is raised -/
def MP.deleteLoop (cfg : MP.Cfg) (db : MP.DB) (nodes : List MP.Row) : MP.DB := nodes.foldl (MP.deleteNode cfg) db

/-- `for batch in batches: objects.filter(pk__in=batch).delete()` (mp_tree.py:32-86) -/
def MP.deleteBatches (cfg : MP.Cfg) (db : MP.DB) (batches : List (List Nat)) : MP.DB :=
  batches.foldl (fun db b => MP.delete cfg db (fun r => b.contains r.pk)) db

/-- models.py:97-100 `delete` of the nested sets backend -/
def NS.deleteNode (db : NS.DB) (node : NS.Row) : NS.DB := NS.delete db (fun r => r.pk == node.pk)

/-- `for node in nodes: node.delete()` (models.py:97-100) -/
def NS.deleteLoop (db : NS.DB) (nodes : List NS.Row) : NS.DB := nodes.foldl NS.deleteNode db

/-- `for batch in batches: objects.filter(pk__in=batch).delete()` (ns_tree.py:30-73) -/
def NS.deleteBatches (db : NS.DB) (batches : List (List Nat)) : NS.DB :=
  batches.foldl (fun db b => NS.delete db (fun r => b.contains r.pk)) db

/-- models.py:97-100 `delete` of the adjacency list backend -/
def AL.deleteNode (db : AL.DB) (node : AL.Row) : AL.DB := AL.delete db (fun r => r.pk == node.pk)

/-- `for node in nodes: node.delete()` (models.py:97-100) -/
def AL.deleteLoop (db : AL.DB) (nodes : List AL.Row) : AL.DB := nodes.foldl AL.deleteNode db

/-- `for batch in batches: objects.filter(pk__in=batch).delete()` (Django's `QuerySet.delete`) -/
def AL.deleteBatches (db : AL.DB) (batches : List (List Nat)) : AL.DB :=
  batches.foldl (fun db b => AL.delete db (fun r => b.contains r.pk)) db

/-- models.py:97-100 `delete` of the ltree backend -/
def LT.deleteNode (db : LT.DB) (node : LT.Row) : LT.DB := LT.delete db (fun r => r.pk == node.pk)

/-- `for node in nodes: node.delete()` (models.py:97-100) -/
def LT.deleteLoop (db : LT.DB) (nodes : List LT.Row) : LT.DB := nodes.foldl LT.deleteNode db

/-- `for batch in batches: objects.filter(pk__in=batch).delete()` (ltree/__init__.py:99-128) -/
def LT.deleteBatches (db : LT.DB) (batches : List (List Nat)) : LT.DB :=
  batches.foldl (fun db b => LT.delete db (fun r => b.contains r.pk)) db

end Verif
