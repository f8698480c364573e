/-
LT: `dump_bulk` and `load_bulk`.
-/
import Verif.LT.Model
import Verif.DumpModel

namespace Verif.LT

/-- ltree/__init__.py:393-397: the place of a row; its depth is the length of its path, and a row that is not at the top goes below the row
whose path is the path without the last label -/
def dumpPlace (parent : Option Row) (r : Row) : Except Err (Option Path) :=
  let top := match parent with
    | none => r.path.length == 1
    | some p => r.path.length == p.path.length
  if top then .ok none else .ok (some r.path.dropLast)

/-- ltree/__init__.py:365-402 `dump_bulk`; the query set is that of `get_tree` without a depth (`objects.all()`, ordered by path, with
`path__descendants=parent.path`) -/
def dumpBulk (db : DB) (parent : Option Row) (keep : Bool) : Except Err (Nest Item) :=
  (dumpLoop Row.path (dumpPlace parent) (getTree db parent none) .nil).map (Nest.map (itemOf Row.pk Row.vals keep))

/-- `add_child(parent, instance=obj) if parent else add_root(instance=obj)` with an unsaved object (models.py:476-480) -/
def addTo (cfg : Cfg) (db : DB) (parent : Option Row) (new : Row) : Except Err (DB × Row) :=
  match parent with
  | none => addRoot cfg db new
  | some p => addChild cfg db p new

/-- models.py:438-487 `load_bulk` for LT -/
def load (cfg : Cfg) (db : DB) (parent : Option Row) (data : Nest (Nat × Vals)) : Except Err (DB × List Nat) :=
  loadBulk (fun db p a => addTo cfg db p ⟨a.1, [], a.2⟩) Row.pk db parent data

end Verif.LT
