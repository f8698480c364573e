/-
NS: `dump_bulk` and `load_bulk`.
-/
import Verif.NS.Model
import Verif.DumpModel

namespace Verif.NS

/-- ns_tree.py:408-415: the place of a row; the stored depth tells the rows at the top, the others go below `get_parent(pyobj)` (the rows of
the queryset have no cached parent), and `None.pk` is an AttributeError -/
def dumpPlace (db : DB) (parent : Option Row) (r : Row) : Except Err (Option Nat) :=
  let top := match parent with
    | none => r.depth == 1
    | some p => r.depth == p.depth
  if top then .ok none
  else match getParent db r none with
    | .error e => .error e
    | .ok none => .error .attributeError
    | .ok (some q) => .ok (some q.pk)

/-- ns_tree.py:385-417 `dump_bulk` -/
def dumpBulk (db : DB) (parent : Option Row) (keep : Bool) : Except Err (Nest Item) :=
  (dumpLoop Row.pk (dumpPlace db parent) (getTree db parent none) .nil).map (Nest.map (itemOf Row.pk Row.vals keep))

/-- `add_child(parent, instance=obj) if parent else add_root(instance=obj)` with an unsaved object (models.py:476-480) -/
def addTo (cfg : Cfg) (db : DB) (parent : Option Row) (new : Row) : Except Err (DB × Row) :=
  match parent with
  | none => addRoot cfg db new
  | some p => (addChild cfg db p new).map (fun r => (r.1, r.2.1))

/-- models.py:438-487 `load_bulk` for NS -/
def load (cfg : Cfg) (db : DB) (parent : Option Row) (data : Nest (Nat × Vals)) : Except Err (DB × List Nat) :=
  loadBulk (fun db p a => addTo cfg db p ⟨a.1, 0, 0, 0, 0, a.2⟩) Row.pk db parent data

end Verif.NS
