/-
Merging a node into another one: `for c in node.get_children(): c.move(target, 'last-child')`, then `node.delete()`.
-/
import Verif.MP.MoveLoop
import Verif.NS.MoveLoop
import Verif.AL.MoveLoop
import Verif.LT.MoveLoop

namespace Verif

/-- the loop of moves (mp_tree.py:480-534) over the objects `children`, then `delete` of `a` (mp_tree.py:32-86); an exception ends the program -/
def MP.mergeInto (cfg : MP.Cfg) (children : List MP.Row) (a t : MP.Row) (db : MP.DB) : MP.DB × Option Err :=
  match MP.moveLoop cfg (some .lastChild) children t db with
  | (db', none) => (MP.delete cfg db' (fun r => r.pk == a.pk), none)
  | (db', some e) => (db', some e)

/-- the same for NS (ns_tree.py:257-379 and 30-73) -/
def NS.mergeInto (cfg : NS.Cfg) (children : List NS.Row) (a t : NS.Row) (db : NS.DB) : NS.DB × Option Err :=
  match NS.moveLoop cfg (some .lastChild) children t db with
  | (db', none) => (NS.delete db' (fun r => r.pk == a.pk), none)
  | (db', some e) => (db', some e)

/-- the same for AL (al_tree.py:108-153; `delete` is Django's) -/
def AL.mergeInto (cfg : AL.Cfg) (children : List AL.Row) (a t : AL.Row) (db : AL.DB) : AL.DB × Option Err :=
  match AL.moveLoop cfg (some .lastChild) t children db with
  | (db', none) => (AL.delete db' (fun r => r.pk == a.pk), none)
  | (db', some e) => (db', some e)

/-- the same for LT (ltree/__init__.py:266-334 and 99-128) -/
def LT.mergeInto (cfg : LT.Cfg) (children : List LT.Row) (a t : LT.Row) (db : LT.DB) : LT.DB × Option Err :=
  match LT.moveLoop cfg (some .lastChild) children t db with
  | (db', none) => (LT.delete db' (fun r => r.pk == a.pk), none)
  | (db', some e) => (db', some e)

end Verif
