/-
A node dissolved: `for child in reversed(node.get_children()): child.move(node, 'right')` and then `node.delete()`.

All objects are fetched before the first move, and an exception ends the program.
-/
import Verif.MP.MoveLoop
import Verif.NS.MoveLoop
import Verif.AL.MoveLoop
import Verif.LT.MoveLoop

namespace Verif

/-- the loop of moves (mp_tree.py:480-534) over the objects `children`, the last one first, then `delete` of `x` (mp_tree.py:32-86) -/
def MP.dissolve (cfg : MP.Cfg) (children : List MP.Row) (x : MP.Row) (db : MP.DB) : MP.DB × Option Err :=
  match MP.moveLoop cfg (some .right) children.reverse x db with
  | (db', none) => (MP.delete cfg db' (fun r => r.pk == x.pk), none)
  | (db', some e) => (db', some e)

/-- the same for NS (ns_tree.py:257-379 and 30-73) -/
def NS.dissolve (cfg : NS.Cfg) (children : List NS.Row) (x : NS.Row) (db : NS.DB) : NS.DB × Option Err :=
  match NS.moveLoop cfg (some .right) children.reverse x db with
  | (db', none) => (NS.delete db' (fun r => r.pk == x.pk), none)
  | (db', some e) => (db', some e)

/-- the same for AL (al_tree.py:108-153; `delete` is Django's) -/
def AL.dissolve (cfg : AL.Cfg) (children : List AL.Row) (x : AL.Row) (db : AL.DB) : AL.DB × Option Err :=
  match AL.moveLoop cfg (some .right) x children.reverse db with
  | (db', none) => (AL.delete db' (fun r => r.pk == x.pk), none)
  | (db', some e) => (db', some e)

/-- the same for LT (ltree/__init__.py:266-334 and 99-128) -/
def LT.dissolve (cfg : LT.Cfg) (children : List LT.Row) (x : LT.Row) (db : LT.DB) : LT.DB × Option Err :=
  match LT.moveLoop cfg (some .right) children.reverse x db with
  | (db', none) => (LT.delete db' (fun r => r.pk == x.pk), none)
  | (db', some e) => (db', some e)

end Verif
