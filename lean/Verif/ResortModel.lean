/-
Sorting nodes anew among their siblings, after values have been edited or `node_order_by` has been set for a tree that had none.
-/
import Verif.MP.Model
import Verif.NS.Model
import Verif.AL.Model
import Verif.LT.Model

namespace Verif

/-- `for pk in ks: node = objects.get(pk=pk); objects.move(node, node, "sorted-sibling")` (mp_tree.py:480-534).  `move` reads its arguments and refreshes both at the end, so it makes no
difference that they are one object.  An exception ends the loop. -/
def MP.resort (cfg : MP.Cfg) : List Nat → MP.DB → MP.DB × Option Err
  | [], db => (db, none)
  | k :: ks, db => match db.get? k with
    | none => (db, some .doesNotExist)
    | some x => match MP.move cfg db x x (some .sortedSibling) with
      | .error e => (db, some e)
      | .ok res => MP.resort cfg ks res.db

/-- the same (ns_tree.py:257-379) -/
def NS.resort (cfg : NS.Cfg) : List Nat → NS.DB → NS.DB × Option Err
  | [], db => (db, none)
  | k :: ks, db => match db.get? k with
    | none => (db, some .doesNotExist)
    | some x => match NS.move cfg db x x none (some .sortedSibling) with
      | .error e => (db, some e)
      | .ok res => NS.resort cfg ks res.db

/-- the same (al_tree.py:108-153) -/
def AL.resort (cfg : AL.Cfg) : List Nat → AL.DB → AL.DB × Option Err
  | [], db => (db, none)
  | k :: ks, db => match db.get? k with
    | none => (db, some .doesNotExist)
    | some x => match AL.move cfg db x x none (some .sortedSibling) with
      | .error e => (db, some e)
      | .ok (db', _) => AL.resort cfg ks db'

/-- the same (ltree/__init__.py:266-334) -/
def LT.resort (cfg : LT.Cfg) : List Nat → LT.DB → LT.DB × Option Err
  | [], db => (db, none)
  | k :: ks, db => match db.get? k with
    | none => (db, some .doesNotExist)
    | some x => match LT.move cfg db x x (some .sortedSibling) with
      | .error e => (db, some e)
      | .ok (db', _) => LT.resort cfg ks db'

end Verif
