/-
Copying a branch: `objects.load_bulk(objects.dump_bulk(node, keep_ids=False), parent)`.
-/
import Verif.MP.DumpModel
import Verif.NS.DumpModel
import Verif.AL.DumpModel
import Verif.LT.DumpModel

namespace Verif

/-- `load_bulk(dump_bulk(node, keep_ids=False), parent)` for MP (mp_tree.py:713-750, models.py:438-487, utils.py:16-31); `keys` are the primary keys that the database chooses -/
def MP.copyBranch (cfg : MP.Cfg) (db : MP.DB) (node : MP.Row) (parent : Option MP.Row) (keys : Nat → Nat) : Except Err (MP.DB × List Nat) :=
  match MP.dumpBulk cfg db (some node) false with
  | .error e => .error e
  | .ok d => match prepare false keys 0 d with
    | .error e => .error e
    | .ok (m, _) => MP.load cfg db parent m

/-- the same for NS (ns_tree.py:385-417, models.py:438-487, utils.py:16-31) -/
def NS.copyBranch (cfg : NS.Cfg) (db : NS.DB) (node : NS.Row) (parent : Option NS.Row) (keys : Nat → Nat) : Except Err (NS.DB × List Nat) :=
  match NS.dumpBulk db (some node) false with
  | .error e => .error e
  | .ok d => match prepare false keys 0 d with
    | .error e => .error e
    | .ok (m, _) => NS.load cfg db parent m

/-- the same for AL (al_tree.py:159-192, models.py:438-487, utils.py:16-31); the objects come with their `_cached_depth` -/
def AL.copyBranch (cfg : AL.Cfg) (db : AL.DB) (node : AL.Row × Option Int) (parent : Option (AL.Row × Option Int)) (keys : Nat → Nat) : Except Err (AL.DB × List Nat) :=
  match AL.dumpBulk cfg db (some node) false with
  | .error e => .error e
  | .ok d => match prepare false keys 0 d with
    | .error e => .error e
    | .ok (m, _) => AL.load cfg db parent m

/-- the same for LT (ltree/__init__.py:365-402, models.py:438-487, utils.py:16-31) -/
def LT.copyBranch (cfg : LT.Cfg) (db : LT.DB) (node : LT.Row) (parent : Option LT.Row) (keys : Nat → Nat) : Except Err (LT.DB × List Nat) :=
  match LT.dumpBulk db (some node) false with
  | .error e => .error e
  | .ok d => match prepare false keys 0 d with
    | .error e => .error e
    | .ok (m, _) => LT.load cfg db parent m

end Verif
