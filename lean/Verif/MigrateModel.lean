/-
Changing the kind of tree of a model: the tree is dumped by one class and loaded by another one.
-/
import Verif.DumpModel
import Verif.Props.MPDump
import Verif.Props.NSDump
import Verif.Props.ALDump
import Verif.Props.LTDump

namespace Verif

/-- `d` is what `dump_bulk(None, keep_ids)` of one of the four kinds of trees returns (mp_tree.py:713-750, ns_tree.py:385-417, al_tree.py:159-192, ltree/__init__.py:365-402), for a
consistent table that holds the forest `F` and the data `D`. -/
inductive DumpOf (keep : Bool) (d : Nest Item) : Forest → List (Nat × Vals) → Prop where
  | mp {cfg : MP.Cfg} {db : MP.DB} : cfg.Ok → MP.Consistent cfg db → MP.dumpBulk cfg db none keep = .ok d → DumpOf keep d (MP.forest cfg db) (MP.data db.rows)
  | ns {db : NS.DB} : NS.Consistent db → NS.dumpBulk db none keep = .ok d → DumpOf keep d (NS.forest db) (NS.data db.rows)
  | al {cfg : AL.Cfg} {db : AL.DB} : AL.Wf cfg db → AL.dumpBulk cfg db none keep = .ok d → DumpOf keep d (AL.forest cfg db) (AL.data db.rows)
  | lt {db : LT.DB} : LT.Consistent db → LT.dumpBulk db none keep = .ok d → DumpOf keep d (LT.forest db) (LT.data db.rows)

end Verif
