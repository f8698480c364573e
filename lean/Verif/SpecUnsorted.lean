/-
C92: what a history with `node_order_by` would be without it.
-/
import Verif.SpecHistory
import Verif.SpecLoadSorted

namespace Verif

/-- The operation with every node put behind its new siblings.  The positions that need a tree without order are refused with `node_order_by`, so nothing is
done for them. -/
def plainOp : Op → Op
  | .addRoot k v => .addRoot k v
  | .addChild t k v => .addChild t k v
  | .addSibling t pos k v => if pos = none ∨ pos = some .sortedSibling then .addSibling t (some .lastSibling) k v else .delete []
  | .move x t pos => if pos = none ∨ pos = some .sortedSibling then .move x t (some .lastSibling)
    else if pos = some .sortedChild then .move x t (some .lastChild) else .delete []
  | .delete S => .delete S

end Verif
