/-
C97: what a load takes.
-/
import Verif.SpecDump

namespace Verif

/-- the number of levels of a structure -/
def Nest.height : Nest α → Nat
  | .nil => 0
  | .cons _ c r => max (c.height + 1) r.height

end Verif
