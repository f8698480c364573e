/-
Specification: adding many nodes one after the other.
-/
import Verif.SpecHistory

namespace Verif

/-- one call after the other; the first exception ends it -/
def addEach {σ ρ : Type} (add : σ → ρ → Except Err (σ × ρ)) : σ → List ρ → Except Err σ
  | db, [] => .ok db
  | db, x :: xs =>
    match add db x with
    | .error e => .error e
    | .ok (db, _) => addEach add db xs

/-- operations that make roots by `add_root` only -/
def Op.Plain : Op → Prop
  | .addRoot _ _ | .addChild _ _ _ | .delete _ => True
  | _ => False

end Verif
