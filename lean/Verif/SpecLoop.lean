/-
Client code that adds nodes in a loop and keeps the objects.
-/
import Verif.Common

namespace Verif

/-- `objs = [objects.add_child(target, ...) for ... in news]`.  `add` returns the table, the new object and the caller's `target`, which `add_child`
may change.  The result: the table, the objects and `target` after the loop. -/
def addAll (add : σ → ρ → ν → Except Err (σ × ρ × ρ)) : σ → ρ → List ν → Except Err (σ × List ρ × ρ)
  | db, t, [] => .ok (db, [], t)
  | db, t, n :: ns =>
    match add db t n with
    | .error e => .error e
    | .ok (db, obj, t) =>
      match addAll add db t ns with
      | .error e => .error e
      | .ok (db, objs, t) => .ok (db, obj :: objs, t)

end Verif
