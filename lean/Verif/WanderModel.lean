/-
Caller code: one node object is moved several times.

    for pk, pos in steps:
        node.move(Model.objects.get(pk=pk), pos)

The object keeps what the previous move wrote to it, each target is fetched right
before its move. An exception ends the loop; what the moves before did stays done.
-/
import Verif.MP.Model
import Verif.NS.Model
import Verif.AL.Model
import Verif.LT.Model

namespace Verif

/-- the loop; `get` is `objects.get(pk=…)`, `mv` is `node.move(target, pos)` -/
def wander {σ ρ : Type} (get : σ → Nat → Option ρ) (mv : σ → ρ → ρ → Option Pos → Except Err (σ × ρ)) : List (Nat × Option Pos) → σ → ρ → Except Err (σ × ρ)
  | [], s, x => .ok (s, x)
  | (k, pos) :: l, s, x =>
    match get s k with
    | none => .error .doesNotExist
    | some t =>
      match mv s x t pos with
      | .error e => .error e
      | .ok (s', x') => wander get mv l s' x'

/-- mp_tree.py:480-534 `move` -/
def MP.wander (cfg : Cfg) (steps : List (Nat × Option Pos)) (db : DB) (x : Row) : Except Err (DB × Row) :=
  Verif.wander DB.get? (fun db x t pos => (move cfg db x t pos).map (fun r => (r.db, r.node))) steps db x

/-- ns_tree.py:257-379 `move`; the fetched target has no cached parent -/
def NS.wander (cfg : Cfg) (steps : List (Nat × Option Pos)) (db : DB) (x : Row) : Except Err (DB × Row) :=
  Verif.wander DB.get? (fun db x t pos => (move cfg db x t none pos).map (fun r => (r.db, r.node))) steps db x

/-- al_tree.py:108-153 `move`; the object has no cached depth -/
def AL.wander (cfg : Cfg) (steps : List (Nat × Option Pos)) (db : DB) (x : Row) : Except Err (DB × Row) :=
  Verif.wander DB.get? (fun db x t pos => move cfg db x t none pos) steps db x

/-- ltree/__init__.py:266-334 `move` -/
def LT.wander (cfg : Cfg) (steps : List (Nat × Option Pos)) (db : DB) (x : Row) : Except Err (DB × Row) :=
  Verif.wander DB.get? (fun db x t pos => move cfg db x t pos) steps db x

end Verif
