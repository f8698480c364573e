/-
AL: `dump_bulk` and `load_bulk`.
-/
import Verif.AL.Model
import Verif.DumpModel

namespace Verif.AL

/-- al_tree.py:168, 184-190: the place of a node; `e` is the node with the `_cached_depth` that get_tree left on it, `lnk[None]` is a KeyError.
`cached` of the parent is what it was before get_tree read the depth (reading it again gives the same). -/
def dumpPlace (db : DB) (parent : Option (Row × Option Int)) (e : Row × Int) : Except Err (Option Nat) :=
  match getDepth db e.1 (some e.2) with
  | .error err => .error err
  | .ok depth =>
    let top : Except Err Bool := match parent with
      | none => .ok (depth == 1)
      | some (p, cached) => (getDepth db p cached).map (fun d => depth == d)
    match top with
    | .error err => .error err
    | .ok true => .ok none
    | .ok false => match e.1.parent with
      | none => .error .keyError
      | some k => .ok (some k)

/-- al_tree.py:159-192 `dump_bulk` -/
def dumpBulk (cfg : Cfg) (db : DB) (parent : Option (Row × Option Int)) (keep : Bool) : Except Err (Nest Item) :=
  match getTree cfg db parent none with
  | .error err => .error err
  | .ok objs => (dumpLoop (fun e : Row × Int => e.1.pk) (dumpPlace db parent) objs .nil).map (Nest.map (itemOf (fun e => e.1.pk) (fun e => e.1.vals) keep))

/-- `add_child(parent, instance=obj) if parent else add_root(instance=obj)` with an unsaved object (models.py:476-480); an object comes with its
`_cached_depth`, if it has one -/
def addTo (cfg : Cfg) (db : DB) (parent : Option (Row × Option Int)) (new : Row) : Except Err (DB × Row × Option Int) :=
  match parent with
  | none => (addRoot cfg db new).map (fun r => (r.1, r.2, some 1))
  | some (p, cached) => addChild cfg db p cached new

/-- models.py:438-487 `load_bulk` for AL.  The dump has no parents (al_tree.py:171), so the new objects have none either. -/
def load (cfg : Cfg) (db : DB) (parent : Option (Row × Option Int)) (data : Nest (Nat × Vals)) : Except Err (DB × List Nat) :=
  loadBulk (fun db p a => addTo cfg db p ⟨a.1, none, 0, a.2⟩) (fun e : Row × Option Int => e.1.pk) db parent data

end Verif.AL
