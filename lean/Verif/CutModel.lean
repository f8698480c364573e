/-
Cutting a branch out and pasting it somewhere else: `d = objects.dump_bulk(node)`, `node.delete()`, `objects.load_bulk(d, objects.get(pk=parent), keep_ids=True)`.
-/
import Verif.MP.DumpModel
import Verif.NS.DumpModel
import Verif.AL.DumpModel
import Verif.LT.DumpModel

namespace Verif

/-- the new parent, fetched after the deletion (`none` for a root) -/
def fetchParent (get : Nat → Option ρ) : Option Nat → Except Err (Option ρ)
  | none => .ok none
  | some k => match get k with
    | none => .error .doesNotExist
    | some r => .ok (some r)

/-- dump (mp_tree.py:713-750), delete (mp_tree.py:32-86) and load (models.py:438-487, utils.py:16-31) for MP -/
def MP.cutPaste (cfg : MP.Cfg) (db : MP.DB) (node : MP.Row) (parent : Option Nat) (keys : Nat → Nat) : Except Err (MP.DB × List Nat) :=
  match MP.dumpBulk cfg db (some node) true with
  | .error e => .error e
  | .ok d =>
    let db1 := MP.delete cfg db (fun r => r.pk == node.pk)
    match fetchParent db1.get? parent with
    | .error e => .error e
    | .ok p => match prepare true keys 0 d with
      | .error e => .error e
      | .ok (m, _) => MP.load cfg db1 p m

/-- the same for NS (ns_tree.py:385-417 and 30-73, models.py:438-487, utils.py:16-31) -/
def NS.cutPaste (cfg : NS.Cfg) (db : NS.DB) (node : NS.Row) (parent : Option Nat) (keys : Nat → Nat) : Except Err (NS.DB × List Nat) :=
  match NS.dumpBulk db (some node) true with
  | .error e => .error e
  | .ok d =>
    let db1 := NS.delete db (fun r => r.pk == node.pk)
    match fetchParent db1.get? parent with
    | .error e => .error e
    | .ok p => match prepare true keys 0 d with
      | .error e => .error e
      | .ok (m, _) => NS.load cfg db1 p m

/-- the same for AL (al_tree.py:159-192, models.py:97-100 and 438-487, utils.py:16-31); objects fetched have no `_cached_depth` -/
def AL.cutPaste (cfg : AL.Cfg) (db : AL.DB) (node : AL.Row × Option Int) (parent : Option Nat) (keys : Nat → Nat) : Except Err (AL.DB × List Nat) :=
  match AL.dumpBulk cfg db (some node) true with
  | .error e => .error e
  | .ok d =>
    let db1 := AL.delete db (fun r => r.pk == node.1.pk)
    match fetchParent db1.get? parent with
    | .error e => .error e
    | .ok p => match prepare true keys 0 d with
      | .error e => .error e
      | .ok (m, _) => AL.load cfg db1 (p.map (fun r => (r, none))) m

/-- the same for LT (ltree/__init__.py:365-402 and 99-128, models.py:438-487, utils.py:16-31) -/
def LT.cutPaste (cfg : LT.Cfg) (db : LT.DB) (node : LT.Row) (parent : Option Nat) (keys : Nat → Nat) : Except Err (LT.DB × List Nat) :=
  match LT.dumpBulk db (some node) true with
  | .error e => .error e
  | .ok d =>
    let db1 := LT.delete db (fun r => r.pk == node.pk)
    match fetchParent db1.get? parent with
    | .error e => .error e
    | .ok p => match prepare true keys 0 d with
      | .error e => .error e
      | .ok (m, _) => LT.load cfg db1 p m

end Verif
