/-
MP: `dump_bulk` and `load_bulk`.
-/
import Verif.MP.Model
import Verif.DumpModel

namespace Verif.MP

/-- mp_tree.py:741-748: the place of a row; `depth = int(len(path) / steplen)` -/
def dumpPlace (cfg : Cfg) (parent : Option Row) (r : Row) : Except Err (Option (List Nat)) :=
  let depth := r.path.length / cfg.steplen
  let top := match parent with
    | none => depth == 1
    | some p => r.path.length == p.path.length
  if top then .ok none else .ok (some (basepath cfg r.path ((depth : Int) - 1)))

/-- mp_tree.py:721-723: the rows -/
def dumpRows (db : DB) (parent : Option Row) : List Row :=
  orderByDepthPath (match parent with
    | none => db.rows
    | some p => db.rows.filter (fun r => p.path.isPrefixOf r.path))

/-- mp_tree.py:713-750 `dump_bulk` -/
def dumpBulk (cfg : Cfg) (db : DB) (parent : Option Row) (keep : Bool) : Except Err (Nest Item) :=
  (dumpLoop Row.path (dumpPlace cfg parent) (dumpRows db parent) .nil).map (Nest.map (itemOf Row.pk Row.vals keep))

/-- `add_child(parent, instance=obj) if parent else add_root(instance=obj)` with an unsaved object (models.py:476-480, mp_tree.py:691-695);
`numchild` is 0 (the default) in the first case -/
def addTo (cfg : Cfg) (db : DB) (parent : Option Row) (new : Row) : Except Err (DB × Row) :=
  match parent with
  | none => addRoot cfg db new
  | some p => (addChild cfg db p new).map (fun r => (r.1, r.2.1))

/-- models.py:438-487 `load_bulk` for MP (`bulk_create=False`, mp_tree.py:666-667) -/
def load (cfg : Cfg) (db : DB) (parent : Option Row) (data : Nest (Nat × Vals)) : Except Err (DB × List Nat) :=
  loadBulk (fun db p a => addTo cfg db p ⟨a.1, [], 0, 0, a.2⟩) Row.pk db parent data

/-- mp_tree.py:677-688 `_build_children`: the objects for `children_to_create`; `i` counts from 0 -/
def buildChildren (cfg : Cfg) (path : List Nat) (depth : Nat) : Nat → Nest (Nat × Vals) → Except Err (List Row)
  | _, .nil => .ok []
  | i, .cons (k, v) c r =>
    match getPath cfg path ((depth : Int) + 1) ((i : Int) + 1) with
    | .error e => .error e
    | .ok p =>
      match buildChildren cfg p (depth + 1) 0 c with
      | .error e => .error e
      | .ok l1 =>
        match buildChildren cfg path depth (i + 1) r with
        | .error e => .error e
        | .ok l2 => .ok (⟨k, p, depth + 1, (c.tops.length : Int), v⟩ :: (l1 ++ l2))

/-- mp_tree.py:691-700: the first level, node by node.  Returns the table, the objects still to create and the keys added. -/
def firstLevel (cfg : Cfg) (db : DB) (parent : Option Row) : Nest (Nat × Vals) → Except Err (DB × List Row × List Nat)
  | .nil => .ok (db, [], [])
  | .cons (k, v) c r =>
    match addTo cfg db parent ⟨k, [], 0, (c.tops.length : Int), v⟩ with
    | .error e => .error e
    | .ok (db, obj) =>
      match buildChildren cfg obj.path obj.depth 0 c with
      | .error e => .error e
      | .ok l1 =>
        match firstLevel cfg db parent r with
        | .error e => .error e
        | .ok (db, l2, added) => .ok (db, l1 ++ l2, obj.pk :: added)

/-- `bulk_create(objs)`: INSERTs; primary key and path are unique.  (`batch_size` only splits the statement.) -/
def bulkCreate (db : DB) (objs : List Row) : Except Err DB :=
  let rows := db.rows ++ objs
  if decide (rows.map Row.pk).Nodup && uniquePaths rows then .ok { db with rows } else .error .integrity

/-- mp_tree.py:673-711 `load_bulk(bulk_create=True)` -/
def loadCreate (cfg : Cfg) (db : DB) (parent : Option Row) (data : Nest (Nat × Vals)) : Except Err (DB × List Nat) :=
  match firstLevel cfg db parent data with
  | .error e => .error e
  | .ok (db, objs, added) =>
    match bulkCreate db objs with
    | .error e => .error e
    | .ok db => .ok (db, added ++ objs.map Row.pk)

end Verif.MP
