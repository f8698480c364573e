/-
Model of the many-to-many relations in `dump_bulk` and `load_bulk`.
-/
import Verif.SpecLinks
import Verif.MP.DumpModel
import Verif.NS.DumpModel
import Verif.AL.DumpModel
import Verif.LT.DumpModel

namespace Verif

/-- `getattr(node, accessor_name).set(object_list)` (Django): the node is related to exactly these objects.  Simplified: a relation of a model with
itself is not symmetrical. -/
def setLink (L : Links) (k a : Nat) (l : List Nat) : Links := fun k' a' => if k' = k ∧ a' = a then l else L k' a'

/-- utils.py:34-41 `save_m2m`; `m2m_data` is not looked at again, every object is saved once -/
def saveM2m (L : Links) (k : Nat) (m : M2M) : Links := if m.isEmpty then L else m.foldl (fun L e => setLink L k e.1 e.2) L

/-- the many-to-many fields `as` in the `fields` of a serialized node (Django): for each the list of the related keys, which may be empty -/
def m2mOf (as : List Nat) (L : Links) (k : Nat) : M2M := as.map (fun a => (a, L k a))

/-- utils.py:16-31 `prepare_dumpdata_for_loading` as `prepare`, with relations: `deserialized_obj.m2m_data` are those in the data, unchanged -/
def prepareLinks (keep : Bool) (keys : Nat → Nat) : Nat → Nest (Item × M2M) → Except Err (Nest ((Nat × Vals) × M2M) × Nat)
  | i, .nil => .ok (.nil, i)
  | i, .cons ((pk, v), m) c r =>
    match itemKey keep keys i pk with
    | .error e => .error e
    | .ok (k, i) =>
      match prepareLinks keep keys i c with
      | .error e => .error e
      | .ok (c, i) =>
        match prepareLinks keep keys i r with
        | .error e => .error e
        | .ok (r, i) => .ok (.cons ((k, v), m) c r, i)

/-- models.py:475-482, one turn of the loop: the node is added, then its relations are saved -/
def addLinks (add : σ → Option ρ → α → Except Err (σ × ρ)) (pk : ρ → Nat) (s : σ × Links) (parent : Option ρ) (a : α × M2M) :
    Except Err ((σ × Links) × ρ) :=
  match add s.1 parent a.1 with
  | .error e => .error e
  | .ok (db, obj) => .ok ((db, saveM2m s.2 (pk obj) a.2), obj)

namespace MP

/-- mp_tree.py:713-750 `dump_bulk`, of a model with the many-to-many fields `as` -/
def dumpLinks (cfg : Cfg) (db : DB) (as : List Nat) (L : Links) (parent : Option Row) (keep : Bool) : Except Err (Nest (Item × M2M)) :=
  (dumpLoop Row.path (dumpPlace cfg parent) (dumpRows db parent) .nil).map
    (Nest.map (fun r => (itemOf Row.pk Row.vals keep r, m2mOf as L r.pk)))

/-- models.py:438-487 `load_bulk` for MP (`bulk_create=False`) -/
def loadLinks (cfg : Cfg) (db : DB) (L : Links) (parent : Option Row) (data : Nest ((Nat × Vals) × M2M)) : Except Err ((DB × Links) × List Nat) :=
  loadBulk (addLinks (fun db p a => addTo cfg db p ⟨a.1, [], 0, 0, a.2⟩) Row.pk) Row.pk (db, L) parent data

/-- mp_tree.py:677-688 `_build_children`: `children_to_create`, the objects with their relations -/
def buildChildrenLinks (cfg : Cfg) (path : List Nat) (depth : Nat) : Nat → Nest ((Nat × Vals) × M2M) → Except Err (List (Row × M2M))
  | _, .nil => .ok []
  | i, .cons ((k, v), m) c r =>
    match getPath cfg path ((depth : Int) + 1) ((i : Int) + 1) with
    | .error e => .error e
    | .ok p =>
      match buildChildrenLinks cfg p (depth + 1) 0 c with
      | .error e => .error e
      | .ok l1 =>
        match buildChildrenLinks cfg path depth (i + 1) r with
        | .error e => .error e
        | .ok l2 => .ok ((⟨k, p, depth + 1, (c.tops.length : Int), v⟩, m) :: (l1 ++ l2))

/-- mp_tree.py:690-700: the first level, node by node, with the relations of these nodes -/
def firstLevelLinks (cfg : Cfg) (db : DB) (L : Links) (parent : Option Row) :
    Nest ((Nat × Vals) × M2M) → Except Err ((DB × Links) × List (Row × M2M) × List Nat)
  | .nil => .ok ((db, L), [], [])
  | .cons ((k, v), m) c r =>
    match addTo cfg db parent ⟨k, [], 0, (c.tops.length : Int), v⟩ with
    | .error e => .error e
    | .ok (db, obj) =>
      match buildChildrenLinks cfg obj.path obj.depth 0 c with
      | .error e => .error e
      | .ok l1 =>
        match firstLevelLinks cfg db (saveM2m L obj.pk m) parent r with
        | .error e => .error e
        | .ok (s, l2, added) => .ok (s, l1 ++ l2, obj.pk :: added)

/-- mp_tree.py:673-711 `load_bulk(bulk_create=True)`; `created` are the objects given to `bulk_create`, in the same order -/
def loadCreateLinks (cfg : Cfg) (db : DB) (L : Links) (parent : Option Row) (data : Nest ((Nat × Vals) × M2M)) :
    Except Err ((DB × Links) × List Nat) :=
  match firstLevelLinks cfg db L parent data with
  | .error e => .error e
  | .ok ((db, L), objs, added) =>
    match bulkCreate db (objs.map Prod.fst) with
    | .error e => .error e
    | .ok db =>
      let created := objs.map Prod.fst
      let L := (created.zip objs).foldl (fun L x => saveM2m L x.1.pk x.2.2) L
      .ok ((db, L), added ++ created.map Row.pk)

end MP

namespace NS

/-- ns_tree.py:385-417 `dump_bulk`, of a model with the many-to-many fields `as` -/
def dumpLinks (db : DB) (as : List Nat) (L : Links) (parent : Option Row) (keep : Bool) : Except Err (Nest (Item × M2M)) :=
  (dumpLoop Row.pk (dumpPlace db parent) (getTree db parent none) .nil).map
    (Nest.map (fun r => (itemOf Row.pk Row.vals keep r, m2mOf as L r.pk)))

/-- models.py:438-487 `load_bulk` for NS -/
def loadLinks (cfg : Cfg) (db : DB) (L : Links) (parent : Option Row) (data : Nest ((Nat × Vals) × M2M)) : Except Err ((DB × Links) × List Nat) :=
  loadBulk (addLinks (fun db p a => addTo cfg db p ⟨a.1, 0, 0, 0, 0, a.2⟩) Row.pk) Row.pk (db, L) parent data

end NS

namespace AL

/-- al_tree.py:159-192 `dump_bulk`, of a model with the many-to-many fields `as` -/
def dumpLinks (cfg : Cfg) (db : DB) (as : List Nat) (L : Links) (parent : Option (Row × Option Int)) (keep : Bool) : Except Err (Nest (Item × M2M)) :=
  match getTree cfg db parent none with
  | .error err => .error err
  | .ok objs => (dumpLoop (fun e : Row × Int => e.1.pk) (dumpPlace db parent) objs .nil).map
      (Nest.map (fun e => (itemOf (fun e => e.1.pk) (fun e => e.1.vals) keep e, m2mOf as L e.1.pk)))

/-- models.py:438-487 `load_bulk` for AL -/
def loadLinks (cfg : Cfg) (db : DB) (L : Links) (parent : Option (Row × Option Int)) (data : Nest ((Nat × Vals) × M2M)) :
    Except Err ((DB × Links) × List Nat) :=
  loadBulk (addLinks (fun db p a => addTo cfg db p ⟨a.1, none, 0, a.2⟩) (fun e : Row × Option Int => e.1.pk))
    (fun e : Row × Option Int => e.1.pk) (db, L) parent data

end AL

namespace LT

/-- ltree/__init__.py:365-402 `dump_bulk`, of a model with the many-to-many fields `as` -/
def dumpLinks (db : DB) (as : List Nat) (L : Links) (parent : Option Row) (keep : Bool) : Except Err (Nest (Item × M2M)) :=
  (dumpLoop Row.path (dumpPlace parent) (getTree db parent none) .nil).map
    (Nest.map (fun r => (itemOf Row.pk Row.vals keep r, m2mOf as L r.pk)))

/-- models.py:438-487 `load_bulk` for LT -/
def loadLinks (cfg : Cfg) (db : DB) (L : Links) (parent : Option Row) (data : Nest ((Nat × Vals) × M2M)) : Except Err ((DB × Links) × List Nat) :=
  loadBulk (addLinks (fun db p a => addTo cfg db p ⟨a.1, [], a.2⟩) Row.pk) Row.pk (db, L) parent data

end LT

end Verif
