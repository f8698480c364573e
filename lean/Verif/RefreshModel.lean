/-
`refresh_from_db()` (models.py:105-112): node objects with the attributes that they have cached.
-/
import Verif.AL.Objects
import Verif.MP.Model
import Verif.NS.Model
import Verif.LT.Model

namespace Verif

/-- what an attribute of an object can hold -/
inductive PyVal (ρ : Type) where
  /-- a node object, as the row it was made from -/
  | obj (r : ρ)
  | int (i : Int)
  | other (s : String)
deriving DecidableEq, Repr

/-- a node object: the values of its fields; the other attributes of its `__dict__`; the related objects in `_state.fields_cache`, each with the objects that
it has cached itself under the same name -/
structure PyObj (ρ : Type) where
  row : ρ
  attrs : List (String × PyVal ρ)
  rels : List (String × List ρ)
deriving DecidableEq, Repr

/-- Python's `delattr` -/
def delattr {ρ : Type} (n : String) (attrs : List (String × PyVal ρ)) : Except Err (List (String × PyVal ρ)) :=
  if attrs.any (fun e => e.1 == n) then .ok (attrs.filter (fun e => e.1 != n)) else .error .attributeError

/-- models.py:105-108 `_clear_cached_attributes`; `names` is `_cached_attributes` -/
def clearCached {ρ : Type} : List String → PyObj ρ → PyObj ρ
  | [], o => o
  | n :: names, o =>
    match delattr n o.attrs with
    | .ok attrs => clearCached names { o with attrs := attrs }
    | .error _ => clearCached names o

/-- a field, and how Django copies it: `setattr(self, field.attname, getattr(db_instance, field.attname))`; a relation also drops its cached object -/
structure Field (ρ : Type) where
  name : String
  copy : ρ → ρ → ρ
  relation : Bool

/-- copy these fields from the stored row `r` -/
def loadFields {ρ : Type} (r : ρ) : List (Field ρ) → PyObj ρ → PyObj ρ
  | [], o => o
  | f :: l, o => loadFields r l { o with row := f.copy r o.row, rels := if f.relation then o.rels.filter (fun e => e.1 != f.name) else o.rels }

/-- Django's `Model.refresh_from_db(fields=...)` (django/db/models/base.py), for objects without deferred fields; `stored` is the result of the query for the object's key -/
def djangoRefresh {ρ : Type} (all : List (Field ρ)) (stored : Option ρ) (fields : Option (List String)) (o : PyObj ρ) : Except Err (PyObj ρ) :=
  match stored with
  | none => .error .doesNotExist
  | some r =>
    match fields with
    | none => .ok (loadFields r all o)
    | some l => .ok (loadFields r (all.filter (fun f => l.contains f.name)) o)

/-- models.py:110-112 `refresh_from_db` -/
def refreshFromDb {ρ : Type} (names : List String) (all : List (Field ρ)) (stored : Option ρ) (fields : Option (List String)) (o : PyObj ρ) : Except Err (PyObj ρ) :=
  match djangoRefresh all stored fields o with
  | .error e => .error e
  | .ok o => .ok (clearCached names o)

/-- models.py:26 -/
def nodeCached : List String := []

namespace MP

/-- mp_tree.py:1042-1045; `extra` are the names that a subclass adds -/
def cachedNames (extra : List String) : List String := nodeCached ++ ["_cached_parent_obj"] ++ extra

/-- the fields (mp_tree.py:1030-1032); all fields of the author's as one, `data` -/
def fields : List (Field Row) := [⟨"path", fun r o => { o with path := r.path }, false⟩, ⟨"depth", fun r o => { o with depth := r.depth }, false⟩,
  ⟨"numchild", fun r o => { o with numchild := r.numchild }, false⟩, ⟨"data", fun r o => { o with vals := r.vals }, false⟩]

def refresh (extra : List String) (db : DB) (fs : Option (List String)) (o : PyObj Row) : Except Err (PyObj Row) :=
  refreshFromDb (cachedNames extra) fields (db.get? o.row.pk) fs o

/-- the attribute that `get_parent` reads (mp_tree.py:926-932) -/
def cachedParent (o : PyObj Row) : Option Row :=
  match o.attrs.lookup "_cached_parent_obj" with
  | some (.obj r) => some r
  | _ => none

end MP

namespace NS

/-- ns_tree.py:609-612 -/
def cachedNames (extra : List String) : List String := nodeCached ++ ["_cached_parent_obj"] ++ extra

/-- ns_tree.py:598-601 -/
def fields : List (Field Row) := [⟨"lft", fun r o => { o with lft := r.lft }, false⟩, ⟨"rgt", fun r o => { o with rgt := r.rgt }, false⟩,
  ⟨"tree_id", fun r o => { o with tree := r.tree }, false⟩, ⟨"depth", fun r o => { o with depth := r.depth }, false⟩,
  ⟨"data", fun r o => { o with vals := r.vals }, false⟩]

def refresh (extra : List String) (db : DB) (fs : Option (List String)) (o : PyObj Row) : Except Err (PyObj Row) :=
  refreshFromDb (cachedNames extra) fields (db.get? o.row.pk) fs o

/-- ns_tree.py:531-537 -/
def cachedParent (o : PyObj Row) : Option Row :=
  match o.attrs.lookup "_cached_parent_obj" with
  | some (.obj r) => some r
  | _ => none

end NS

namespace AL

/-- al_tree.py:300-303 -/
def cachedNames (extra : List String) : List String := nodeCached ++ ["_cached_depth"] ++ extra

/-- the author's `parent` and `sib_order` (docs/source/al_tree.rst), the other fields as one -/
def fields : List (Field Row) := [⟨"parent", fun r o => { o with parent := r.parent }, true⟩, ⟨"sib_order", fun r o => { o with sib := r.sib }, false⟩,
  ⟨"data", fun r o => { o with vals := r.vals }, false⟩]

def refresh (extra : List String) (db : DB) (fs : Option (List String)) (o : PyObj Row) : Except Err (PyObj Row) :=
  refreshFromDb (cachedNames extra) fields (db.get? o.row.pk) fs o

/-- al_tree.py:316-320 -/
def cachedDepth (o : PyObj Row) : Option Int :=
  match o.attrs.lookup "_cached_depth" with
  | some (.int d) => some d
  | _ => none

/-- the cached parent, its cached parent and so on -/
def cachedUp (o : PyObj Row) : List Row := (o.rels.lookup "parent").getD []

end AL

namespace LT

/-- ltree/__init__.py:549 -/
def cachedNames (extra : List String) : List String := nodeCached ++ extra

/-- ltree/__init__.py:541 -/
def fields : List (Field Row) := [⟨"path", fun r o => { o with path := r.path }, false⟩, ⟨"data", fun r o => { o with vals := r.vals }, false⟩]

def refresh (extra : List String) (db : DB) (fs : Option (List String)) (o : PyObj Row) : Except Err (PyObj Row) :=
  refreshFromDb (cachedNames extra) fields (db.get? o.row.pk) fs o

end LT

end Verif
