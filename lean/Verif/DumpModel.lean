/-
Model of the parts of `dump_bulk` and `load_bulk` that the backends share.
-/
import Verif.SpecDump

namespace Verif

namespace Nest

/-- one more item at the end: `ret.append(newobj)` -/
def push (x : α) : Nest α → Nest α
  | nil => cons x nil nil
  | cons a c r => cons a c (r.push x)

/-- one more child, the last, for the item whose label satisfies `q`: `parentobj["children"].append(newobj)` -/
def under (q : α → Bool) (x : α) : Nest α → Nest α
  | nil => nil
  | cons a c r => cons a (if q a then (c.under q x).push x else c.under q x) (r.under q x)

end Nest

/-- The loop of `dump_bulk` (mp_tree.py:725-750, ns_tree.py:390-417, al_tree.py:167-192, ltree/__init__.py:376-402) over the rows of the
query.  `place` says where a row goes: `none` is "in `ret`", `some k` is "below `lnk[k]`"; it can raise.

Simplified: `newobj`, a function of the row, is represented by the row.  The object `lnk[k]` that the code changes in place sits in exactly one place in
`ret`, because every object is appended once; it is found there by its key.  The keys (path or primary key) are unique. -/
def dumpLoop [BEq κ] (key : ρ → κ) (place : ρ → Except Err (Option κ)) : List ρ → Nest ρ → Except Err (Nest ρ)
  | [], ret => .ok ret
  | r :: rs, ret =>
    match place r with
    | .error e => .error e
    | .ok none => dumpLoop key place rs (ret.push r)
    | .ok (some k) =>
      if ret.labels.any (fun a => key a == k) then dumpLoop key place rs (ret.under (fun a => key a == k) r) else .error .keyError

/-- the item of a row: `{"data": fields}`, with the primary key if `keep_ids`.  The fields that describe the place of the row
in the tree are removed from `fields`. -/
def itemOf (pk : ρ → Nat) (vals : ρ → Vals) (keep : Bool) (r : ρ) : Item := (if keep then some (pk r) else none, vals r)

/-- the key of an item: `item[pk_field] if keep_ids else None` (utils.py:26); without `keep_ids` the database chooses the key when the row is
inserted: `keys i` is its choice for the `i`-th insertion.  Returns the key and the number of choices made. -/
def itemKey (keep : Bool) (keys : Nat → Nat) (i : Nat) (pk : Option Nat) : Except Err (Nat × Nat) :=
  if keep then match pk with
    | some k => .ok (k, i)
    | none => .error .keyError
  else .ok (keys i, i + 1)

/-- utils.py:16-31 `prepare_dumpdata_for_loading`, and the keys that the nodes will have, given in the order of the insertions -/
def prepare (keep : Bool) (keys : Nat → Nat) : Nat → Nest Item → Except Err (Nest (Nat × Vals) × Nat)
  | i, .nil => .ok (.nil, i)
  | i, .cons (pk, v) c r =>
    match itemKey keep keys i pk with
    | .error e => .error e
    | .ok (k, i) =>
      match prepare keep keys i c with
      | .error e => .error e
      | .ok (c, i) =>
        match prepare keep keys i r with
        | .error e => .error e
        | .ok (r, i) => .ok (.cons (k, v) c r, i)

namespace Nest

/-- the entries that `[(parent, obj) for obj in items[::-1]]` puts on the stack, the top of the stack first -/
def entries (parent : Option ρ) : Nest α → List (Option ρ × α × Nest α)
  | nil => []
  | cons a c r => (parent, a, c) :: r.entries parent

/-- number of items, at all levels -/
def size : Nest α → Nat
  | nil => 0
  | cons _ c r => 1 + c.size + r.size

end Nest

/-- size of the stack: the items on it, with those below them -/
def stackSize : List (Option ρ × α × Nest α) → Nat
  | [] => 0
  | (_, _, c) :: st => 1 + c.size + stackSize st

theorem stackSize_entries (p : Option ρ) (n : Nest α) (st : List (Option ρ × α × Nest α)) :
    stackSize (n.entries p ++ st) = n.size + stackSize st := by
  induction n with
  | nil => simp [Nest.entries, Nest.size]
  | cons a c r _ ih => simp only [Nest.entries, List.cons_append, stackSize, ih, Nest.size]; omega

/-- models.py:472-487, the loop of `NodeManager.load_bulk`.  `add` is `add_root` (without parent) or `add_child`, which return the new
object.  The list of added keys is built from the front here.  The parent object on the stack is the one that `add_child` returned for it; the code's
object also sees the later in-memory changes of its children count (MP) or `rgt` (NS), which no `add_child` reads. -/
def loadStack (add : σ → Option ρ → α → Except Err (σ × ρ)) (pk : ρ → Nat) (db : σ) (stack : List (Option ρ × α × Nest α)) :
    Except Err (σ × List Nat) :=
  match stack with
  | [] => .ok (db, [])
  | (parent, a, c) :: rest =>
    match add db parent a with
    | .error e => .error e
    | .ok (db, obj) =>
      match loadStack add pk db (c.entries (some obj) ++ rest) with
      | .error e => .error e
      | .ok (db, added) => .ok (db, pk obj :: added)
termination_by stackSize stack
decreasing_by simp only [stackSize_entries, stackSize]; omega

/-- models.py:438-487 `load_bulk`, with the prepared data -/
def loadBulk (add : σ → Option ρ → α → Except Err (σ × ρ)) (pk : ρ → Nat) (db : σ) (parent : Option ρ) (data : Nest α) :
    Except Err (σ × List Nat) := loadStack add pk db (data.entries parent)

end Verif
