/-
Model of `fix_tree(fix_paths=True)` (mp_tree.py:166-244).
-/
import Verif.MP.Check
import Verif.Sorted

namespace Verif.MP

/-- mp_tree.py:240-244 `_rewrite_node_path`: only the path changes -/
def rewritePath (db : DB) (oldpath newpath : List Nat) : Except Err DB :=
  let rows := db.rows.map (fun r => { r with path := ren oldpath newpath r.path })
  if uniquePaths rows then
    .ok { rows, sigs := if db.rows.any (fun r => oldpath.isPrefixOf r.path)
            then db.sigs ++ [.pathUpdated oldpath newpath] else db.sigs }
  else .error .integrity

/-- What the loops of mp_tree.py:181-238 work on: the table; `desired_sequence`, whose items are dictionaries that are read from the
database once and changed in place afterwards; `actual_sequence`, a dictionary from positions to the same items (given here by their
keys); `max_position` (`None` only when there are no items, and then not used). -/
structure FixState where
  db : DB
  items : List Row
  seq : Nat → Option Nat
  maxPos : Nat

/-- `item["path"]` -/
def pathOf (items : List Row) (k : Nat) : List Nat := ((items.find? (·.pk == k)).map Row.path).getD []

/-- `item["numchild"]` -/
def numOf (items : List Row) (k : Nat) : Int := ((items.find? (·.pk == k)).map Row.numchild).getD 0

/-- `item["path"] = p` -/
def setPath (items : List Row) (k : Nat) (p : List Nat) : List Row :=
  items.map (fun r => if r.pk == k then { r with path := p } else r)

/-- `d[n] = k` or `del d[n]` for a dictionary -/
def setKey (seq : Nat → Option Nat) (n : Nat) (k : Option Nat) : Nat → Option Nat := fun m => if m = n then k else seq m

/-- mp_tree.py:199-200: the highest position in use -/
def higher (m : Option Nat) (n : Nat) : Option Nat :=
  match m with
  | none => some n
  | some m => if n > m then some n else some m

/-- mp_tree.py:196-200: the positions in use -/
def readPositions (cfg : Cfg) : List Row → (Nat → Option Nat) → Option Nat → Except Err ((Nat → Option Nat) × Option Nat)
  | [], seq, m => .ok (seq, m)
  | item :: rest, seq, m =>
    match lastpos cfg item.path with
    | .error e => .error e
    | .ok n =>
      readPositions cfg rest (setKey seq n (some item.pk))
        (higher m n)

/-- mp_tree.py:211-224: a node in the desired position is moved out of the way -/
def evict (cfg : Cfg) (P : List Nat) (depth desired : Nat) (s : FixState) : Except Err FixState :=
  match s.seq desired with
  | none => .ok s
  | some occupant =>
    let old := pathOf s.items occupant
    match getPath cfg P depth (s.maxPos + 1 : Nat) with
    | .error e => .error e
    | .ok new =>
      if new.length > old.length then .error .pathOverflow
      else
        match rewritePath s.db old new with
        | .error e => .error e
        | .ok db => .ok { db, items := setPath s.items occupant new,
                          seq := setKey (setKey s.seq (s.maxPos + 1) (some occupant)) desired none, maxPos := s.maxPos + 1 }

/-- mp_tree.py:204-233: one item of the second loop, number `i` -/
def fixItem (cfg : Cfg) (P : List Nat) (depth i k : Nat) (s : FixState) : Except Err FixState :=
  match lastpos cfg (pathOf s.items k) with
  | .error e => .error e
  | .ok actual =>
    if actual = i + 1 then .ok s
    else
      match evict cfg P depth (i + 1) s with
      | .error e => .error e
      | .ok s =>
        match getPath cfg P depth (i + 1 : Nat) with
        | .error e => .error e
        | .ok new =>
          match rewritePath s.db (pathOf s.items k) new with
          | .error e => .error e
          | .ok db =>
            let seq := setKey s.seq (i + 1) (some k)
            if (seq actual).isNone then .error .keyError
            else .ok { s with db, items := setPath s.items k new, seq := setKey seq actual none }

/-- mp_tree.py:203-238: the second loop.  The result is the table and what is appended to `children_to_fix`. -/
def fixItems (cfg : Cfg) (P : List Nat) (depth : Nat) : List Nat → Nat → FixState → Except Err (DB × List (List Nat × Nat))
  | [], _, s => .ok (s.db, [])
  | k :: ks, i, s =>
    match fixItem cfg P depth i k s with
    | .error e => .error e
    | .ok s =>
      match fixItems cfg P depth ks (i + 1) s with
      | .error e => .error e
      | .ok (db, q) => .ok (db, (if numOf s.items k ≠ 0 then [(pathOf s.items k, depth + 1)] else []) ++ q)

/-- mp_tree.py:181-238: one round of the `while` loop.  `ord` is the order in which the database returns the rows of
`order_by(*(node_order_by or ["path"]))`. -/
def fixGroup (cfg : Cfg) (ord : List Row → List Row) (db : DB) (P : List Nat) (depth : Nat) : Except Err (DB × List (List Nat × Nat)) :=
  let items := ord (db.rows.filter (fun r => P.isPrefixOf r.path && r.depth == depth))
  match readPositions cfg items (fun _ => none) none with
  | .error e => .error e
  | .ok (seq, m) => fixItems cfg P depth (items.map Row.pk) 0 { db, items, seq, maxPos := m.getD 0 }

/-- mp_tree.py:180-238: the `while` loop, on fuel (the theorems show that it does not run out) -/
def fixQueue (cfg : Cfg) (ord : List Row → List Row) : Nat → List (List Nat × Nat) → DB → Except Err DB
  | _, [], db => .ok db
  | 0, _ :: _, _ => .error .diverges
  | fuel + 1, (P, depth) :: q, db =>
    match fixGroup cfg ord db P depth with
    | .error e => .error e
    | .ok (db, new) => fixQueue cfg ord fuel (q ++ new) db

/-- mp_tree.py:178: what the queue starts with -/
def firstGroup (parent : Option Row) : List Nat × Nat :=
  match parent with
  | none => ([], 1)
  | some p => (p.path, p.depth + 1)

/-- mp_tree.py:166-238: the part `if fix_paths`, a transaction -/
def fixPaths (cfg : Cfg) (ord : List Row → List Row) (db : DB) (parent : Option Row) : Except Err DB :=
  fixQueue cfg ord (db.rows.length + 1) [firstGroup parent] db

/-- mp_tree.py:125-238 `fix_tree(fix_paths=True)`: the table afterwards, and the exception if one was raised.  Depths and children counts
are repaired before the transaction starts, so they stay repaired. -/
def fixTreePaths (cfg : Cfg) (ord : List Row → List Row) (db : DB) (parent : Option Row) : DB × Option Err :=
  let db := fixTree cfg db parent
  match fixPaths cfg ord db parent with
  | .error e => (db, some e)
  | .ok db => (db, none)

/-- `ord` is what a database may answer to `order_by(*(node_order_by or ["path"]))`: the same rows, by path without `node_order_by`; with
it, sorted by the fields if none is null.  Equal rows come in any order. -/
structure OrdersBy (cfg : Cfg) (ord : List Row → List Row) : Prop where
  perm : ∀ l, (ord l).Perm l
  byPath : cfg.ordered = false → ∀ l, ord l = orderByPath l
  sorted : cfg.ordered = true → ∀ l, (∀ r ∈ l, NonNull cfg.orderBy r.vals) →
    (ord l).Pairwise (fun a b => ¬ keyLt cfg.orderBy b.vals a.vals)

end Verif.MP
