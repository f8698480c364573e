/-
A client of the API: one call after the other, each on freshly fetched nodes.
-/
import Verif.SpecApi
import Verif.DumpModel

namespace Verif

/-- The calls of one backend, on tables `σ` and node objects `ρ`. -/
structure Calls (σ ρ : Type) where
  pk : ρ → Nat
  fetch : σ → Nat → Option ρ
  addTo : σ → Option ρ → Nat × Vals → Except Err (σ × ρ)
  addSibling : σ → ρ → Option Pos → Nat × Vals → Except Err σ
  move : σ → ρ → ρ → Option Pos → Except Err σ
  delete : σ → List Nat → σ
  save : σ → ρ → Vals → Except Err σ
  fixTree : σ → Option ρ → Bool → Except Err σ

namespace Calls

variable {σ ρ : Type}

/-- fetch the parent, if there is one -/
def fetchParent (c : Calls σ ρ) (s : σ) : Option Nat → Except Err (Option ρ)
  | none => .ok none
  | some t => match c.fetch s t with
    | none => .error .doesNotExist
    | some r => .ok (some r)

/-- One call.  A missing node or target raises when it is fetched, a used key when the row is inserted.  (`load_bulk` with a key that
is in use is the subject of C45; here such a call raises before it does anything.) -/
def exec (c : Calls σ ρ) (s : σ) : ApiOp → Except Err σ
  | .tree (.addRoot k v) => match c.fetch s k with
    | some _ => .error .integrity
    | none => (c.addTo s none (k, v)).map (·.1)
  | .tree (.addChild t k v) => match c.fetch s k, c.fetch s t with
    | _, none => .error .doesNotExist
    | some _, _ => .error .integrity
    | none, some target => (c.addTo s (some target) (k, v)).map (·.1)
  | .tree (.addSibling t pos k v) => match c.fetch s k, c.fetch s t with
    | _, none => .error .doesNotExist
    | some _, _ => .error .integrity
    | none, some target => c.addSibling s target pos (k, v)
  | .tree (.move x t pos) => match c.fetch s x, c.fetch s t with
    | some node, some target => c.move s node target pos
    | _, _ => .error .doesNotExist
  | .tree (.delete S) => .ok (c.delete s S)
  | .edit k v => match c.fetch s k with
    | none => .error .doesNotExist
    | some r => c.save s r v
  | .load p data => match c.fetchParent s p with
    | .error e => .error e
    | .ok parent =>
      if (data.labels.map Prod.fst).Nodup ∧ data.labels.all (fun e => (c.fetch s e.1).isNone) = true
      then (loadBulk c.addTo c.pk s parent data).map (·.1)
      else .error .integrity
  | .fixTree p paths => match c.fetchParent s p with
    | .error e => .error e
    | .ok parent => c.fixTree s parent paths

/-- The table afterwards.  A call that raises leaves it as it was: all calls but `save` and `fix_tree` run in `transaction.atomic`, and `save`
is one statement.  (`fix_tree` is called on consistent trees only; what it does before it can raise changes nothing there.) -/
def step (c : Calls σ ρ) (s : σ) (op : ApiOp) : σ :=
  match c.exec s op with
  | .ok s' => s'
  | .error _ => s

/-- a whole history -/
def run (c : Calls σ ρ) (s : σ) (ops : List ApiOp) : σ := ops.foldl c.step s

/-- the calls of a history that did not raise one of the errors `full` -/
def made (c : Calls σ ρ) (full : Err → Bool) : σ → List ApiOp → List ApiOp
  | _, [] => []
  | s, op :: ops =>
    let rest := c.made full (c.step s op) ops
    match c.exec s op with
    | .error e => if full e then rest else op :: rest
    | .ok _ => op :: rest

/-- every call of the history meets the guard `G` when it is made -/
def Guarded (c : Calls σ ρ) (G : σ → ApiOp → Prop) : σ → List ApiOp → Prop
  | _, [] => True
  | s, op :: ops => G s op ∧ c.Guarded G (c.step s op) ops

end Calls

/-- a history without `node_order_by`: load, edit, add, move, delete, load below a node, two calls that raise, fix_tree -/
def exApi : List ApiOp :=
  [.load none (.cons (1, [some 5]) (.cons (2, [some 3]) .nil (.cons (3, [some 1]) .nil .nil)) (.cons (4, [some 2]) .nil .nil)),
   .edit 2 [some 9], .tree (.addSibling 3 (some .left) 5 [some 7]), .tree (.move 2 4 (some .firstChild)), .tree (.move 1 5 (some .lastChild)),
   .tree (.delete [3]), .load (some 4) (.cons (6, [some 0]) (.cons (7, [some 0]) .nil .nil) .nil), .load none (.cons (1, [some 0]) .nil .nil), .fixTree none false]

/-- a history with `node_order_by`; the edit puts the siblings out of order -/
def exApiSorted : List ApiOp :=
  [.load none (.cons (1, [some 5]) (.cons (2, [some 3]) .nil (.cons (3, [some 1]) .nil .nil)) (.cons (4, [some 2]) .nil .nil)),
   .edit 3 [some 9], .tree (.addSibling 3 none 5 [some 7]), .tree (.move 2 4 (some .sortedChild)), .tree (.move 1 5 (some .sortedChild)),
   .tree (.addSibling 4 (some .left) 8 [some 0]), .tree (.delete [3]), .load (some 4) (.cons (6, [some 0]) (.cons (7, [some 0]) .nil .nil) .nil), .edit 4 [some 8]]

end Verif
