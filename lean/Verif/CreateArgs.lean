/-
The arguments `create_kwargs` and `instance` of `add_root`, `add_child` and `add_sibling`.
-/
import Verif.MP.Model
import Verif.NS.Model
import Verif.AL.Model
import Verif.LT.Model

namespace Verif

/-- a model object with `_state.adding`; a model object is true in a condition (no `__bool__` or `__len__` of its own) -/
structure Inst (ρ : Type) where
  obj : ρ
  adding : Bool
deriving DecidableEq, Repr

/-- utils.py:44-71 `check_create_args`: the checks of the wrapper.  `kw` is a dictionary with entries of type `κ`. -/
def checkCreateArgs {ρ κ : Type} (kw : Option (List κ)) (inst : Option (Inst ρ)) : Except Err Unit :=
  let truthyKw := match kw with | none => false | some l => !l.isEmpty
  if inst.isSome && truthyKw then .error .valueError
  else if inst.isNone && kw.isNone then .error .valueError
  else match inst with
    | some i => if !i.adding then .error .nodeAlreadySaved else .ok ()
    | none => .ok ()

/-- `instance or self.model(**create_kwargs)` (mp_tree.py:366, 376, 407, 455; ns_tree.py:132, 165, 188; al_tree.py:68, 80, 101;
ltree/__init__.py:176, 178, 212, 243); `**None` is a TypeError -/
def newObject {ρ κ : Type} (model : List κ → Except Err ρ) (kw : Option (List κ)) (inst : Option (Inst ρ)) : Except Err ρ :=
  match inst with
  | some i => .ok i.obj
  | none => match kw with
    | none => .error .typeError
    | some l => model l

/-- a decorated function: `add` is what it does with the new object.  The nested calls of `add_sibling` pass the checks again, with the same arguments
(ns_tree.py:123, 157; mp_tree.py:405; ltree/__init__.py:209) or with the new object alone (mp_tree.py:366; ltree/__init__.py:176). -/
def created {ρ κ α : Type} (model : List κ → Except Err ρ) (add : ρ → Except Err α) (kw : Option (List κ)) (inst : Option (Inst ρ)) : Except Err α :=
  match checkCreateArgs kw inst with
  | .error e => .error e
  | .ok () =>
    match newObject model kw inst with
    | .error e => .error e
    | .ok new => add new

/-- models.py:57-86 `Node.add_root`, `Node.add_child` and `Node.add_sibling` (and the handlers, mp_tree.py:974-1007): all keyword arguments but `instance`
are passed on as `create_kwargs` -/
def byMethod {ρ κ α : Type} (f : Option (List κ) → Option (Inst ρ) → Except Err α) (kwargs : List κ) (inst : Option (Inst ρ)) : Except Err α :=
  f (some kwargs) inst

/-- The functions of the managers with their arguments. -/
inductive Creator (κ : Type) where
  | mpRoot (cfg : MP.Cfg) (db : MP.DB)
  | mpChild (cfg : MP.Cfg) (db : MP.DB) (target : MP.Row)
  | mpSibling (cfg : MP.Cfg) (db : MP.DB) (target : MP.Row) (pos : Option Pos)
  | nsRoot (cfg : NS.Cfg) (db : NS.DB)
  | nsChild (cfg : NS.Cfg) (db : NS.DB) (target : NS.Row)
  | nsSibling (cfg : NS.Cfg) (db : NS.DB) (target : NS.Row) (cached : Option NS.Row) (pos : Option Pos)
  | alRoot (cfg : AL.Cfg) (db : AL.DB)
  | alChild (cfg : AL.Cfg) (db : AL.DB) (target : AL.Row) (cached : Option Int)
  | alSibling (cfg : AL.Cfg) (db : AL.DB) (target : AL.Row) (pos : Option Pos)
  | ltRoot (cfg : LT.Cfg) (db : LT.DB)
  | ltChild (cfg : LT.Cfg) (db : LT.DB) (target : LT.Row)
  | ltSibling (cfg : LT.Cfg) (db : LT.DB) (target : LT.Row) (pos : Option Pos)

namespace Creator

variable {κ : Type}

/-- the model class of the function -/
def Row : Creator κ → Type
  | mpRoot .. | mpChild .. | mpSibling .. => MP.Row
  | nsRoot .. | nsChild .. | nsSibling .. => NS.Row
  | alRoot .. | alChild .. | alSibling .. => AL.Row
  | ltRoot .. | ltChild .. | ltSibling .. => LT.Row

/-- what the function returns: the table, the new node and what the caller's objects have become -/
def Result : Creator κ → Type
  | mpRoot .. | mpSibling .. => MP.DB × MP.Row
  | mpChild .. => MP.DB × MP.Row × MP.Row
  | nsRoot .. | nsSibling .. => NS.DB × NS.Row
  | nsChild .. => NS.DB × NS.Row × NS.Row
  | alRoot .. | alSibling .. => AL.DB × AL.Row
  | alChild .. => AL.DB × AL.Row × Option Int
  | ltRoot .. | ltChild .. | ltSibling .. => LT.DB × LT.Row

/-- the function without its decorator -/
def body : (c : Creator κ) → c.Row → Except Err c.Result
  | mpRoot cfg db => MP.addRoot cfg db
  | mpChild cfg db t => MP.addChild cfg db t
  | mpSibling cfg db t pos => MP.addSibling cfg db t pos
  | nsRoot cfg db => NS.addRoot cfg db
  | nsChild cfg db t => NS.addChild cfg db t
  | nsSibling cfg db t cached pos => NS.addSibling cfg db t cached pos
  | alRoot cfg db => AL.addRoot cfg db
  | alChild cfg db t cached => AL.addChild cfg db t cached
  | alSibling cfg db t pos => AL.addSibling cfg db t pos
  | ltRoot cfg db => LT.addRoot cfg db
  | ltChild cfg db t => LT.addChild cfg db t
  | ltSibling cfg db t pos => LT.addSibling cfg db t pos

/-- the decorated function -/
def run (c : Creator κ) (model : List κ → Except Err c.Row) (kw : Option (List κ)) (inst : Option (Inst c.Row)) : Except Err c.Result :=
  created model c.body kw inst

end Creator

end Verif
