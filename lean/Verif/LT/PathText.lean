/-
LT: the text form of a path, the validator, and the conversions of `PathField` (ltree/fields.py).
-/
import Verif.LT.Model

namespace Verif.LT

/-- the characters that `str.strip()` removes -/
def pySpaces : List Nat := [9, 10, 11, 12, 13, 28, 29, 30, 31, 32, 133, 160, 5760, 8192, 8193, 8194, 8195, 8196, 8197, 8198, 8199, 8200, 8201,
  8202, 8232, 8233, 8239, 8287, 12288]

/-- `str.strip()` -/
def strip (t : List Nat) : List Nat := ((t.dropWhile (pySpaces.contains ·)).reverse.dropWhile (pySpaces.contains ·)).reverse

/-- `str.split(".")`: always at least one part -/
def splitDot : List Nat → Path
  | [] => [[]]
  | c :: t => if c = 46 then [] :: splitDot t
    else match splitDot t with
      | [] => [[c]]
      | l :: rest => (c :: l) :: rest

/-- `".".join(...)`, ltree/fields.py:36-37 `PathValue.__str__` -/
def toText : Path → List Nat
  | [] => []
  | [l] => l
  | l :: rest => l ++ 46 :: toText rest

/-- ltree/fields.py:24-25 `PathValue.__init__` of a string -/
def ofText (t : List Nat) : Path := if t = [] then [] else splitDot (strip t)

/-- `[a-zA-Z0-9_-]` -/
def labelChar (c : Nat) : Bool :=
  (97 ≤ c && c ≤ 122) || (65 ≤ c && c ≤ 90) || (48 ≤ c && c ≤ 57) || c == 95 || c == 45

/-- The automaton of `[..]+(?:\.[..]+)*$`, where `inside` says whether the current label has a character already.  `$` also matches
before a newline that ends the text. -/
def matches? : Bool → List Nat → Bool
  | inside, [] => inside
  | inside, [10] => inside
  | inside, c :: t => if labelChar c then matches? true t else if c = 46 then inside && matches? false t else false

/-- ltree/fields.py:15-19 `path_label_validator` (the expression is anchored at the start, so `search` is a match) -/
def validates (t : List Nat) : Bool := matches? false t

/-- What a path attribute may hold, and what is passed to a query: None, a string, a `PathValue`, a list, another iterable of labels, or
something else. -/
inductive PathArg where
  | null
  | text (t : List Nat)
  | value (p : Path)
  | list (p : Path)
  | iterable (p : Path)
  | other
deriving DecidableEq, Repr

/-- ltree/fields.py:23-31 `PathValue(value)` -/
def pathValue : PathArg → Except Err Path
  | .text t => .ok (ofText t)
  | .value p | .list p | .iterable p => .ok p
  | .null | .other => .error .valueError

/-- ltree/fields.py:44-53 `PathValueProxy.__get__`: reading the attribute -/
def readAttr : PathArg → Except Err PathArg
  | .null => .ok .null
  | a => (pathValue a).map .value

/-- ltree/fields.py:81-84 `from_db_value`: the column holds a text or NULL -/
def fromDb : Option (List Nat) → PathArg
  | none => .null
  | some t => .value (ofText t)

/-- ltree/fields.py:86-89 `get_prep_value`: the parameter of a query -/
def getPrep : PathArg → Except Err (Option (List Nat))
  | .null => .ok none
  | a => (pathValue a).map (fun p => some (toText p))

/-- ltree/fields.py:91-98 `to_python` -/
def toPython : PathArg → Except Err PathArg
  | .null => .ok .null
  | a => (pathValue a).map .value

/-- ltree/fields.py:100-110 `get_db_prep_value`: what `save()` stores -/
def getDbPrep : PathArg → Except Err (Option (List Nat))
  | .null => .ok none
  | .value p => .ok (some (toText p))
  | .list p => .ok (some (toText p))
  | .text t => .ok (some (toText (ofText t)))
  | .iterable _ | .other => .error .valueError

end Verif.LT
