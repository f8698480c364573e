/-
The choices of the field "Relative to" of the move form, with their labels (treebeard/forms.py).
-/
import Verif.FormModel
import Verif.MP.Query
import Verif.NS.Model
import Verif.AL.Model
import Verif.LT.Model

namespace Verif

/-- a Python string; `safe` says that it is a Django `SafeString` -/
structure Text where
  chars : List Char
  safe : Bool
deriving DecidableEq, Repr

/-- `html.escape(s)` for one character (Python's library, used by `django.utils.html.escape`) -/
def escapeChar (c : Char) : List Char :=
  if c = '&' then "&amp;".toList
  else if c = '<' then "&lt;".toList
  else if c = '>' then "&gt;".toList
  else if c = '"' then "&quot;".toList
  else if c = '\'' then "&#x27;".toList
  else [c]

/-- `django.utils.html.conditional_escape`: safe strings stay as they are -/
def condEscape (s : Text) : Text := if s.safe then s else ⟨s.chars.flatMap escapeChar, true⟩

/-- forms.py:21 `DEPTH_SEPARATOR` -/
def depthSeparator : Text := ⟨"&nbsp;&nbsp;&nbsp;&nbsp;".toList, true⟩

/-- forms.py:23-24 `_get_indent`; a string times a negative number is empty -/
def getIndent (depth : Int) : Text := ⟨(List.replicate (depth - 1).toNat (condEscape depthSeparator).chars).flatten, true⟩

/-- forms.py:26-28 `label_from_instance`; `s` is `str(obj)` (django/forms/models.py, outside /repo) -/
def labelFromInstance (depth : Int) (s : Text) : Text := ⟨(condEscape (getIndent depth)).chars ++ (condEscape s).chars, true⟩

/-- forms.py:74 `empty_label` -/
def rootLabel : List Char := "-- root --".toList

/-- forms.py:109 the first choice for AL -/
def dashLabel : List Char := "--------".toList

/-- forms.py:119-125 `_set_ref_model_queryset` and the choices of the field (`ModelChoiceIterator`, outside /repo): the empty label and then the nodes of the queryset with their labels; `str` is
the model's `__str__` and `inst` the edited object -/
def MP.formChoices (db : MP.DB) (str : MP.Row → Text) (inst : Option MP.Row) : List (Option Nat × List Char) :=
  let branch := match inst with | none => [] | some x => (MP.descendants db x true none).map MP.Row.pk
  (none, rootLabel) :: ((MP.getTree db none none).filter (fun r => decide (r.pk ∉ branch))).map
    (fun r => (some r.pk, (labelFromInstance r.depth (str r)).chars))

/-- the same for NS (ns_tree.py:614-616 `get_depth`) -/
def NS.formChoices (db : NS.DB) (str : NS.Row → Text) (inst : Option NS.Row) : List (Option Nat × List Char) :=
  let branch := match inst with | none => [] | some x => (NS.descendants db x true none).map NS.Row.pk
  (none, rootLabel) :: ((NS.getTree db none none).filter (fun r => decide (r.pk ∉ branch))).map
    (fun r => (some r.pk, (labelFromInstance r.depth (str r)).chars))

/-- the same for LT (ltree/__init__.py:551-553 `get_depth`) -/
def LT.formChoices (db : LT.DB) (str : LT.Row → Text) (inst : Option LT.Row) : List (Option Nat × List Char) :=
  let branch := match inst with | none => [] | some x => (LT.descendants db x true none).map LT.Row.pk
  (none, rootLabel) :: ((LT.getTree db none none).filter (fun r => decide (r.pk ∉ branch))).map
    (fun r => (some r.pk, (labelFromInstance r.depth (str r)).chars))

/-- forms.py:109-113, the list comprehension over the nodes with the `_cached_depth` that get_tree left on them -/
def AL.choiceLabels (db : AL.DB) (str : AL.Row → Text) : List (AL.Row × Int) → Except Err (List (Option Nat × List Char))
  | [] => .ok []
  | e :: l => match AL.getDepth db e.1 (some e.2) with
    | .error err => .error err
    | .ok d => match AL.choiceLabels db str l with
      | .error err => .error err
      | .ok r => .ok ((some e.1.pk, (labelFromInstance d (str e.1)).chars) :: r)

/-- forms.py:105-118 `_set_ref_model_queryset` for AL; `cached` is the `_cached_depth` of the edited object -/
def AL.formChoices (cfg : AL.Cfg) (db : AL.DB) (str : AL.Row → Text) (inst : Option (AL.Row × Option Int)) : Except Err (List (Option Nat × List Char)) :=
  match AL.getTree cfg db none none with
  | .error e => .error e
  | .ok tree =>
    let below : Except Err (List (AL.Row × Int)) := match inst with | none => .ok [] | some x => AL.descendants cfg db x.1 x.2 true none
    match below with
    | .error e => .error e
    | .ok below => match AL.choiceLabels db str (tree.filter (fun e => decide (e.1.pk ∉ below.map (fun b => b.1.pk)))) with
      | .error e => .error e
      | .ok l => .ok ((none, dashLabel) :: l)

end Verif
