/-
`get_annotated_list` (models.py:419-436) and the inherited `get_descendants_group_count` (models.py:365-387) of the four backends.
-/
import Verif.Annotated
import Verif.MP.Query
import Verif.NS.Nav
import Verif.AL.Model
import Verif.LT.Model

namespace Verif

/-- the truth value of the argument `max_depth` -/
def limited (maxDepth : Option Int) : Bool :=
  match maxDepth with
  | none => false
  | some m => m != 0

namespace MP

/-- models.py:419-436 `get_annotated_list`: `qs.filter(depth__lte=max_depth)` counts from the roots, not from `parent` -/
def annotatedList (db : DB) (parent : Option Row) (maxDepth : Option Int) : List (Row × Info) :=
  let qs := getTree db parent none
  let qs := if limited maxDepth then qs.filter (fun r => decide ((r.depth : Int) ≤ maxDepth.getD 0)) else qs
  annotate (qs.map (fun r => (r, (r.depth : Int))))

end MP

namespace NS

/-- models.py:419-436 `get_annotated_list` -/
def annotatedList (db : DB) (parent : Option Row) (maxDepth : Option Int) : List (Row × Info) :=
  let qs := getTree db parent none
  let qs := if limited maxDepth then qs.filter (fun r => decide (r.depth ≤ maxDepth.getD 0)) else qs
  annotate (qs.map (fun r => (r, r.depth)))

/-- models.py:365-387 `get_descendants_group_count` -/
def descendantsGroupCount (db : DB) (parent : Option Row) : List (Row × Rat) :=
  let nodes := match parent with | none => rootNodes db | some p => children db p
  nodes.map (fun r => (r, descendantCount db r none))

end NS

namespace AL

/-- models.py:419-436 `get_annotated_list`; `get_tree` gives a list, which has no `filter` -/
def annotatedList (cfg : Cfg) (db : DB) (parent : Option (Row × Option Int)) (maxDepth : Option Int) : Except Err (List (Row × Info)) :=
  match getTree cfg db parent none with
  | .error e => .error e
  | .ok qs => if limited maxDepth then .error .attributeError else .ok (annotate qs)

/-- models.py:365-387 `get_descendants_group_count` -/
def descendantsGroupCount (cfg : Cfg) (db : DB) (parent : Option Row) : Except Err (List (Row × Int)) :=
  let nodes := match parent with | none => rootNodes cfg db | some p => children cfg db p
  collect (fun r => (descendantCount cfg db r none none).map (fun n => [(r, n)])) nodes

end AL

namespace LT

/-- models.py:419-436 `get_annotated_list`; there is no field `depth` to filter by -/
def annotatedList (db : DB) (parent : Option Row) (maxDepth : Option Int) : Except Err (List (Row × Info)) :=
  let qs := getTree db parent none
  if limited maxDepth then .error .fieldError else .ok (annotate (qs.map (fun r => (r, (r.depth : Int)))))

end LT

end Verif
