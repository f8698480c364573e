/-
Specification of the admin's tree page in the browser: which nodes a user has opened, and what the page has to show then.
-/
import Verif.SpecAdmin

namespace Verif

/-- The forest that a user sees who has opened the nodes `O`: the other nodes show no children. -/
def Forest.opened (F : Forest) (O : Nat → Bool) : Forest
  | none => F none
  | some p => if O p then F (some p) else []

open Classical in
/-- The part of the forest that belongs to a page of roots: these roots, and what is below them. -/
noncomputable def Forest.under (F : Forest) (cs : List Nat) : Forest
  | none => cs
  | some p => if ∃ c ∈ cs, p = c ∨ F.Desc c p then F (some p) else []

/-- What happens on the page: a click on the button of a row, a row dragged over another one, an answer of the server to the request for the children of a node. -/
inductive PageEvent where
  | click (k : Nat)
  | over (k : Nat)
  | answer (k : Nat)
deriving DecidableEq, Repr

/-- What the user does, as opposed to the server -/
def PageEvent.byUser : PageEvent → Bool
  | .answer _ => false
  | _ => true

/-- the row can be seen and has a button -/
def Forest.Clickable (F : Forest) (O : Nat → Bool) (k : Nat) : Prop := (∃ n, (F.opened O).Level k n) ∧ F (some k) ≠ []

open Classical in
/-- The nodes that are open after an event: a click opens a closed node, and closes an open one with everything below it; dragging a row over a closed one opens it. -/
noncomputable def Forest.openStep (F : Forest) (O : Nat → Bool) : PageEvent → Nat → Bool
  | .click k => if F.Clickable O k then (if O k then fun x => O x && !decide (x = k ∨ F.Desc k x) else fun x => O x || x == k) else O
  | .over k => if F.Clickable O k then fun x => O x || x == k else O
  | .answer _ => O

/-- the nodes that are open after several events; at first none is -/
noncomputable def Forest.openAfter (F : Forest) (es : List PageEvent) : Nat → Bool := es.foldl F.openStep (fun _ => false)

/-- What the button of a row shows: a closed node, an open one, one whose children are being loaded. -/
structure Button where
  closed : Bool
  opened : Bool
  loading : Bool
deriving DecidableEq, Repr

/-- One row on the screen: the node, its level, and its button, if it has one. -/
structure ScreenRow where
  node : Nat
  level : Int
  button : Option Button
deriving DecidableEq, Repr

/-- What the screen has to show when the nodes `O` are open: the roots, and below every open node its children, in tree order, each at its level; the nodes with
children have buttons, which show whether they are open.  Nothing is being loaded. -/
structure ScreenShows (F : Forest) (O : Nat → Bool) (screen : List ScreenRow) : Prop where
  order : (F.opened O).DFS (F none) (screen.map ScreenRow.node)
  level : ∀ r ∈ screen, ∃ n : Nat, r.level = n ∧ F.Level r.node n
  button : ∀ r ∈ screen, (F (some r.node) = [] ∧ r.button = none) ∨ (F (some r.node) ≠ [] ∧ r.button = some ⟨!O r.node, O r.node, false⟩)

/-- The server answers the requests for the children of the nodes `ids`, page by page. -/
def ServesPages (F : Forest) (ids : List Nat) (req : Nat → Nat → Except Err (List AdminRow × Nat)) : Prop :=
  ∀ k ∈ ids, ∃ (n : Nat) (pg : Nat → List AdminRow), 1 ≤ n ∧ (∀ i, 1 ≤ i → i ≤ n → req k i = .ok (pg i, n)) ∧
    ListsChildren F (some k) ((List.range n).flatMap (fun i => pg (i + 1)))

end Verif
