/-
Model of the front end of the admin's tree list (static/treebeard/treebeard-admin.js): the rows of the table, the clicks on their buttons and the requests to
`children_view` (admin.py), which answers page by page.

A row is addressed by its node: `new Node(elem)` on the row of the node.  `$elem.data("children-loaded")` is read from the attribute every time, as jQuery does as long as there is none.
A request that fails has no handler: nothing happens.  Not modelled: the look of the page, moving rows about (C52 is about the request that is sent then, and the page is
loaded anew after it), search and list filters.
-/
import Verif.SpecPage
import Verif.AdminModel

namespace Verif

/-- One `<tr>`: its data attributes, the classes of its button, and whether it is hidden. -/
structure DomRow where
  /-- `data-node-id`, `data-parent-id`, `data-level`, `data-has-children` -/
  row : AdminRow
  /-- `data-children-loaded` -/
  loaded : Bool
  /-- class `treebeard-collapsed` of the button -/
  collapsed : Bool
  /-- class `treebeard-expanded` of the button -/
  expanded : Bool
  /-- class `treebeard-loading` of the button -/
  loading : Bool
  /-- `.hide()` -/
  hidden : Bool
deriving DecidableEq, Repr

/-- A request that was sent: the node, the rows that came with earlier pages, and the page asked for. -/
structure Request where
  node : Nat
  got : List AdminRow
  page : Nat
deriving DecidableEq, Repr

structure Page where
  rows : List DomRow
  pending : List Request
deriving DecidableEq, Repr

/-- treebeard-admin.js:74-106 `setupData`: a new row; it has a button, collapsed, if it has children -/
def setupRow (r : AdminRow) : DomRow := ⟨r, false, r.hasChildren, false, false, false⟩

/-- treebeard-admin.js:219-223: the page as it is loaded -/
def Page.load (top : List AdminRow) : Page := ⟨top.map setupRow, []⟩

/-- change the row of the node `k` -/
def onRow (k : Nat) (f : DomRow → DomRow) (rows : List DomRow) : List DomRow := rows.map (fun r => if r.row.node = k then f r else r)

/-- change the rows of the children, treebeard-admin.js:18-20 `children` -/
def onChildren (k : Nat) (f : DomRow → DomRow) (rows : List DomRow) : List DomRow := rows.map (fun r => if r.row.parent = k then f r else r)

/-- treebeard-admin.js:14-16 `isCollapsed`; a row without a button has no class -/
def DomRow.isCollapsed (r : DomRow) : Bool := r.row.hasChildren && r.collapsed

/-- classes are set on the button only -/
def DomRow.cls (r : DomRow) (f : DomRow → DomRow) : DomRow := if r.row.hasChildren then f r else r

/-- treebeard-admin.js:22-30 `collapse`, with the depth of the recursion as fuel.  Too deep a recursion is a RangeError. -/
def collapse : Nat → List DomRow → Nat → Except Err (List DomRow)
  | 0, _, _ => .error .diverges
  | fuel + 1, rows, k =>
    match ((rows.filter (fun r => r.row.parent == k)).map (fun r => r.row.node)).foldlM (fun rows c => collapse fuel rows c) rows with
    | .error e => .error e
    | .ok rows => .ok (onRow k (fun r => r.cls fun r => { r with expanded := false, collapsed := true }) (onChildren k (fun r => { r with hidden := true }) rows))

/-- treebeard-admin.js:51-58: `loadChildren` up to the request -/
def Page.ask (s : Page) (k : Nat) (got : List AdminRow) (page : Nat) : Page :=
  ⟨onRow k (fun r => { r with loaded := true }.cls fun r => { r with collapsed := false, loading := true }) s.rows, s.pending ++ [⟨k, got, page⟩]⟩

/-- treebeard-admin.js:32-41 `expand` -/
def Page.expand (s : Page) (r : DomRow) : Page :=
  if r.loaded then
    ⟨onRow r.row.node (fun r => r.cls fun r => { r with collapsed := false, expanded := true }) (onChildren r.row.node (fun r => { r with hidden := false }) s.rows), s.pending⟩
  else s.ask r.row.node [] 1

/-- treebeard-admin.js:43-49 `toggle` -/
def Page.toggle (s : Page) (r : DomRow) : Except Err Page :=
  if r.isCollapsed then .ok (s.expand r)
  else
    match collapse (s.rows.length + 1) s.rows r.row.node with
    | .error e => .error e
    | .ok rows => .ok ⟨rows, s.pending⟩

/-- treebeard-admin.js:68 `insertAfter` -/
def insertRows (k : Nat) (new : List DomRow) : List DomRow → List DomRow
  | [] => []
  | r :: rs => if r.row.node = k then r :: (new ++ rs) else r :: insertRows k new rs

/-- treebeard-admin.js:58-70: the answer to a request -/
def Page.answer (s : Page) (q : Request) : Except Err (List AdminRow × Nat) → Page
  | .error _ => s
  | .ok (rows, numPages) =>
    if q.page < numPages then s.ask q.node (q.got ++ rows) (q.page + 1)
    else ⟨onRow q.node (fun r => r.cls fun r => { r with loading := false, expanded := true }) (insertRows q.node ((q.got ++ rows).map setupRow) s.rows), s.pending⟩

/-- the row of the node, if it can be seen -/
def Page.seen? (s : Page) (k : Nat) : Option DomRow := s.rows.find? (fun r => r.row.node == k && !r.hidden)

/-- One event.  treebeard-admin.js:225-228 (a click on the button of a row), 133-141 (`dragenter`), 58 (`done`). -/
def Page.step (req : Nat → Nat → Except Err (List AdminRow × Nat)) (s : Page) : PageEvent → Except Err Page
  | .click k =>
    match s.seen? k with
    | none => .ok s
    | some r => if r.row.hasChildren then s.toggle r else .ok s
  | .over k =>
    match s.seen? k with
    | none => .ok s
    | some r => .ok (if r.isCollapsed then s.expand r else s)
  | .answer k =>
    match s.pending.find? (fun q => q.node == k) with
    | none => .ok s
    | some q => .ok (Page.answer ⟨s.rows, s.pending.filter (fun q => q.node != k)⟩ q (req q.node q.page))

/-- several events -/
def Page.run (req : Nat → Nat → Except Err (List AdminRow × Nat)) (s : Page) (es : List PageEvent) : Except Err Page := es.foldlM (Page.step req) s

/-- what can be seen: the rows that are not hidden, with the classes of their buttons -/
def Page.screen (s : Page) : List ScreenRow :=
  (s.rows.filter (fun r => !r.hidden)).map (fun r => ⟨r.row.node, r.row.level, if r.row.hasChildren then some ⟨r.collapsed, r.expanded, r.loading⟩ else none⟩)

/-- The user waits for the answers before doing anything else. -/
def Patient (req : Nat → Nat → Except Err (List AdminRow × Nat)) : Page → List PageEvent → Prop
  | _, [] => True
  | s, e :: es => (e.byUser = true → s.pending = []) ∧ ∀ s', s.step req e = .ok s' → Patient req s' es

/-- How Django's ChangeList pages a list: `list_per_page`, `list_max_show_all`, and whether the address of the page has the parameter `all` (the link "Show all"; the front end
sends the parameters of the address with every request, treebeard-admin.js:55-58). -/
structure Paging where
  perPage : Nat
  maxAll : Nat
  showAll : Bool
deriving DecidableEq, Repr

/-- Django, ChangeList.get_results: the rows of a page, and `paginator.num_pages`.  Outside /repo; from Django's documentation and source as known.  A page number out of range, which the
front end does not ask for, gives an empty page here. -/
def Paging.page (g : Paging) (l : List AdminRow) (i : Nat) : List AdminRow × Nat :=
  (if l.length ≤ g.perPage || (g.showAll && decide (l.length ≤ g.maxAll)) then l else (l.drop ((i - 1) * g.perPage)).take g.perPage,
    max 1 ((l.length + g.perPage - 1) / g.perPage))

/-- admin.py:82-103 `children_view`: one page of the children of a node -/
def childrenView {σ ρ : Type} (v : TreeView σ ρ) (g : Paging) (db : σ) (k i : Nat) : Except Err (List AdminRow × Nat) :=
  match treeContext v db (some k) with
  | .error e => .error e
  | .ok l => .ok (g.page l i)

/-- admin.py:77-80 `changelist_view`: one page of the roots -/
def rootsView {σ ρ : Type} (v : TreeView σ ρ) (g : Paging) (db : σ) (i : Nat) : Except Err (List AdminRow × Nat) :=
  match treeContext v db none with
  | .error e => .error e
  | .ok l => .ok (g.page l i)

end Verif
