# Formal model of django-treebeard in Lean 4: design

This file says what is modelled, how each property of `properties.jsonl` is stated and proved, and what
is trusted. Theorem names are in `MANIFEST.json`.

## 1. Architecture

```
Verif/Spec.lean        the specification: ordered forests, independent of any implementation
Verif/Forest*.lean     lemmas about the specification (sorted listings, pre-order)
Verif/Common.lean      shared model: positions, errors, order_by, sorted-position filter   (models.py, utils.py)
Verif/NumConv*.lean    model and proofs for numconv.py
Verif/Path*.lean       generic theory of tables keyed by path (used for MP and LT)
Verif/MP/*             model (Model.lean) and proofs for mp_tree.py
Verif/NS/*             model and proofs for ns_tree.py
Verif/AL/*             model and proofs for al_tree.py
Verif/LT/*             model and proofs for ltree/__init__.py
Verif/Txn*.lean        concurrent transactions with a row lock, serialisability (C43, C53, C69)
Verif/Auto.lean        concurrent calls without transactions (C78)
Verif/Props/*          the property theorems, each beside non-vacuity examples
```

A database table is a `List Row`; the order of that list is the physical order and carries no meaning.
Every API call is a total computable function `table → arguments → Except Err (table × ...)`, written
branch by branch after the Python, with exceptions as values. A `transaction.atomic` call that raises
leaves the table as it was: the error branch returns no table. `QuerySet.filter(..).order_by(..)` is
`List.filter` followed by an insertion sort; `update(..)` is `List.map`.

The specification is one small type: `Forest := Option Nat → List Nat` — for every node (`some pk`) its
ordered list of children, and for `none` the ordered list of roots. Operations on it (`put`, `move`,
`remove`, `prune`) are a few lines each. A table is related to it through the *API itself*: `forest T`
is what `get_children` and `get_root_nodes` return. The main theorems have the shape
`op T args = ok T' → forest T' = Spec.op (forest T) args` plus an invariant, i.e. refinement.

## 2. How each property is proved (plan)

| id | model | proof |
|----|-------|-------|
| C01-C03 | `NumConv.int2str/str2int` on lists of code points, with explicit error values | induction on the digits; order embedding by radix arithmetic |
| C04 | MP state machine over histories of operations by primary key | invariant by induction; the known violation (C12) is excluded by an explicit guard, and the negation is proved |
| C05-C07 | MP operations | refinement to `Forest.put` / `Forest.move` through a lemma on one prefix rename and induction over the shifted siblings |
| C08 | all four `move` functions | case analysis |
| C09 | MP delete | refinement to `Forest.prune` |
| C10, C25, C32, C37 | query functions | equality with what the forest implies (parent, ancestors, descendants, siblings) |
| C11 | get_tree of all four | inductive pre-order relation `DFS`; one generic theorem on sorted listings |
| C12 | string-level `_get_path` without overflow check | negation with a concrete witness; guarded positive theorem |
| C13-C15 | fix_tree, find_problems | invariants over the table; loop invariant for the renumbering |
| C16, C39 | sorted-position filter and sorted insertion | lexicographic comparison; sortedness is preserved |
| C17, C29 | signals logged by the model | replaying the log on the old table equals the new one |
| C18, C28 | delete as the list of its SQL statements | every prefix of the statement list |
| C19, C20 | dump and load functions | induction on the structure |
| C21-C24, C26 | NS model on integers | interval invariants, linear arithmetic |
| C27, C46, C47 | in-memory objects returned by the model | equality with stored rows; witnesses where the code violates it |
| C30, C31 | AL model | refinement, rank function |
| C33-C36 | LT model and `generate_label` on strings over 0-9A-Z | lexicographic arguments; witnesses for the violations |
| C38, C42 | decision functions | case analysis over all inputs |
| C40 | `get_annotated_list_qs` on the `get_tree` of each backend | induction on the list of depths; the documented template renders the nested lists of the forest (SpecRender) |
| C41 | composition of the refinements | same specification, so same forests |
| C43 | transition system of clients with a row lock | invariant over all schedules |
| C53 | the same, with clients that take no lock: read a free place, insert, unique index | simulation by serial runs up to clients that are bound to fail; witnesses for NS and AL |
| C44, C52 | the form and the drag and drop (`FormModel`), over any of the four managers | composition of the add and move theorems |
| C48 | `FirstBehind`, `OutOfOrder` (`SpecBehind`) over arbitrary values | case analysis of the shift loop when the rows to shift are not a suffix of the siblings; witnesses for MP |
| C49 | `Forest.HeightLE`, `Below` (`SpecHeight`): levels after an addition and a move | the length of a path is its level times steplen, so the claim is about levels; witnesses for `move` and `load_bulk` |
| C54 | the requests of the admin's tree list (`AdminModel`), over any of the four managers | composition of the navigation theorems with an induction on the depth-first listing |
| C45 | `save` as UPDATE-else-INSERT (Django semantics) | witness for the violation |
| C50 | LT signals | as C17 |
| C51 | the three implementations of `get_descendants_group_count` | counting a duplicate-free list of the descendants |
| C55 | `addAll` (`SpecLoop`): a loop of `add_child` calls that threads the caller's target object | invariant of the loop: the rows of the new children are not touched again |
| C58 | the functions with `path__startswith` over any folding of characters (`MP/Like.lean`), equal to the model's | texts over the alphabet stay so; the folded prefix is the prefix |
| C59 | an UPDATE row by row in any order (`renameRows`, `MP/Rowwise.lean`), equal to the UPDATE in one go | two branches as long as each other, or apart, do not meet half-way; what the loop keeps of the moved branch's path |
| C60 | `FirstBehind`, `OutOfOrder` over the other children of the new parent | the proof of C07 split into a core that does not need the shifted rows to be a suffix of the siblings; a node without values may be among the shifted rows; witnesses for MP |
| C61 | `editData` and the forest; consistency | the edit lemmas of C44 applied to any object that agrees with the stored row in the tree fields; witnesses for stale objects in every backend |
| C62 | `STree.runApi` (what a history of calls asks for) | a client of the calls of one backend (`Calls`); a simulation from a contract that each backend meets call by call, with the theorems of C05–C07, C22–C24, C29–C31, C45, C48, C60, C61; for AL with `node_order_by` and LT up to the order of siblings |
| C63 | `doomedKeys`, `answer` (SpecVeto) | the deletions with an arbitrary answer of Django about the rows collected (VetoModel); equality with the deletions of C09, C24, C31 and C35 or with the table before; for MP the lowered counts as in C18 |
| C64 | `addAll` with `Forest.putEach` (SibLoop); the calls as functions of the target object, which they may change (`addSiblingKeep`, `NS.addSiblingObj` with the cached parent in NS/Objects, `LT.addSiblingObj` in LT/Objects) | invariant of the loop: what the object still has in common with its row (`MP.Nearby`, `NS.Held`, `LT.Held`), and that the next call reads no more than that |
| C65 | `Forest.LiveUp`, `LiveParent` (SpecCached): what a cache must have right | the queries as functions of the cached objects (AL/Objects: the chain of Django's relation cache), induction along the chain; for NS the cached parent is read for its `rgt` only |
| C66 | `NavSpec`, `put`, `moveAsked` | AL/Zero: `get_siblings` with Python's truth value of the key, and the functions that use it; equal to the functions of AL/Model when the parent's key is not 0 |
| C67 | `sibAsked`, `moveAsked`, `MoveRefused` | {AL,LT,NS,MP}/Classes: `add_sibling` and `move` with the classes of the objects; `==` is false for objects of different classes, and queries return objects of the tree model. Shown equal to the functions of the models, or to have the same visible outcome, where the property holds |
| C68 | `Row.fits`, `Room`, `RoomFor` | {NS,AL}/Range: the functions of the models with every statement checked against the range `0..M` of the columns; shown equal to the functions of the models where there is room |
| C69 | SpecParts: `OwnTrees`, `GoesTo`, `Apart`; `MovedInTurn`, `MovedApart` | {NS,AL,LT}/Concurrent, MP/ConcurrentMove: `move` as a client of Txn.lean, shown equal to `move` when alone; TxnParts, RowParts: clients that read and write parts of the table of their own |
| C70 | `Gone`: no row has the primary key; the table after the call is the table before it, or the call raises | the operations of the four models, with any object |
| C71 | `LabelsIn`: the labels have at most so many characters | the histories of C35; the limit of the database is not part of the model, the theorems say when it is respected |
| C72 | `PosIn`: the positions in the table are at most so high; the additions and moves of a history are counted | the histories of C04; replaces the guards of C04 and C41 for MP, which are about every state on the way, by a count of the operations |
| C73 | `Forest.opened`: the forest that a user sees who has opened certain nodes; `openAfter`: the nodes that are open after clicks and drags, as a function of the forest only; `ScreenShows` | invariants over all interleavings of events and answers (`PageInv`), and for a user who waits (`PatientInv`), on any forest and any server that serves the children in pages; instances through C54 |
| C74 | `addEach`: calls one after the other, ended by the first exception; `Op.Plain`: roots are made by `add_root` only | the labels of roots made by `add_root` are one or two letters (`ShortAt`), so 702 roots use them up; positions of MP roots are 1, 2, 3 … (`UpTo`); folds of C22 and C31 |
| C75 | `AllOrNothing`: told that it is done and the table asked for, or told something else and the table as it was; `FormAnswer`, `MoveAnswer` | the page without errors runs the calls of `formSave` in the same order; C44 and C52; errors of `move` cannot come from `refresh` or `save` |
| C76 | `SearchShows`: requests show the hits among the children, opening everything shows `HitPath` (the hit and everything above it are hits) | the filtered answers of C54, induction on the depth-first listing with chains of hits (`HitBelow`); counting for "Select all"; C09, C24, C31, C37 for deletions |
| C77 | `SubShows`, `Buttons`: requests show the nodes of the model among the children, opening everything shows `HitPath` of the model | two sorted lists with the same members are equal (`toSub_eq`), so `filter(ptr__in=…)` keeps tree order; then the induction of C76; C11, C44 for the form |
| C78 | `DoomedBy`, `ChosenOnce`, `TreesOnce`: what several deletions are to leave | an invariant of all interleavings for each backend: LT and AL, the table is the first one less what is over; MP, a ghost state of what each client has read and taken from which `numchild`; NS, each tree is its client's own, and is as after that client's statements so far |
| C79 | `MovedAll`, `LoopOut`, `NoneBelow`, `Outside`: several moves relative to one target | for each backend what `move` reads of its objects, and which rows a move leaves as they are; an invariant of the loop that says how good the objects still are |
| C80 | `Forest.Goes`, `AnyOf`: what goes with a set of nodes | two prunings are one (`Goes.comp`, `prune_prune`); `Deletes`: what a single deletion does; induction over the list |
| C81 | `Forest.Branch`, `Copied`: one more branch, a copy of the old one | the dump prepared with fresh keys is a renamed branch (`copy_prepared`), loading it is a graft; the levels of the copy (`Copied.level`) bound the MP paths |
| C82 | `DumpOf`: a dump made by any of the four kinds; `Restored` (from C19) across kinds | each dump shows a forest (`DumpOf.shows`); what is to be loaded is a renamed copy (`DumpOf.target`); `Restored.trans` |
| C83 | `Forest.Arranged`, `Forest.toEnd`: the listed siblings last, in order | the loop of C79; for NS two further invariants of the loop: nodes that end before the target does (`LeftInv`), nodes after it (`RightInv`) |
| C84 | `Forest.merged`, `Forest.handed` | the loop of C79 for the children, then the deletion theorem of the backend; nothing is below the node any more (`merged_prune`) |
| C85 | `Forest.WasAt`: the place of a node as a position relative to another node | a move depends on the other nodes only, and leaves them as they are (`remove_moveAsked`, `WasAt.back`); the move theorem of the backend twice |
| C86 | `Forest.move`, `Forest.Branch` | the dump of the branch grafted on the forest without the branch is the forest with the branch moved (`cut_grafted`); the theorems on dumps, deletion and loading in turn |
| C87 | `Forest.dissolved`, `Forest.released` (SpecDissolve.lean) | a move right of a node keeps the rest of its branch (`right_kept`), so the objects for the other children stay good; a loop invariant per kind; the forests between by `move_released` |
| C88 | `Linked`, `RestoredLinks` (SpecLinks.lean) | loading with relations is loading without them followed by saving the relations of the returned keys (`loadNest_links`); for the round trip the returned keys are the nodes in the order of the tree, which fixes the renaming (`roundtrip_links`) |
| C89 | `Forest.Resorted`, `Forest.Descending` (SpecResort.lean) | invariant of the loop (`Sorting`): a moved node stands before all greater siblings and after the equal ones moved before; for MP also that the nodes still to be moved stand before the others (`Waiting`), so that the greater siblings are at the end and the guards of C60 hold |
| C90 | `readOutline`, `Displays`, `ShowsOutline` (SpecOutline.lean): how a reader takes an indented list, and what a browser shows for HTML without tags | induction over the depth-first listing: what follows a node with more indentation is its branch; without the branch of the edited node the listing is that of the pruned forest |
| C91 | `Forest.StablySorted` (SpecLoadSorted.lean), `Forest.Near` on top of `Grafted`: the tree is the grafted one with each group of siblings sorted stably | simulation: every addition at its sorted place matches an addition behind all siblings in a second forest, which ends as the grafted one; LT: the paths of ancestors do not change |
| C92 | `plainOp` (SpecUnsorted.lean), `Forest.StablySorted` between the forests of two histories | induction on the history with a relation between the two specification trees (`Twin`), then C41 for each kind of tree |
| C93 | `Forest.handedOver`, `handOps` (SpecMergeSorted.lean), `Forest.StablySorted` | C92 from any sorted table; the history without order is computed step by step (`HandsOver.run`) |
| C94 | `Hands` (Props/Dispatch.lean): one warning and the manager's outcome | lookup along the resolution order; the tables of names transcribed in DispatchModel.lean |
| C95 | `Model.Usable` | cases on the declaration `objects` resolves to |
| C96 | `CopiedSorted` (SpecCopySorted.lean) | C91 on the prepared dump; a sorted group is not changed by sorting it stably, so only the place of the top differs from `Copied` (`Copied.sort`) |
| C97 | `PosIn`, `Nest.height` (SpecLoadRoom.lean) | each addition raises the highest position by at most one (C72), and leaves the depths of the others; induction over the structure (`LoadsTo.room`) |
| C98 | `Refreshed` (SpecRefresh.lean) | lookup after deletion, by induction over the names; the copied fields one by one; then C65 with nothing cached |
| C99 | `MovedSorted` (SpecCutSorted.lean) | C91 for the tree without the branch; the grafted tree is the moved one (C86), and sorting it moves the top only; `MovedSorted.unique` compares with `move` (C16) |
| C100 | `Forest.remove`, the forests and data of both ways (WanderModel.lean is the caller) | every move keeps the forest without the node (`remove_moveAsked`), so refusals, the parent of the last target and the forest asked for are the same from both tables; sorted by `MovedSorted.unique` |
| C101 | `Tree.Doomed`, `Forest.prune` | with the moved node among the chosen ones the same nodes are doomed in both forests (`doomed_of_remove`), and pruning forgets where it was (`prune_of_remove`) |
| C102 | `ApiOp.Only` (SpecGuests), `stepApi` of C62 | without the guests the tree asked for is the same after every call (`STree.Hosts`), below guests are guests only, so their deletion takes nothing else (`Hosts.leave`); C62 brings it to the tables |
| C103 | `TwinVals`, `TwinData`, `TwinHist` (SpecTwin), `stepApi` of C62 | a relation between two runs (`STree.Twins`) kept by every pair of calls; the order of `Behind` reads the fields of `node_order_by` only (`behind_twin`) |
| C104 | `ApiOp.rekey`, `Forest.Rekeyed`, `rekeyData` (SpecRename), `stepApi` of C62 | every call of the specification commutes with an injective translation of the keys (`STree.Rekeyed.step`); C62 brings it to the tables |

## 3. Trusted base

* Lean's kernel. Axioms allowed: `propext`, `Classical.choice`, `Quot.sound` (`#print axioms` on every property theorem shows
  no other one).
* The reading of the Python code into the model; every definition cites file and lines.
* Django/SQL semantics used by the model: `filter`/`order_by`/`update`/`save`/`delete` behave as the
  corresponding list operations; `transaction.atomic` undoes everything on an exception; the database
  collation orders path characters as their code points do.

### What is modelled, and where it is simplified

All backends. In-memory objects are copies of rows, so they may be stale; two objects are the same node when their primary keys
are equal. The new row is passed as a row value whose key is the one the database will give it (`Fresh`: not in use). Field
values are natural numbers or null (`Vals`); `node_order_by` is a list of (field, descending). A comparison with null is unknown
and selects nothing, as in SQL. Rows created by parallel transactions are not part of the sequential model (see C43 for the
locking). Multi-table inheritance is modelled in the
`Classes` files (C67) and in `AdminInherited` (C77) only; elsewhere all objects are of one class. Proxies and `using` databases are not modelled.

Signals are appended to a log that is part of the state (`DB.sigs`). An operation that fails leaves the log as it was: a listener is
taken to follow the transaction, as one that writes to the same database does. Signals already sent inside a transaction that is
rolled back later are therefore not seen by the mirror theorems (C17, C29, C50). The rows saved one at a time (`post_save`) are
the `saved` events.

MP (`mp_tree.py`). Paths are lists of code points, `path__startswith` is case sensitive prefix (as with the default
collations of PostgreSQL; C58 is about SQLite, whose LIKE ignores case: `MP/Engine.lean` and `MP/Like.lean` repeat the functions with the
statements of the database as a parameter). An UPDATE changes all its rows in one go, and then the unique index is looked at; C59 is about
databases that look at the constraints after every row (the bulk UPDATE of fix_paths is not covered). `steplen` at least 1 and an alphabet of at least two increasing
characters (`Cfg.Ok`); other configurations appear in the C03 theorems. `max_length` of the path column is checked where
the code checks it (`add_child`, fix_tree); the column itself is not enforced on UPDATE. `fix_tree(fix_paths=True)` takes the order in which
the database returns rows as a parameter (`OrdersBy`: any permutation, by path without `node_order_by`, sorted by the fields with it); its
`while` loop runs on fuel, and C14 shows that the fuel is enough.

Bulk data (`dump_bulk`, `load_bulk`). A structure of nested dictionaries is a `Nest`; an item is a primary key, if it has one, and the
field values. Serialising and deserialising the fields is taken to give the values back; many-to-many relations are modelled
in LinksModel.lean (C88) as the related keys of every node and field, symmetrical relations of a model with itself are not. The keys that the
database chooses are parameters. `SpecDump` says what a dump of a forest is (`Dumps`), what loading does to a forest (`Grafted`) and what restoring a forest
means (`Restored`).

Arguments (`utils.check_create_args`). The twelve decorated functions of the managers are one type (`Creator`), the methods of the nodes call
them (`byMethod`). A model object counts as true, a dictionary when it is not empty. Keyword arguments build an object or fail with TypeError.
`save()` updates the row with the same primary key when there is one (C45); for a key field with a default, Django inserts instead.

Form and admin (`forms.py`, `admin.py`). `FormModel` works on any manager (`Manager`). The submitted values are already in the instance, as
Django's validation puts them there. `formSave` has `changed_data` as a parameter; in `formSubmit` the two tree fields count as changed when the
submitted value differs from the initial one (`changedData`), and only the list of changed model fields is a parameter. `save` of the form is not a transaction itself, `TreeAdmin` wraps it; a failed
save is therefore an error without a new state. Explicit `initial` values for a new instance, many-to-many fields, permissions and the
messages are not modelled (labels of the choices are: C90, with Django's `conditional_escape` and Python's `html.escape` as known). `AdminModel` answers one request of the tree list; search, filters and paging (but see below), an `ordering` of the admin class or
of the model and the HTML are not modelled.
`AdminForm` is the admin's views that write. Django's `changeform_view` (outside /repo) is modelled from its known behaviour: one transaction on the model's database around `save_form` (`commit=False`), the validation of the inlines,
`save_model` and `save_related`; the last is any function. Validity of the form and the inlines, the permissions and the database setup (`Conn`) are parameters. In `C75_move_refusing` only the `save` after the move raises; this fits MP and NS, whose moves call no `save` of the node (those of AL and LT do).
`AdminSearch` is search, list filters and actions: any predicate on the nodes. Which query sets Django's `ChangeList`, `response_action` and `get_deleted_objects` use is modelled from their known behaviour (outside /repo).
`AdminInherited` is the list and the reference field for a model that inherits from the tree model, given by the set of its primary keys. `filter(ptr__in=…)` returns the rows of the inherited model in the order of its manager.
`AdminPage` is the front end (`treebeard-admin.js`): the rows with their attributes, the classes of the buttons, hidden rows, outstanding requests; events are clicks on buttons, `dragenter`, and answers,
in any order. Paging is that of Django's `ChangeList` (outside /repo, modelled by `Paging.page` from its known behaviour). A failed request does nothing. Not modelled: the look of the page, and the pointer
positions while dragging (the request that a drop sends is C52; the page is loaded anew after it).

NS (`ns_tree.py`). Integer columns are unbounded and unconstrained (NS/Range.lean puts the range back: C68). `get_descendant_count` is a float in the code; it is a
rational here.

AL (`al_tree.py`). `get_siblings` takes the parent's key as it is; the code's `if node.parent_id:` differs for the key 0, which C66 is about. The parent column is a foreign key with `on_delete=CASCADE` (as in the project's own test models): deleting
nodes deletes what is below. The cache of the foreign key relation is not modelled; the cached depth (`_cached_depth`) is.
Rows with equal order fields come back in an arbitrary order, any permutation chosen by `Cfg.ties`. The recursive loops run on fuel and
give the error `diverges` when it ends; the theorems show that this does not happen on consistent tables.

LT (`ltree/__init__.py`). A path is a list of labels; `ltree` values compare label by label, labels byte by byte; `<@` is prefix,
itself included. The unique constraint is deferred, so it is checked when the outermost operation ends. The set
`paths_to_remove` is a list. The count that `delete` returns is modelled for C63.
The text form of a path, and the conversions of `PathField`, are in `LT/PathText.lean`; C57 shows that lists of labels stand for the stored texts.

`DispatchModel` is the compatibility layer (deprecation.py, models.py:58-95 and 136-176) and the system check (models.py:114-128) over abstract values, states and method bodies. Classes are linear resolution orders;
the names each class of treebeard defines are transcribed from its body. Django's `Options.managers`, `default_manager` and the descriptor of `objects` are modelled from their known behaviour. Not modelled: the text
and `stacklevel` of warnings, warnings turned into errors, Django's own checks.

`RefreshModel` is `refresh_from_db` and `_clear_cached_attributes` (models.py:105-112) over objects with arbitrary attributes. Django's part (copy the named fields, all of them by default; a
relation also drops its cached object) is transcribed from Django and trusted; deferred fields and `using` are left out.

`WanderModel` is caller code: a loop of `node.move(Model.objects.get(pk=…), pos)` with one node object. Every target is fetched (no cached parent), and for AL the node object has no cached depth.

Concurrency (`Txn.lean`). Any number of clients, one transaction each. The first step takes the lock of one row (`select_for_update`) and waits
while another client holds it; the lock is held until the commit, the exception or the crash of the client. Isolation is READ COMMITTED: a
statement sees what was committed before it and the client's own changes. A change is a function of the table, so an UPDATE acts on the rows
committed in the meantime. Unique indexes are a check of the table that the commit would leave; the waiting of a second INSERT for the first is not
visible in it. What is proved holds of every state that can be reached, that is at every moment of every interleaving, and there is always a client
that can go on (`Txn.progress`). `C43_one_parent`, and the theorems for sorted MP trees, NS and LT, need only that a client's statements are, alone, `add_child`; `C43_any_parents`
is about the statements of MP's `add_child` one by one. Not modelled: SERIALIZABLE and snapshot isolation, statements that are interrupted halfway by a
row lock of an UPDATE (which matters for NS when clients add below different nodes of one tree, so C43 says nothing about that), and databases that ignore
`select_for_update` (SQLite, where writers exclude each other anyway).
The clients of C69 lock nothing: each has a key of its own. An NS `move` is one statement for its queries, then the UPDATEs one by one; an AL `move`
is six statements, one for each query and UPDATE; an MP `move` is one statement for its queries, then the UPDATEs of paths (for every `n`, the first `n` one by one
and the rest together), the two UPDATEs of `numchild` and the `refresh_from_db` calls; an LT `move` is one statement
for its queries, four for each of the three tries of `_get_new_path`, and three for the end. A waiting UPDATE (a row lock held by another client) only delays a step, and so rules out
some of the interleavings that the theorems allow.
The clients of C78 (`Auto.lean`, the `ConcurrentDelete` files) have no transaction: every statement of `delete` is committed at once. The queries of MP's and NS's `delete` are one step, as is each statement after
them; Django's own `delete` is one DELETE, or a SELECT and a DELETE by primary keys (`fast`, both are covered). AL's `delete` is Django's: one SELECT for each level, then the DELETE, which the foreign key refuses when a child has come since.

## 4. Where the code and the properties disagree

Each of these is proved as a negation with a concrete witness. The property theorems then carry the guard, and their names end in
`_partial` when the guard is not part of the property.

| theorem | what happens |
|---|---|
| `C03_degenerate_alphabets` | alphabets of 0 or 1 characters are accepted; conversions then fail or do not end |
| `C12_move_corrupts` | MP: when the positions of a group are used up, the temporary path of a move has one character more and the branch is lost |
| `C14_overflow_swap` | MP: fix_tree(fix_paths=True) cannot sort a group that uses the last position: the node in the way has nowhere to go |
| `C15_accepts_degenerate` | MP: find_problems accepts the empty path with depth 0 and the zero step |
| `C16_al_ties` | AL: the place among equal siblings is the database's choice |
| `C16_lt_fails` | LT: a node greater than all siblings takes the first free label, which may be anywhere |
| `C18_needs_fix_tree` | MP: after a crash inside delete the children counts are wrong |
| `C19_al_ties` | AL: with node_order_by, a restored tree may show equal siblings in another order |
| `C19_lt_fails` | LT: the 27th loaded root gets the label AA, between A and B, so the order of the roots is not restored |
| `C20_mp_overflow` | MP: load_bulk(bulk_create=True) stores children for which there is no position, with paths that are too long |
| `C20_mp_wrong_parent` | MP: with node_order_by, load_bulk(bulk_create=True) can put children below the wrong node |
| `C26_misses` | NS: find_problems does not report gaps, or a root that does not start at 1 |
| `C27_ns_stale` | NS: the object passed to add_child is stale afterwards if it has children |
| `C32_sorted_prev_next_raise` | AL: get_prev_sibling and get_next_sibling raise with node_order_by |
| `C34_before_fails` | LT: no label is found before "00" |
| `C36_add_root_fails`, `C36_add_sibling_fails`, `C36_move_fails` | LT: the new root is not always last; shifting labels can change the order of other nodes |
| `C40_al_max_depth_raises`, `C40_lt_max_depth_raises` | AL, LT: get_annotated_list with max_depth raises |
| `C42_empty_kwargs` | an instance together with an empty create_kwargs dictionary is accepted |
| `C44_descending_unsorted` | form: with `node_order_by = ["-name"]` a changed name does not move the node, since `-name` is not the name of a form field |
| `C44_mp_needless_overflow` | form, MP: a new node is first added below the reference, so it may fail with PathOverflow although the place asked for is free |
| `C44_ns_add_fails` | form, NS: a new node next to a reference that has children and is the last child of its parent. `add_child` leaves the reference with a wrong `rgt`, and `move` then looks for its parent too high: "after" becomes "before", or IndexError |
| `C48_mp_edited` | MP: IntegrityError when a root is added to roots that are out of order because a value was edited |
| `C48_mp_null` | MP: the same for a new root with a null value, on a tree which only the API made |
| `C49_mp_move_fails` | MP: `move` does not check max_length: a branch moved to a deeper level gets paths longer than the field |
| `C49_mp_load_fails` | MP: `load_bulk(bulk_create=True)` does not check max_length either below the first level |
| `C44_ns_add_corrupts` | the same with `node_order_by` and "sibling of": the new row is stored with a depth that does not fit its place, the table is not a nested set any more |
| `C44_al_accepts_branch` | form, AL: a node below the instance is not listed but accepted as reference; saving raises InvalidMoveToDescendant |
| `C45_mp_overwrites`, `C45_ns_overwrites`, `C45_al_overwrites`, `C45_lt_overwrites` | load_bulk(keep_ids=True) overwrites the stored node with a used key, and breaks the tree around it |
| `C46_mp_stale_count` | MP: a move among the children of the target raises numchild of the target object, not of its row |
| `C46_al_stale_depth`, `C46_al_stale_target`, `C46_lt_stale_target` | AL: the cached depth is stale after a move, and the target object after a shift; LT: the target object is stale after a shift that makes room at the first place |
| `C53_mp_clash`, `C53_lt_clash` | MP, LT: of two concurrent add_root calls one can fail with IntegrityError, since nothing is locked |
| `C53_ns_corrupts` | NS: two concurrent add_root calls can both get the same tree_id, and the table is not a nested set any more |
| `C53_al_clash` | AL: two concurrent add_child calls on one node can give both children the same position |
| `C55_ns_corrupts` | NS: the first child added to a leaf keeps the caller's target as cached parent, whose rgt the next `add_child` makes too large; `add_sibling(first, "last-sibling")` then stores the node outside its parent |
| `C56_mp_numchild` | MP: a value given for `numchild` is stored with the new node, which has no children |
| `C56_al_root` | AL: `add_root` does not set `parent`; with a value given for it, no root is added |
| `C58_mixed_case_fails` | MP: with letters in both cases in the alphabet, on SQLite `get_tree` returns and `delete` removes other branches, since LIKE ignores case |
| `C59_cramped` | MP: steplen 1 and no room behind the last sibling: a move to the left goes by way of a path below the first sibling place, and the final UPDATE violates the unique index if the child's row is taken before its parent's |
| `C60_mp_edited` | MP: IntegrityError when a node is moved among siblings that are out of order because a value was edited |
| `C60_mp_corrupts` | MP: a root moved to its sorted place becomes a child of another root, because the temporary position does not fit in `steplen` characters |
| `C61_mp_stale` | MP: saving an object fetched before a child was added resets `numchild`, so the child disappears |
| `C61_mp_stale_path` | MP: saving an object fetched before a move puts the old path back, so the descendants are orphans |
| `C61_ns_stale` | NS: saving an object fetched before a child was added puts the old `rgt` back, so the child is outside of its parent |
| `C61_al_stale` | AL: saving an object fetched before two moves makes a cycle of parents |
| `C61_lt_stale` | LT: saving an object fetched before a move puts the old path back, so the descendants are orphans |
| `C63_mp_refused` | MP: a deletion that a protecting foreign key refuses leaves the parent with a lowered `numchild`; its only child is shown no longer, and `add_child` raises IntegrityError |
| `C64_mp_left`, `C64_mp_first_right`, `C64_al_left`, `C64_al_first_right`, `C64_ns_left`, `C64_lt_first_right` | two `add_sibling` calls with one target object: the second node goes to the wrong place, as the first call has moved the row of the target |
| `C64_ns_last`, `C64_ns_corrupts` | NS: `add_sibling("last-sibling")` twice with one target object gives the wrong order (stale cached parent); `"first-sibling"` three times corrupts the table |
| `C65_mp_stale`, `C65_ns_stale`, `C65_al_stale` | an object whose fields are all current, with a stale cached parent: MP's `get_parent()` gives a former parent, NS's `add_sibling("last-sibling")` does not put the node last, AL's ancestors, root and depth are the old ones, even with `update=True` |
| `C66_al_siblings_zero`, `C66_al_add_zero`, `C66_al_move_zero` | AL: `get_siblings` of every child of a node with the key 0 gives the root nodes; `add_sibling("last-sibling")` and `move("last-child")` do not put the node last there, and two siblings share a position |
| `C67_ns_add_right`, `C67_ns_move_right` | NS: on the right of an inherited target means on the left of it |
| `C67_mp_add_right`, `C67_mp_move_right` | MP: on the right of an inherited last sibling at the last position there is no PathOverflow; the path gets a step that is too long |
| `C67_mp_noop` | MP: moves of inherited nodes that should change nothing raise PathOverflow when no position is free |
| `C67_{al,lt,ns,mp}_self` | below itself, through an object of another class, a leaf (LT: any node) is moved instead of refused, and is lost from the tree |
| `C68_ns_transient` | NS: a move can be refused although the tables before and after it fit: the hole is made before the gap is closed |
| `C68_ns_exhausts`, `C68_al_exhausts` | moves alone use up the tree numbers (NS) and positions (AL) of a tree with two rows; `add_root` is then refused |
| `C69_ns_corrupts` | NS: two concurrent moves in one tree both commit, and the intervals are not nested any more |
| `C69_ns_roots` | NS: a move that makes a root gives other trees new numbers; a concurrent move in one of them puts its node into a tree where nothing encloses it |
| `C69_mp_orphan`, `C69_lt_orphan` | MP, LT: one client looks up the path of the target, another moves the target away, both commit, and the node is below a path that no node has |
| `C69_mp_roots`, `C69_lt_roots` | MP, LT: a move that makes a root gives the other roots new paths; a concurrent move in one of their trees writes to the wrong nodes or loses its node |
| `C69_al_cycle` | AL: two concurrent moves both pass the check for descendants, commit, and make each node the parent of the other |
| `C70_mp_reused` | MP: a move below a deleted node goes below the node that has got its path |
| `C70_mp_orphan`, `C70_lt_add_orphan` | MP, LT: `add_sibling` next to a node that was deleted with its parent stores a node without a parent |
| `C70_ns_corrupts` | NS: `add_sibling` next to a deleted node puts the new node inside another one, at the wrong depth |
| `C70_al_back`, `C70_lt_back` | AL, LT: `move` of a deleted node inserts it again; in LT it takes the children of the node that has got its path |
| `C70_al_cycle` | AL: a node goes next to a deleted node that was below it, and becomes a child of its own child |
| `C70_lt_orphan` | LT: a move below a deleted node leaves the node without a parent |
| `C71_lt_exceeds` | LT: three roots, two of which change places again and again: the label of the third gets longer with every move, over every limit |
| `C72_mp_exhausts` | MP, every alphabet and `steplen`: two roots that are moved behind each other again and again use up all positions; `add_root` then raises `PathOverflow` on a table of two rows |
| `C73_hidden_parent` | a node is closed while the children of a node below it are being loaded: the answer shows rows below hidden ones |
| `C73_both_classes` | a second click while the children of a node are being loaded: the button shows a closed and an open node at once |
| `C73_key_zero` | the parent of a root is given as 0: a root with primary key 0 is taken for its own child, and closing it is an endless recursion |
| `C73_show_all` | with `?all=` in the address, a list longer than a page (but not too long for "Show all") is sent as a whole for every page: the children appear several times |
| `C74_lt_limit`, `C74_lt_round_trip` | the 703rd `add_root` raises ValueError ("Please report this as a bug"), and so does loading the dump of any tree with more than 702 roots |
| `C75_page_other` (`C75_page_kept`) | `_changeform_view` calls `transaction.set_rollback(True)` without `using`: for a tree outside the default database, with `ATOMIC_REQUESTS` in the default one, a page shown again with errors has moved or added the node |
| `C75_move_refused_moved` (`C75_move_refusing`) | `move_node` is not one transaction: a `pre_save` receiver that raises gives an error answer after the node has been moved |
| `C76_hit_not_shown`, `C76_empty_button` | search and filters are applied level by level: a hit below a node that is no hit cannot be found, and nodes can be opened that show nothing |
| `C76_across_more` | "Select all n nodes" counts the roots, and the action runs on the nodes of the whole tree (a POST request is not restricted to the roots) |
| `C76_confirm_less` | the confirmation page of a deletion does not list the descendants that will be deleted (MP, NS, LT) |
| `C77_never_shown` | in the admin of an inherited model a node below one that is not of the model cannot be found |
| `C77_empty_button` | in the admin of an inherited model a button can open to nothing: for MP and NS other models' nodes count, for LT nodes further below do |
| `C77_al_rejected` | the AL form of an inherited model shows references that it then rejects, so the form sent back unchanged is not valid, and it offers the node itself |
| `C78_mp_twice` | MP: two clients that delete one node at the same time both lower the `numchild` of its parent |
| `C78_mp_orphan`, `C78_lt_orphan` | a child added while its parent is being deleted is left without parent (LT: only when Django reads the rows before it deletes them) |
| `C78_mp_wrong_branch`, `C78_ns_wrong_branch` | MP, NS: `delete` goes by paths and numbers read before; a call in between makes it delete another branch |
| `C78_ns_wrong_node`, `C78_ns_broken` | NS: of two deletions in one tree the second deletes a node that nobody chose, or breaks the numbers |
| `C79_mp_flatten`, `C79_lt_flatten` | MP, LT: in a loop of moves a node that comes after its own parent is not moved but counted (MP), or loses its children (LT) |
| `C79_mp_first`, `C79_lt_left` | MP, LT: a move that shifts siblings makes the objects of the next moves stale; another node is moved, or children are left without parent |
| `C79_ns_parent_after`, `C79_ns_same_tree` | NS: a node that comes after one of its descendants breaks the numbers; nodes of the tree of the target can be refused |
| `C79_al_left` | AL: several moves to the left of one target come out in the reverse order |
| `C81_lt_root_fails` | LT: a branch copied as a root takes the first free label and comes before later roots |
| `C82_lt_fails` | LT: 27 roots loaded from a dump of any kind come out in another order |
| `C83_ns_sibling_fails` | NS: of two children to be moved after a third one the second is refused as if the third were below it |
| `C85_mp_fails` | MP: with all positions taken a node moved away cannot come back to the left of its right neighbour, though its position is free |
| `C85_lt_fails` | LT: a node moved to the first place and back to the last one leaves other siblings in another order |
| `C86_mp_fails` | MP: a branch that was dumped and deleted cannot be loaded where the last position is taken, though others are free |
| `C86_lt_root_fails` | LT: a branch loaded as a root takes a free label and is not the last root |
| `C87_lt_fails` | LT: siblings right of a dissolved node change places |
| `C88_own_nodes` | relations of a model with itself keep the old keys when a dump is loaded without `keep_ids` |
| `C89_mp_order` | moving siblings to their sorted places one after the other, with values edited before, ends with IntegrityError in some orders |
| `C89_mp_corrupts` | the same with the last position taken: a root silently becomes the child of another one |
| `C89_lt_unsorts` | LT: sorted roots are not sorted any more after each was moved to its sorted place |
| `C89_lt_descending` | LT: the same does not sort the roots with the greatest first either |
| `C90_al_unnamed` | AL: the form's choice for the root is called `--------` and not `-- root --` |
| `C90_text_indents` | texts that begin with non-breaking spaces look like indentation: two trees with the same list |
| `C91_lt_fails` | LT with `node_order_by`: `load_bulk` of four items with the values 3, 2, 1, 4 into an empty table gives the order 1, 2, 4, 3 |
| `C92_al_fails` | AL with `node_order_by`: of two equal roots the first is moved next to the second and stays in front; without order it goes behind |
| `C92_lt_fails` | LT with `node_order_by`: after the first root is deleted the greatest new root takes its label and comes first |
| `C93_lt_fails` | LT with `node_order_by`: a node that is merged into one whose only child has the second label hands over a greater child, which comes first |
| `C94_keyword_fails` | `Model.get_tree(treebeard_method="fix_tree")` runs `fix_tree` |
| `C95_fails` | `tree = MP_NodeManager()` before `objects = models.Manager()` passes the check (E001), but every tree method is an `AttributeError` |
| `C96_lt_fails` | LT with `node_order_by`: the copy of a node below itself comes before its smaller child, which has the second label |
| `C98_al_fails` | AL: `refresh_from_db(fields=["data"])` drops the cached depth, but not the cached parent; the depth found next is the old one |
| `C98_mp_fails` | MP: `refresh_from_db` without `path` among the fields leaves the old parent |
| `C99_lt_fails` | LT with `node_order_by`: a branch cut out and pasted comes before its smaller sibling, which has the second label |
| `C100_mp_fails` | MP with all positions taken: the direct move ends with `PathOverflow`, the detour does not |
| `C100_lt_fails` | LT: a node moved to the first place and then to the last one has reordered its siblings |
| `C101_lt_fails` | LT: a node moved to the first place and deleted has reordered its siblings |
| `C102_mp_fails` | MP: a guest moved within its siblings without room ends up below one of them uncounted; moved on and deleted it leaves `numchild` = -1 |
| `C102_lt_fails` | LT: a guest added at the first place and deleted has reordered its siblings |
| `C103_lt_fails` | LT: the same call on two tables that show the same tree gives different trees |
| `C57_lost` | LT: a path value with an empty label, or with a dot or a space in a label, is not read back as it was saved; a tuple can be queried with but not saved |
