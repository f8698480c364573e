import Mathlib.Data.List.Basic

/-!
# How a model finds its tree methods

The tree methods live on the manager (`Model.objects.get_children(node)`); the methods of the model
(`node.get_children()`) are left for compatibility and hand the call to the manager.  This file models
that hand-over (models.py:58-95, 136-176 and deprecation.py:1-48), the lookup of attributes it rests on,
and the system check of models.py:114-128.

Python values, states and method bodies are abstract: nothing here depends on what a method does.
-/

namespace Verif.Dispatch

/-- A class body: its name and the attributes it defines. -/
structure PyClass (β : Type) where
  name : String
  attrs : List (String × β)

/-- A class, as its method resolution order: the class itself, then its bases. -/
abbrev Mro (β : Type) := List (PyClass β)

/-- Attribute lookup on a class: the first class of the resolution order whose body defines it. -/
def Mro.attr {β : Type} (m : Mro β) (n : String) : Option β :=
  m.findSome? (fun c => c.attrs.lookup n)

/-- `issubclass(m, c)`: classes are told apart by their (qualified) names. -/
def Mro.isSub {β : Type} (m : Mro β) (c : String) : Bool := m.any (fun k => k.name == c)

/-- keyword arguments -/
abbrev Kw (V : Type) := List (String × V)

/-- What the hand-over needs of Python values: `None`, dictionaries, and which values are strings. -/
structure Py (V : Type) where
  none : V
  dict : Kw V → V
  str : V → Option String

/-- A bound method: positional and keyword arguments, the state, and the outcome. -/
abbrev Method (V S : Type) := List V → Kw V → S → Except String V × S

/-- `getattr(m, n)(*args, **kw)` -/
def Mro.call {V S : Type} (m : Mro (Method V S)) (n : String) (args : List V) (kw : Kw V) (s : S) :
    Except String V × S :=
  match m.attr n with
  | none => (.error "AttributeError", s)
  | some f => f args kw s

/-- the four kinds of tree -/
inductive Backend
  | mp | ns | al | lt
  deriving DecidableEq

/-- `_DEFAULT_TREEBEARD_MANAGER` (mp_tree.py:1036, ns_tree.py:605, al_tree.py:298, ltree/__init__.py:545) -/
def Backend.manager : Backend → String
  | .mp => "MP_NodeManager"
  | .ns => "NS_NodeManager"
  | .al => "AL_NodeManager"
  | .lt => "LT_NodeManager"

/-- the model class of each kind of tree (mp_tree.py:1024, ns_tree.py:593, al_tree.py:290, ltree/__init__.py:537) -/
def Backend.node : Backend → String
  | .mp => "MP_Node"
  | .ns => "NS_Node"
  | .al => "AL_Node"
  | .lt => "LT_Node"

/-- models.py:179-693 the names `NodeManager` defines -/
def nodeManagerNames : List String :=
  ["tree_model", "get_tree", "add_root", "add_child", "add_sibling", "move", "get_root_nodes",
    "get_first_root_node", "get_last_root_node", "get_descendants_group_count", "get_annotated_list_qs",
    "get_annotated_list", "load_bulk", "dump_bulk", "get_children", "get_children_count", "get_siblings",
    "get_descendants", "get_descendant_count", "get_first_child", "get_last_child", "get_first_sibling",
    "get_last_sibling", "get_prev_sibling", "get_next_sibling", "get_root", "get_parent", "get_ancestors",
    "_prepare_pos_var", "_valid_pos_for_add_sibling", "_valid_pos_for_sorted_add_sibling",
    "_prepare_pos_var_for_add_sibling", "_valid_pos_for_move", "_valid_pos_for_sorted_move",
    "_prepare_pos_var_for_move", "get_sorted_pos_queryset"]

/-- the names the manager of each kind of tree defines (mp_tree.py:92-961, ns_tree.py:79-590, al_tree.py:13-287,
ltree/__init__.py:134-534) -/
def Backend.managerNames : Backend → List String
  | .mp => ["get_queryset", "get_tree", "fix_tree", "_rewrite_node_path", "_fix_numchild", "find_problems",
      "add_root", "add_child", "add_sibling", "move", "update_parent_counts_after_move",
      "update_move_to_child_vars", "get_root_nodes", "get_descendants_group_count", "load_bulk", "dump_bulk",
      "_increment_numchild", "_decrement_numchild", "_reorder_nodes_before_add_or_move",
      "_set_newpath_in_branches", "get_children", "get_children_count", "get_siblings", "get_descendants",
      "get_root", "get_parent", "get_ancestors", "get_next_sibling", "get_prev_sibling"]
  | .ns => ["get_queryset", "get_tree", "add_root", "add_child", "add_sibling", "move", "get_root_nodes",
      "dump_bulk", "find_problems", "get_children", "get_siblings", "get_descendant_count", "get_root",
      "get_parent", "get_ancestors", "get_descendants", "_alter_gap", "_move_tree_right", "_close_gap"]
  | .al => ["get_queryset", "get_tree", "_get_tree_recursively", "add_root", "add_child", "add_sibling", "move",
      "get_root_nodes", "dump_bulk", "get_children", "get_siblings", "get_descendants", "get_descendant_count",
      "get_prev_sibling", "get_next_sibling", "get_root", "get_parent", "get_ancestors",
      "_is_target_pos_the_last_sibling", "_make_hole_and_get_sibling_order", "_get_new_sibling_order"]
  | .lt => ["get_queryset", "get_tree", "add_root", "add_child", "add_sibling", "move", "get_root_nodes",
      "get_descendants_group_count", "dump_bulk", "_get_new_path", "_move_subtree_right", "get_children",
      "get_siblings", "get_root", "get_parent", "get_ancestors", "get_next_sibling", "get_descendants",
      "get_prev_sibling"]

/-- The class of the manager of a kind of tree: its own body, that of `NodeManager`, and Django's classes.
`lib c n` is the body of the method `n` in the class `c`. -/
def Backend.managerMro {V S : Type} (b : Backend) (lib : String → String → Method V S)
    (django : Mro (Method V S)) : Mro (Method V S) :=
  ⟨b.manager, b.managerNames.map (fun n => (n, lib b.manager n))⟩ ::
    ⟨"NodeManager", nodeManagerNames.map (fun n => (n, lib "NodeManager" n))⟩ :: django

/-! ## The model class -/

/-- What an attribute of a model class is, as far as it matters here. -/
inductive Attr (V S : Type)
  /-- deprecation.py:43-44 `get_moved_manager_classmethod(name)` -/
  | movedClassmethod (name : String)
  /-- deprecation.py:47-48 `get_moved_manager_method(name)` -/
  | movedMethod (name : String)
  /-- models.py:58-66 -/
  | addRoot
  /-- models.py:68-76 -/
  | addChild
  /-- models.py:78-86 -/
  | addSibling
  /-- models.py:88-95 -/
  | move
  /-- anything else -/
  | other

/-- models.py:138-150 `moved_classmethods` -/
def movedClassmethods : List String :=
  ["load_bulk", "dump_bulk", "get_root_nodes", "get_first_root_node", "get_last_root_node", "find_problems",
    "fix_tree", "get_tree", "get_descendants_group_count", "get_annotated_list_qs", "get_annotated_list"]

/-- models.py:155-170 `moved_methods` -/
def movedMethods : List String :=
  ["get_children", "get_children_count", "get_siblings", "get_descendants", "get_descendant_count",
    "get_first_child", "get_last_child", "get_first_sibling", "get_last_sibling", "get_prev_sibling",
    "get_next_sibling", "get_root", "get_parent", "get_ancestors"]

/-- `setattr(cls, n, a)` -/
def PyClass.setattr {β : Type} (c : PyClass β) (n : String) (a : β) : PyClass β :=
  ⟨c.name, (n, a) :: c.attrs⟩

/-- models.py:18-133 the body of `Node` -/
def nodeBody {V S : Type} : PyClass (Attr V S) :=
  ⟨"Node",
    [("TREEBEARD_IDENTIFYING_FIELD", .other), ("MOVENODE_FORM_EXCLUDED_FIELDS", .other),
      ("_cached_attributes", .other), ("get_depth", .other), ("is_root", .other), ("is_leaf", .other),
      ("is_sibling_of", .other), ("is_child_of", .other), ("is_descendant_of", .other), ("add_root", .addRoot),
      ("add_child", .addChild), ("add_sibling", .addSibling), ("move", .move), ("delete", .other),
      ("_clear_cached_attributes", .other), ("refresh_from_db", .other), ("check", .other), ("Meta", .other)]⟩

/-- models.py:136-176 `_inject_moved_method_back_compat`: the two loops over the names -/
def nodeClass {V S : Type} : PyClass (Attr V S) :=
  movedMethods.foldl (fun c n => c.setattr n (.movedMethod n))
    (movedClassmethods.foldl (fun c n => c.setattr n (.movedClassmethod n)) nodeBody)

/-- the names the model class of each kind of tree defines (mp_tree.py:1024-1147, ns_tree.py:593-636,
al_tree.py:290-351, ltree/__init__.py:537-592) -/
def Backend.nodeNames : Backend → List String
  | .mp => ["steplen", "alphabet", "node_order_by", "path", "depth", "numchild", "TREEBEARD_IDENTIFYING_FIELD",
      "MOVENODE_FORM_EXCLUDED_FIELDS", "_DEFAULT_TREEBEARD_MANAGER", "objects", "numconv_obj_",
      "_cached_attributes", "_int2str", "_str2int", "numconv_obj", "get_depth", "is_sibling_of", "is_child_of",
      "is_descendant_of", "is_root", "is_leaf", "_get_basepath", "_get_path", "_inc_path",
      "_get_lastpos_in_path", "_get_parent_path_from_path", "_get_children_path_interval", "Meta"]
  | .ns => ["node_order_by", "lft", "rgt", "tree_id", "depth", "TREEBEARD_IDENTIFYING_FIELD",
      "MOVENODE_FORM_EXCLUDED_FIELDS", "_DEFAULT_TREEBEARD_MANAGER", "objects", "_cached_attributes",
      "get_depth", "is_leaf", "is_root", "is_descendant_of", "Meta"]
  | .al => ["objects", "node_order_by", "TREEBEARD_IDENTIFYING_FIELD", "MOVENODE_FORM_EXCLUDED_FIELDS",
      "_DEFAULT_TREEBEARD_MANAGER", "_cached_attributes", "get_depth", "is_root", "is_sibling_of",
      "is_child_of", "is_descendant_of", "Meta"]
  | .lt => ["node_order_by", "path", "TREEBEARD_IDENTIFYING_FIELD", "MOVENODE_FORM_EXCLUDED_FIELDS",
      "_DEFAULT_TREEBEARD_MANAGER", "objects", "_cached_attributes", "get_depth", "is_sibling_of",
      "is_child_of", "is_descendant_of", "is_root", "is_leaf", "Meta"]

/-- A manager declared in a class body: `name = cls()`. -/
structure Decl (V S : Type) where
  name : String
  cls : Mro (Method V S)

/-- A model of some kind of tree, as its author writes it: the classes of their own (the model and those of its
bases that lie before the class of treebeard), the managers these declare, class by class and in the order of the
text, and `Meta.default_manager_name`. -/
structure Model (V S : Type) where
  kind : Backend
  own : Mro (Attr V S)
  managers : List (List (Decl V S))
  defaultName : Option String

/-- the resolution order of the model: its author's classes, the class of its kind of tree, `Node`, Django's -/
def Model.mro {V S : Type} (M : Model V S) (django : Mro (Attr V S)) : Mro (Attr V S) :=
  M.own ++ ⟨M.kind.node, M.kind.nodeNames.map (fun n => (n, .other))⟩ :: nodeClass :: django

/-- the managers declared along the resolution order; the last is `objects` of the class of its kind of tree
(mp_tree.py:1038, ns_tree.py:607, al_tree.py:293, ltree/__init__.py:547) -/
def Model.declared {V S : Type} (M : Model V S) (lib : String → String → Method V S)
    (django : Mro (Method V S)) : List (Decl V S) :=
  M.managers.flatten ++ [⟨"objects", M.kind.managerMro lib django⟩]

/-- Django's `Options.managers_map`: of managers of one name the one of the most derived class.  (Django's
`Options.managers` is sorted by class and, within one, by declaration.) -/
def Model.manager? {V S : Type} (M : Model V S) (lib : String → String → Method V S)
    (django : Mro (Method V S)) (n : String) : Option (Mro (Method V S)) :=
  ((M.declared lib django).find? (fun d => d.name == n)).map (·.cls)

/-- `cls.objects`.  There is always one: treebeard's own class declares it. -/
def Model.objects {V S : Type} (M : Model V S) (lib : String → String → Method V S)
    (django : Mro (Method V S)) : Mro (Method V S) :=
  (M.manager? lib django "objects").getD []

/-- Django's `Options.default_manager`: the one named in `Meta`, else the first; a name that does not exist is
an error (`none`) -/
def Model.default? {V S : Type} (M : Model V S) (lib : String → String → Method V S)
    (django : Mro (Method V S)) : Option (Mro (Method V S)) :=
  match M.defaultName with
  | some n => M.manager? lib django n
  | none => (M.declared lib django).head?.map (·.cls)

/-- models.py:114-128 `check`: the error of treebeard, `none` if there is none.  (Errors of Django's own checks
are left out; a default manager name that does not exist stops Django before.) -/
def Model.check {V S : Type} (M : Model V S) (lib : String → String → Method V S) (django : Mro (Method V S)) :
    Option String :=
  match M.default? lib django with
  | none => some "ValueError"
  | some m => if m.isSub M.kind.manager then none else some "treebeard.E001"

/-! ## The deprecated methods -/

/-- The state a call runs in: the warnings shown so far, and everything else. -/
structure World (S : Type) where
  warned : List String
  state : S

/-- run a manager's method after a warning -/
def warnThen {V S : Type} (n : String) (f : S → Except String V × S) (w : World S) : Except String V × World S :=
  let r := f w.state
  (r.1, ⟨w.warned ++ [n], r.2⟩)

/-- The keyword `treebeard_method` that `partial` and `partialmethod` supply (deprecation.py:43-48); a caller's
own keyword of that name replaces it. -/
def methodArg {V : Type} (py : Py V) (n : String) (kw : Kw V) : Option String :=
  match kw.lookup "treebeard_method" with
  | none => some n
  | some v => py.str v

/-- deprecation.py:8-22 `_handle_moved_classmethod` and 25-40 `_handle_moved_method`: `first` is empty for a class
method and the node itself for a method.  `getattr` with something that is no string is a `TypeError`. -/
def handleMoved {V S : Type} (py : Py V) (objects : Mro (Method V S)) (n : String) (first args : List V)
    (kw : Kw V) (w : World S) : Except String V × World S :=
  match methodArg py n kw with
  | none => warnThen n (fun s => (.error "TypeError", s)) w
  | some m => warnThen m (objects.call m (first ++ args) (kw.filter (fun e => e.1 != "treebeard_method"))) w

/-- `kwargs.pop("instance", None)` -/
def popInstance {V : Type} (py : Py V) (kw : Kw V) : V × Kw V :=
  ((kw.lookup "instance").getD py.none, kw.filter (fun e => e.1 != "instance"))

/-- The arguments of `move(self, target, pos=None)` (models.py:88), by position or by keyword; `none` if they do
not fit. -/
def bindMove {V : Type} (py : Py V) (args : List V) (kw : Kw V) : Option (V × V) :=
  match args with
  | [] =>
    match kw.lookup "target" with
    | some t =>
      if kw.all (fun e => e.1 == "target" || e.1 == "pos") then some (t, (kw.lookup "pos").getD py.none) else none
    | none => none
  | [t] => if kw.all (fun e => e.1 == "pos") then some (t, (kw.lookup "pos").getD py.none) else none
  | [t, pos] => if kw.isEmpty then some (t, pos) else none
  | _ => none

/-- A call of an attribute of the model: on the class (`self` none) or on a node.  Calling the class attribute of
an instance method passes the node as its first argument, which is the same thing. -/
def Attr.run {V S : Type} (py : Py V) (objects : Mro (Method V S)) (a : Attr V S) (self : Option V)
    (args : List V) (kw : Kw V) (w : World S) : Except String V × World S :=
  match a, self, args with
  | .movedClassmethod n, _, args => handleMoved py objects n [] args kw w
  | .movedMethod n, some x, args => handleMoved py objects n [x] args kw w
  -- models.py:58-66
  | .addRoot, _, [] =>
    let (i, ks) := popInstance py kw
    warnThen "add_root" (objects.call "add_root" [] [("create_kwargs", py.dict ks), ("instance", i)]) w
  -- models.py:68-76
  | .addChild, some x, [] =>
    let (i, ks) := popInstance py kw
    warnThen "add_child" (objects.call "add_child" [x] [("create_kwargs", py.dict ks), ("instance", i)]) w
  -- models.py:78-86; `pos` may be given by position or by keyword
  | .addSibling, some x, [] =>
    let (i, ks) := popInstance py (kw.filter (fun e => e.1 != "pos"))
    let pos := (kw.lookup "pos").getD py.none
    warnThen "add_sibling"
      (objects.call "add_sibling" [x, pos] [("create_kwargs", py.dict ks), ("instance", i)]) w
  | .addSibling, some x, [pos] =>
    if (kw.lookup "pos").isSome then (.error "TypeError", w)
    else
      let (i, ks) := popInstance py kw
      warnThen "add_sibling"
        (objects.call "add_sibling" [x, pos] [("create_kwargs", py.dict ks), ("instance", i)]) w
  -- models.py:88-95
  | .move, some x, args =>
    match bindMove py args kw with
    | some (t, pos) => warnThen "move" (objects.call "move" [x, t, pos] []) w
    | none => (.error "TypeError", w)
  | _, _, _ => (.error "TypeError", w)

/-- `Model.n(*args, **kw)` and `node.n(*args, **kw)` -/
def Model.call {V S : Type} (M : Model V S) (py : Py V) (lib : String → String → Method V S)
    (dm : Mro (Method V S)) (dn : Mro (Attr V S)) (n : String) (self : Option V) (args : List V) (kw : Kw V)
    (w : World S) : Except String V × World S :=
  match (M.mro dn).attr n with
  | none => (.error "AttributeError", w)
  | some a => a.run py (M.objects lib dm) self args kw w

end Verif.Dispatch
