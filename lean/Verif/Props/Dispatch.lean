import Verif.DispatchModel

/-!
# C94, C95: the methods of the model, and the check of its managers
-/

namespace Verif.Dispatch

variable {V S : Type}

/-! ## Lookup -/

theorem lookup_table {β : Type} (f : String → β) (l : List String) (n : String) :
    (l.map (fun k => (k, f k))).lookup n = if n ∈ l then some (f n) else none := by
  induction l with
  | nil => simp
  | cons a l ih =>
    rw [List.map_cons, List.lookup_cons]
    by_cases h : n = a
    · subst h
      simp
    · have h' : (n == a) = false := by simpa using h
      simp only [h', ih]
      simp [h]

theorem Mro.attr_append {β : Type} (a b : Mro β) (n : String) : (a ++ b).attr n = (a.attr n).or (b.attr n) := by
  simp [Mro.attr, List.findSome?_append]

theorem Mro.attr_cons {β : Type} (c : PyClass β) (b : Mro β) (n : String) :
    Mro.attr (c :: b) n = (c.attrs.lookup n).or (Mro.attr b n) := by
  simp only [Mro.attr, List.findSome?_cons]
  cases c.attrs.lookup n <;> simp

theorem node_movedMethod : ∀ n ∈ movedMethods,
    (nodeClass (V := V) (S := S)).attrs.lookup n = some (.movedMethod n) := by
  simp [movedMethods, nodeClass, movedClassmethods, nodeBody, PyClass.setattr, List.lookup_cons]

theorem node_movedClassmethod : ∀ n ∈ movedClassmethods,
    (nodeClass (V := V) (S := S)).attrs.lookup n = some (.movedClassmethod n) := by
  simp [movedMethods, nodeClass, movedClassmethods, nodeBody, PyClass.setattr, List.lookup_cons]

theorem node_movedClassmethod_other : ∀ b : Backend, ∀ n ∈ movedClassmethods ++ movedMethods ++
    ["add_root", "add_child", "add_sibling", "move"], n ∉ b.nodeNames := by
  intro b
  cases b <;>
    simp [movedMethods, movedClassmethods, Backend.nodeNames]

/-- The author's own classes leave the name alone. -/
def Model.Leaves (M : Model V S) (n : String) : Prop := M.own.attr n = none

theorem Model.mro_attr {M : Model V S} {dn : Mro (Attr V S)} {n : String} {a : Attr V S} (hl : M.Leaves n)
    (hn : n ∉ M.kind.nodeNames) (ha : (nodeClass (V := V) (S := S)).attrs.lookup n = some a) :
    (M.mro dn).attr n = some a := by
  rw [Model.mro, Mro.attr_append, hl, Option.none_or, Mro.attr_cons, lookup_table, if_neg hn, Option.none_or,
    Mro.attr_cons, ha, Option.some_or]

/-! ## C94 -/

/-- What a deprecated call should be: one warning that names the method, and the manager's method. -/
def Hands (w : World S) (n : String) (r : Except String V × S) (out : Except String V × World S) : Prop :=
  out.1 = r.1 ∧ out.2.state = r.2 ∧ out.2.warned = w.warned ++ [n]

theorem Hands.eq {w : World S} {n : String} {r : Except String V × S} {out : Except String V × World S}
    (h : Hands w n r out) : out = (r.1, ⟨w.warned ++ [n], r.2⟩) := by
  obtain ⟨o, wa, st⟩ := out
  obtain ⟨h1, h2, h3⟩ := h
  simp only at h1 h2 h3
  rw [h1, h2, h3]

theorem filter_no {kw : Kw V} {k : String} (h : kw.lookup k = none) : kw.filter (fun e => e.1 != k) = kw := by
  rw [List.filter_eq_self]
  intro e he
  rw [List.lookup_eq_none_iff] at h
  have := h e he
  simp only [ne_eq, bne_iff_ne] at this ⊢
  exact fun hh => this hh.symm

theorem handleMoved_hands {py : Py V} {o : Mro (Method V S)} {n : String} {first args : List V} {kw : Kw V}
    {w : World S} (h : kw.lookup "treebeard_method" = none) :
    Hands w n (o.call n (first ++ args) kw w.state) (handleMoved py o n first args kw w) := by
  simp only [handleMoved, methodArg, h, filter_no h, warnThen]
  exact ⟨rfl, rfl, rfl⟩

/-- **C94**, class methods: `Model.n(*args, **kw)` is `Model.objects.n(*args, **kw)`. -/
theorem C94_classmethods (M : Model V S) (py : Py V) (lib : String → String → Method V S) (dm : Mro (Method V S))
    (dn : Mro (Attr V S)) (n : String) (hn : n ∈ movedClassmethods) (hl : M.Leaves n) (self : Option V)
    (args : List V) (kw : Kw V) (hk : kw.lookup "treebeard_method" = none) (w : World S) :
    Hands w n ((M.objects lib dm).call n args kw w.state) (M.call py lib dm dn n self args kw w) := by
  rw [Model.call, Model.mro_attr hl (node_movedClassmethod_other M.kind n (by simp [hn])) (node_movedClassmethod n hn)]
  simp only [Attr.run]
  exact handleMoved_hands (first := []) hk

/-- **C94**, methods of a node: `node.n(*args, **kw)` is `Model.objects.n(node, *args, **kw)`. -/
theorem C94_methods (M : Model V S) (py : Py V) (lib : String → String → Method V S) (dm : Mro (Method V S))
    (dn : Mro (Attr V S)) (n : String) (hn : n ∈ movedMethods) (hl : M.Leaves n) (x : V)
    (args : List V) (kw : Kw V) (hk : kw.lookup "treebeard_method" = none) (w : World S) :
    Hands w n ((M.objects lib dm).call n (x :: args) kw w.state) (M.call py lib dm dn n (some x) args kw w) := by
  rw [Model.call, Model.mro_attr hl (node_movedClassmethod_other M.kind n (by simp [hn])) (node_movedMethod n hn)]
  simp only [Attr.run]
  exact handleMoved_hands (first := [x]) hk

theorem popInstance_none {py : Py V} {kw : Kw V} (h : kw.lookup "instance" = none) :
    popInstance py kw = (py.none, kw) := by
  rw [popInstance, h, filter_no h]
  rfl

/-- **C94**, `Model.add_root(**kw)` is `Model.objects.add_root(kw)`. -/
theorem C94_add_root (M : Model V S) (py : Py V) (lib : String → String → Method V S) (dm : Mro (Method V S))
    (dn : Mro (Attr V S)) (hl : M.Leaves "add_root") (self : Option V) (kw : Kw V)
    (hk : kw.lookup "instance" = none) (w : World S) :
    Hands w "add_root"
      ((M.objects lib dm).call "add_root" [] [("create_kwargs", py.dict kw), ("instance", py.none)] w.state)
      (M.call py lib dm dn "add_root" self [] kw w) := by
  rw [Model.call, Model.mro_attr (a := .addRoot) hl (node_movedClassmethod_other M.kind _ (by simp))
    (by simp [nodeClass, nodeBody, movedMethods, movedClassmethods, PyClass.setattr, List.lookup_cons])]
  simp only [Attr.run, popInstance_none hk, warnThen]
  exact ⟨rfl, rfl, rfl⟩

/-- **C94**, `Model.add_root(instance=i)` is `Model.objects.add_root({}, instance=i)`. -/
theorem C94_add_root_instance (M : Model V S) (py : Py V) (lib : String → String → Method V S)
    (dm : Mro (Method V S)) (dn : Mro (Attr V S)) (hl : M.Leaves "add_root") (self : Option V) (i : V)
    (w : World S) :
    Hands w "add_root"
      ((M.objects lib dm).call "add_root" [] [("create_kwargs", py.dict []), ("instance", i)] w.state)
      (M.call py lib dm dn "add_root" self [] [("instance", i)] w) := by
  rw [Model.call, Model.mro_attr (a := .addRoot) hl (node_movedClassmethod_other M.kind _ (by simp))
    (by simp [nodeClass, nodeBody, movedMethods, movedClassmethods, PyClass.setattr, List.lookup_cons])]
  simp only [Attr.run, popInstance, warnThen]
  simp [Hands]

/-- **C94**, `node.add_child(**kw)` is `Model.objects.add_child(node, kw)`. -/
theorem C94_add_child (M : Model V S) (py : Py V) (lib : String → String → Method V S) (dm : Mro (Method V S))
    (dn : Mro (Attr V S)) (hl : M.Leaves "add_child") (x : V) (kw : Kw V) (hk : kw.lookup "instance" = none)
    (w : World S) :
    Hands w "add_child"
      ((M.objects lib dm).call "add_child" [x] [("create_kwargs", py.dict kw), ("instance", py.none)] w.state)
      (M.call py lib dm dn "add_child" (some x) [] kw w) := by
  rw [Model.call, Model.mro_attr (a := .addChild) hl (node_movedClassmethod_other M.kind _ (by simp))
    (by simp [nodeClass, nodeBody, movedMethods, movedClassmethods, PyClass.setattr, List.lookup_cons])]
  simp only [Attr.run, popInstance_none hk, warnThen]
  exact ⟨rfl, rfl, rfl⟩

/-- **C94**, `node.add_child(instance=i)` is `Model.objects.add_child(node, {}, instance=i)`. -/
theorem C94_add_child_instance (M : Model V S) (py : Py V) (lib : String → String → Method V S)
    (dm : Mro (Method V S)) (dn : Mro (Attr V S)) (hl : M.Leaves "add_child") (x i : V) (w : World S) :
    Hands w "add_child"
      ((M.objects lib dm).call "add_child" [x] [("create_kwargs", py.dict []), ("instance", i)] w.state)
      (M.call py lib dm dn "add_child" (some x) [] [("instance", i)] w) := by
  rw [Model.call, Model.mro_attr (a := .addChild) hl (node_movedClassmethod_other M.kind _ (by simp))
    (by simp [nodeClass, nodeBody, movedMethods, movedClassmethods, PyClass.setattr, List.lookup_cons])]
  simp only [Attr.run, popInstance, warnThen]
  simp [Hands]

/-- **C94**, `node.add_sibling(pos, **kw)` is `Model.objects.add_sibling(node, pos, kw)`. -/
theorem C94_add_sibling (M : Model V S) (py : Py V) (lib : String → String → Method V S) (dm : Mro (Method V S))
    (dn : Mro (Attr V S)) (hl : M.Leaves "add_sibling") (x pos : V) (kw : Kw V)
    (hk : kw.lookup "instance" = none) (hp : kw.lookup "pos" = none) (w : World S) :
    Hands w "add_sibling"
      ((M.objects lib dm).call "add_sibling" [x, pos] [("create_kwargs", py.dict kw), ("instance", py.none)]
        w.state)
      (M.call py lib dm dn "add_sibling" (some x) [pos] kw w) ∧
    M.call py lib dm dn "add_sibling" (some x) [] (("pos", pos) :: kw) w =
      M.call py lib dm dn "add_sibling" (some x) [pos] kw w ∧
    M.call py lib dm dn "add_sibling" (some x) [] kw w =
      M.call py lib dm dn "add_sibling" (some x) [py.none] kw w := by
  rw [Model.call, Model.call, Model.call, Model.call,
    Model.mro_attr (a := .addSibling) hl (node_movedClassmethod_other M.kind _ (by simp))
    (by simp [nodeClass, nodeBody, movedMethods, movedClassmethods, PyClass.setattr, List.lookup_cons])]
  simp only [Attr.run, popInstance_none hk, warnThen, hp, filter_no hp]
  simp [Hands, filter_no hp, popInstance_none hk]

/-- **C94**, `node.move(target, pos)` is `Model.objects.move(node, target, pos)`, and so with `pos` as a keyword,
or left out. -/
theorem C94_move (M : Model V S) (py : Py V) (lib : String → String → Method V S) (dm : Mro (Method V S))
    (dn : Mro (Attr V S)) (hl : M.Leaves "move") (x t pos : V) (w : World S) :
    Hands w "move" ((M.objects lib dm).call "move" [x, t, pos] [] w.state)
      (M.call py lib dm dn "move" (some x) [t, pos] [] w) ∧
    M.call py lib dm dn "move" (some x) [t] [("pos", pos)] w = M.call py lib dm dn "move" (some x) [t, pos] [] w ∧
    M.call py lib dm dn "move" (some x) [t] [] w = M.call py lib dm dn "move" (some x) [t, py.none] [] w := by
  rw [Model.call, Model.call, Model.call, Model.call,
    Model.mro_attr (a := .move) hl (node_movedClassmethod_other M.kind _ (by simp))
    (by simp [nodeClass, nodeBody, movedMethods, movedClassmethods, PyClass.setattr, List.lookup_cons])]
  simp [Attr.run, bindMove, warnThen, Hands]

/-- The caller's own keyword `treebeard_method` decides which method of the manager is run: the guard of
`C94_methods` and `C94_classmethods` is needed. -/
theorem C94_keyword_fails (py : Py V) (v : V) (hv : py.str v = some "fix_tree")
    (lib : String → String → Method V S) (dm : Mro (Method V S)) (dn : Mro (Attr V S)) (w : World S) :
    ∃ M : Model V S, M.Leaves "get_tree" ∧
      Hands w "fix_tree" (lib "MP_NodeManager" "fix_tree" [] [] w.state)
        (M.call py lib dm dn "get_tree" none [] [("treebeard_method", v)] w) := by
  have hl : (⟨.mp, [], [], none⟩ : Model V S).Leaves "get_tree" := rfl
  refine ⟨⟨.mp, [], [], none⟩, hl, ?_⟩
  rw [Model.call, Model.mro_attr hl (node_movedClassmethod_other .mp _ (by simp [movedClassmethods]))
    (node_movedClassmethod _ (by simp [movedClassmethods]))]
  simp [Attr.run, handleMoved, methodArg, List.lookup_cons, hv, warnThen, Hands, Model.objects, Model.manager?,
    Model.declared, Mro.call, Mro.attr_cons, Backend.managerMro, Backend.managerNames, Backend.manager]

/-! ### The methods there are -/

/-- every name the model hands to the manager -/
def handedNames : List String :=
  movedClassmethods ++ movedMethods ++ ["add_root", "add_child", "add_sibling", "move"]

/-- the methods a kind of tree does not have -/
def Backend.missing : Backend → List String
  | .mp => []
  | .ns => ["fix_tree"]
  | .al => ["find_problems", "fix_tree"]
  | .lt => ["find_problems", "fix_tree"]

/-- A manager class of a kind of tree: classes of the author's before treebeard's. -/
def Mro.Extends (m : Mro (Method V S)) (b : Backend) (lib : String → String → Method V S)
    (dm : Mro (Method V S)) : Prop := ∃ u, m = u ++ b.managerMro lib dm

theorem Backend.names_iff (b : Backend) : ∀ n ∈ handedNames,
    (n ∈ b.managerNames ∨ n ∈ nodeManagerNames) ↔ n ∉ b.missing := by
  cases b <;>
    simp [handedNames, movedMethods, movedClassmethods, Backend.managerNames, nodeManagerNames, Backend.missing]

/-- **C94**, the manager has every method that is handed to it, but for those its kind of tree lacks. -/
theorem C94_found (b : Backend) (lib : String → String → Method V S) (dm : Mro (Method V S))
    (m : Mro (Method V S)) (hm : m.Extends b lib dm) (n : String) (hn : n ∈ handedNames)
    (hx : n ∉ b.missing) : (m.attr n).isSome := by
  obtain ⟨u, rfl⟩ := hm
  rw [Mro.attr_append]
  rcases (b.names_iff n hn).2 hx with h | h
  · rw [Backend.managerMro, Mro.attr_cons, lookup_table, if_pos h]
    cases Mro.attr u n <;> simp
  · rw [Backend.managerMro, Mro.attr_cons, Mro.attr_cons, lookup_table, lookup_table, if_pos h]
    cases Mro.attr u n <;> by_cases h' : n ∈ b.managerNames <;> simp [h']

/-- **C94**, the methods a kind of tree lacks are an `AttributeError`, after the warning and with nothing changed,
unless the author defines them. -/
theorem C94_missing (M : Model V S) (py : Py V) (lib : String → String → Method V S) (dm : Mro (Method V S))
    (dn : Mro (Attr V S)) (u : Mro (Method V S)) (hm : M.objects lib dm = u ++ M.kind.managerMro lib dm)
    (n : String) (hx : n ∈ M.kind.missing) (hu : u.attr n = none) (hd : dm.attr n = none) (hl : M.Leaves n)
    (self : Option V) (args : List V) (kw : Kw V) (hk : kw.lookup "treebeard_method" = none) (w : World S) :
    M.call py lib dm dn n self args kw w = (.error "AttributeError", ⟨w.warned ++ [n], w.state⟩) := by
  have hn : n ∈ movedClassmethods := by
    revert hx
    cases M.kind <;> simp +contextual [Backend.missing, movedClassmethods, or_imp]
  have hh : n ∈ handedNames := by simp [handedNames, hn]
  have hno : ¬ (n ∈ M.kind.managerNames ∨ n ∈ nodeManagerNames) := by
    rw [M.kind.names_iff n hh]
    exact fun h => h hx
  rw [not_or] at hno
  have hc : ∀ s, (M.objects lib dm).call n args kw s = (.error "AttributeError", s) := by
    intro s
    rw [hm, Mro.call, Mro.attr_append, hu, Option.none_or, Backend.managerMro, Mro.attr_cons, Mro.attr_cons,
      lookup_table, lookup_table, if_neg hno.1, if_neg hno.2, Option.none_or, Option.none_or, hd]
  rw [(C94_classmethods M py lib dm dn n hn hl self args kw hk w).eq, hc]

/-! ## C95 -/

/-- Names tell classes: a manager class with a class called like treebeard's among its bases extends that one. -/
structure Model.Proper (M : Model V S) (lib : String → String → Method V S) (dm : Mro (Method V S)) : Prop where
  sub : ∀ ds ∈ M.managers, ∀ d ∈ ds, d.cls.isSub M.kind.manager = true → d.cls.Extends M.kind lib dm

/-- The manager all of treebeard's code goes through is one of the model's kind of tree. -/
def Model.Usable (M : Model V S) (lib : String → String → Method V S) (dm : Mro (Method V S)) : Prop :=
  (M.objects lib dm).Extends M.kind lib dm

theorem Extends.refl (b : Backend) (lib : String → String → Method V S) (dm : Mro (Method V S)) :
    (b.managerMro lib dm).Extends b lib dm := ⟨[], rfl⟩

theorem Extends.isSub {m : Mro (Method V S)} {b : Backend} {lib : String → String → Method V S}
    {dm : Mro (Method V S)} (h : m.Extends b lib dm) : m.isSub b.manager = true := by
  obtain ⟨u, rfl⟩ := h
  simp [Mro.isSub, Backend.managerMro]

theorem objects_cases (M : Model V S) (lib : String → String → Method V S) (dm : Mro (Method V S)) :
    M.objects lib dm = M.kind.managerMro lib dm ∨
      ∃ ds ∈ M.managers, ∃ d ∈ ds, d.name = "objects" ∧ M.objects lib dm = d.cls := by
  rw [Model.objects, Model.manager?, Model.declared, List.find?_append]
  cases hf : M.managers.flatten.find? (fun d => d.name == "objects") with
  | none => exact Or.inl (by simp)
  | some d =>
    have hm := List.mem_of_find?_eq_some hf
    have hn := List.find?_some hf
    rw [List.mem_flatten] at hm
    obtain ⟨ds, h1, h2⟩ := hm
    exact Or.inr ⟨ds, h1, d, h2, by simpa using hn, by simp⟩

/-- **C95** for models whose managers are all of the kind of the tree: the check passes and the model can be used. -/
theorem C95_all (M : Model V S) (lib : String → String → Method V S) (dm : Mro (Method V S))
    (hall : ∀ ds ∈ M.managers, ∀ d ∈ ds, d.cls.Extends M.kind lib dm)
    (hd : ∀ n, M.defaultName = some n → (M.manager? lib dm n).isSome) :
    M.check lib dm = none ∧ M.Usable lib dm := by
  have hdec : ∀ d ∈ M.declared lib dm, d.cls.Extends M.kind lib dm := by
    intro d hd
    rw [Model.declared, List.mem_append, List.mem_flatten, List.mem_singleton] at hd
    rcases hd with ⟨ds, h1, h2⟩ | rfl
    · exact hall ds h1 d h2
    · exact Extends.refl _ _ _
  constructor
  · have hdef : ∃ m, M.default? lib dm = some m ∧ m.Extends M.kind lib dm := by
      rw [Model.default?]
      cases hdn : M.defaultName with
      | some n =>
        have h := hd n hdn
        simp only [Model.manager?, Option.isSome_map] at h ⊢
        obtain ⟨d, hd'⟩ := Option.isSome_iff_exists.1 h
        rw [hd']
        exact ⟨d.cls, rfl, hdec d (List.mem_of_find?_eq_some hd')⟩
      | none =>
        cases hh : (M.declared lib dm).head? with
        | none =>
          rw [List.head?_eq_none_iff, Model.declared] at hh
          simp at hh
        | some d => exact ⟨d.cls, rfl, hdec d (List.mem_of_head? hh)⟩
    obtain ⟨m, h1, h2⟩ := hdef
    rw [Model.check, h1]
    simp [Extends.isSub h2]
  · rcases objects_cases M lib dm with h | ⟨ds, h1, d, h2, -, h⟩
    · rw [Model.Usable, h]
      exact Extends.refl _ _ _
    · rw [Model.Usable, h]
      exact hall ds h1 d h2

/-- **C95** (partial): a model that declares at most one manager of its own and passes the check can be used.  Full
statement: every model that passes the check can be used; `C95_fails` shows that it does not hold. -/
theorem C95_partial (M : Model V S) (lib : String → String → Method V S) (dm : Mro (Method V S))
    (hp : M.Proper lib dm) (hone : M.managers.flatten.length ≤ 1) (hdn : M.defaultName = none)
    (hc : M.check lib dm = none) : M.Usable lib dm := by
  rcases objects_cases M lib dm with h | ⟨ds, h1, d, h2, hn, h⟩
  · rw [Model.Usable, h]
    exact Extends.refl _ _ _
  · have hf : M.managers.flatten = [d] := by
      have hm : d ∈ M.managers.flatten := List.mem_flatten.2 ⟨ds, h1, h2⟩
      match hl : M.managers.flatten with
      | [] => rw [hl] at hm; exact absurd hm List.not_mem_nil
      | [e] => rw [hl, List.mem_singleton] at hm; rw [hm]
      | _ :: _ :: _ => rw [hl] at hone; simp at hone
    have hdef : M.default? lib dm = some d.cls := by
      rw [Model.default?, hdn, Model.declared, hf]
      rfl
    rw [Model.check, hdef] at hc
    simp only [ite_eq_left_iff, reduceCtorEq, imp_false, Bool.not_eq_true, Bool.not_eq_false] at hc
    rw [Model.Usable, h]
    exact hp.sub ds h1 d h2 hc

/-- **C95** (partial), the other way to be safe: the default manager is the one called `objects`. -/
theorem C95_named_partial (M : Model V S) (lib : String → String → Method V S) (dm : Mro (Method V S))
    (hp : M.Proper lib dm) (hdef : M.default? lib dm = some (M.objects lib dm))
    (hc : M.check lib dm = none) : M.Usable lib dm := by
  rw [Model.check, hdef] at hc
  simp only [ite_eq_left_iff, reduceCtorEq, imp_false, Bool.not_eq_true, Bool.not_eq_false] at hc
  rcases objects_cases M lib dm with h | ⟨ds, h1, d, h2, -, h⟩
  · rw [Model.Usable, h]
    exact Extends.refl _ _ _
  · rw [Model.Usable, h]
    rw [h] at hc
    exact hp.sub ds h1 d h2 hc

/-- What is usable about such a model: every tree method is found. -/
theorem C95_methods (M : Model V S) (lib : String → String → Method V S) (dm : Mro (Method V S))
    (h : M.Usable lib dm) (n : String) (hn : n ∈ handedNames) (hx : n ∉ M.kind.missing) :
    ((M.objects lib dm).attr n).isSome := C94_found M.kind lib dm _ h n hn hx

/-- **C95** fails in full: `tree = MP_NodeManager()` followed by `objects = models.Manager()` passes the check, which
looks at the default manager, but the code goes through `objects`: every tree method is an `AttributeError`. -/
theorem C95_fails (lib : String → String → Method V S) (dm : Mro (Method V S))
    (hdm : ∀ n ∈ handedNames, dm.attr n = none) :
    ∃ M : Model V S, M.managers.flatten.length = 2 ∧ M.check lib dm = none ∧
      ∀ n ∈ handedNames, ∀ args kw s, (M.objects lib dm).call n args kw s = (.error "AttributeError", s) := by
  refine ⟨⟨.mp, [], [[⟨"tree", Backend.mp.managerMro lib dm⟩, ⟨"objects", dm⟩]], none⟩, rfl, ?_, ?_⟩
  · simp [Model.check, Model.default?, Model.declared, Extends.isSub (Extends.refl .mp lib dm)]
  · intro n hn args kw s
    simp [Model.objects, Model.manager?, Model.declared, Mro.call, hdm n hn]

/-! ## A model that meets the hypotheses -/

section examples

/-- Values: numbers (node 7 is a node), strings and dictionaries are all opaque here. -/
def exPy : Py Nat := ⟨0, fun kw => 100 + kw.length, fun _ => none⟩

/-- Every library method answers with the number of its arguments and counts the calls. -/
def exLib : String → String → Method Nat Nat := fun _ n args kw s => (.ok (n.length + args.length + kw.length), s + 1)

/-- the author overrides `get_children` in a manager of their own called `objects`, and adds a method `title` -/
def exModel : Model Nat Nat :=
  ⟨.ns, [⟨"Page", [("title", .other)]⟩],
    [[⟨"objects", ⟨"PageManager", [("get_children", fun _ _ s => (.ok 42, s))]⟩ ::
      Backend.ns.managerMro exLib []⟩]], none⟩

theorem exModel_leaves : ∀ n ∈ handedNames, exModel.Leaves n := by
  simp [handedNames, movedMethods, movedClassmethods, Model.Leaves, exModel, Mro.attr]

theorem exModel_usable : exModel.check exLib [] = none ∧ exModel.Usable exLib [] :=
  C95_all exModel exLib [] (by
    intro ds h d hd
    simp only [exModel, List.mem_singleton] at h
    subst h
    simp only [List.mem_singleton] at hd
    subst hd
    exact ⟨[⟨"PageManager", [("get_children", fun _ _ s => (.ok 42, s))]⟩], rfl⟩) (by simp [exModel])

/-- `node.get_children()` runs the author's `get_children` -/
example : exModel.call exPy exLib [] [] "get_children" (some 7) [] [] ⟨[], 3⟩ =
    (.ok 42, ⟨["get_children"], 3⟩) := by
  have hc : (exModel.objects exLib []).call "get_children" [7] [] 3 = (.ok 42, 3) := by
    simp [exModel, Model.objects, Model.manager?, Model.declared, Mro.call, Mro.attr_cons]
  rw [(C94_methods exModel exPy exLib [] [] "get_children" (by simp [movedMethods])
    (exModel_leaves _ (by simp [handedNames, movedMethods])) 7 [] [] rfl ⟨[], 3⟩).eq, hc]
  rfl

/-- `Page.fix_tree()` of a nested sets tree -/
example : exModel.call exPy exLib [] [] "fix_tree" none [] [] ⟨[], 3⟩ =
    (.error "AttributeError", ⟨["fix_tree"], 3⟩) :=
  C94_missing exModel exPy exLib [] [] [⟨"PageManager", [("get_children", fun _ _ s => (.ok 42, s))]⟩]
    (by simp [exModel, Model.objects, Model.manager?, Model.declared]) "fix_tree" (by simp [exModel, Backend.missing])
    (by simp [Mro.attr]) rfl
    (exModel_leaves _ (by simp [handedNames, movedClassmethods])) none [] [] rfl ⟨[], 3⟩

/-- the hypotheses of `C95_partial` -/
example : exModel.Usable exLib [] :=
  C95_partial exModel exLib [] ⟨by
    intro ds h d hd _
    simp only [exModel, List.mem_singleton] at h
    subst h
    simp only [List.mem_singleton] at hd
    subst hd
    exact ⟨[⟨"PageManager", [("get_children", fun _ _ s => (.ok 42, s))]⟩], rfl⟩⟩
    (by simp [exModel]) rfl exModel_usable.1

/-- a plain manager called `objects` is reported -/
example : (⟨.mp, [], [[⟨"objects", []⟩]], none⟩ : Model Nat Nat).check exLib [] = some "treebeard.E001" := by
  simp [Model.check, Model.default?, Model.declared, Mro.isSub]

end examples

end Verif.Dispatch
