/-
Model of treebeard/mp_tree.py: the navigation queries, and what they return on a consistent table.
-/
import Verif.PathDesc
import Verif.MP.Inv
import Verif.SpecNav

namespace Verif

namespace MP

/-! ### Model -/

/-- mp_tree.py:99-123 `get_tree` -/
def getTree (db : DB) (parent : Option Row) (maxDepth : Option Int) : List Row :=
  match parent with
  | some p =>
    if p.isLeaf then orderByPath (db.rows.filter (·.pk == p.pk))
    else orderByPath (db.rows.filter (fun r => p.path.isPrefixOf r.path && decide (p.depth ≤ r.depth) &&
      (match maxDepth with
        | none => true
        | some k => decide ((r.depth : Int) ≤ k + p.depth))))
  | none => orderByPath (db.rows.filter (fun r => match maxDepth with
      | none => true
      | some k => decide ((r.depth : Int) ≤ k + 0)))

/-- mp_tree.py:896-909 `get_descendants` -/
def descendants (db : DB) (node : Row) (includeSelf : Bool) (maxDepth : Option Int) : List Row :=
  if includeSelf then getTree db (some node) maxDepth
  else if node.isLeaf then []
  else (getTree db (some node) maxDepth).filter (fun r => !(r.pk == node.pk))

/-- models.py:537-543 `get_descendant_count` -/
def descendantCount (db : DB) (node : Row) (maxDepth : Option Int) : Nat :=
  (descendants db node false maxDepth).length

/-- `objects.get(path=path)` (paths are unique) -/
def getByPath (db : DB) (path : List Nat) : Except Err Row :=
  match db.rows.find? (·.path == path) with
  | none => .error .doesNotExist
  | some r => .ok r

/-- mp_tree.py:911-916 `get_root` -/
def getRoot (cfg : Cfg) (db : DB) (node : Row) : Except Err Row :=
  if node.isRoot then .ok node else getByPath db (node.path.take cfg.steplen)

/-- mp_tree.py:918-935 `get_parent` (with `update=True`, or on an object without cached parent) -/
def getParent (cfg : Cfg) (db : DB) (node : Row) : Except Err (Option Row) :=
  let depth := node.path.length / cfg.steplen
  if depth ≤ 1 then .ok none
  else match getByPath db (basepath cfg node.path ((depth : Int) - 1)) with
    | .error e => .error e
    | .ok r => .ok (some r)

/-- mp_tree.py:937-947 `get_ancestors`; `range(0, len(path), steplen)[1:]` are the positive multiples of
`steplen` below the length -/
def ancestors (cfg : Cfg) (db : DB) (node : Row) : List Row :=
  if node.isRoot then []
  else
    let paths := ((List.range node.path.length).filter (fun k => decide (0 < k) && k % cfg.steplen == 0)).map
      (fun k => node.path.take k)
    sortBy (fun a b => decide (a.depth < b.depth)) (db.rows.filter (fun r => paths.contains r.path))

/-- mp_tree.py:949-954 `get_next_sibling` -/
def nextSibling (cfg : Cfg) (db : DB) (node : Row) : Option Row :=
  ((siblings cfg db node).filter (fun r => decide (node.path < r.path))).head?

/-- mp_tree.py:956-961 `get_prev_sibling` -/
def prevSibling (cfg : Cfg) (db : DB) (node : Row) : Option Row :=
  ((siblings cfg db node).filter (fun r => decide (r.path < node.path))).getLast?

/-- models.py:545-551 `get_first_child` -/
def firstChild (cfg : Cfg) (db : DB) (node : Row) : Option Row := (children cfg db node).head?

/-- models.py:349-355 `get_first_root_node` -/
def firstRootNode (db : DB) : Option Row := (rootNodes db).head?

/-- mp_tree.py:877-882 `get_children_count` -/
def childrenCount (node : Row) : Int := node.numchild

/-- mp_tree.py:1064-1076 `is_sibling_of` -/
def Row.isSiblingOf (cfg : Cfg) (r node : Row) : Bool :=
  if r.depth ≠ node.depth then false
  else if r.depth = 1 then true
  else (basepath cfg r.path ((r.depth : Int) - 1)).isPrefixOf node.path

/-- mp_tree.py:1078-1083 `is_child_of` -/
def Row.isChildOf (r node : Row) : Bool := node.path.isPrefixOf r.path && r.depth == node.depth + 1

/-- mp_tree.py:585-611 `get_descendants_group_count`: the rows whose path starts with the node's path, less the node -/
def descendantsGroupCount (cfg : Cfg) (db : DB) (parent : Option Row) : List (Row × Int) :=
  let qs := match parent with | none => rootNodes db | some p => children cfg db p
  qs.map (fun r => (r, ((db.rows.filter (fun q => r.path.isPrefixOf q.path)).length : Int) - 1))

/-! ### What they return -/

variable {cfg : Cfg} {db : DB}

/-- the row of a key in the forest -/
theorem mem_PF (h : PInv cfg rows) {p : Option Nat} {y : Nat} :
    y ∈ PF cfg rows p ↔ ∃ r ∈ rows, par cfg rows r = p ∧ r.pk = y := mem_pforest h.inv

theorem level_PF (h : PInv cfg rows) (hok : cfg.Ok) {r : Row} (hr : r ∈ rows) {n : Nat} :
    (PF cfg rows).Level r.pk n ↔ r.depth = n := by
  rw [level_iff h.inv hok.step hr, depth_eq_iff h hok hr]

theorem level_exists (h : PInv cfg rows) (hok : cfg.Ok) {r : Row} (hr : r ∈ rows) :
    (PF cfg rows).Level r.pk r.depth := (level_PF h hok hr).2 rfl

theorem desc_PF (h : PInv cfg rows) (hok : cfg.Ok) {a d : Row} (ha : a ∈ rows) (hd : d ∈ rows) :
    (PF cfg rows).Desc a.pk d.pk ↔ a.path <+: d.path ∧ a ≠ d := desc_iff h.inv hok.step ha hd

theorem prefix_depth (h : PInv cfg rows) (hok : cfg.Ok) {a d : Row} (ha : a ∈ rows) (hd : d ∈ rows)
    (hp : a.path <+: d.path) : a.depth ≤ d.depth := by
  have := hp.length_le
  rw [h.depth a ha, h.depth d hd] at this
  exact Nat.le_of_mul_le_mul_right this hok.step

theorem prefix_depth_lt (h : PInv cfg rows) (hok : cfg.Ok) {a d : Row} (ha : a ∈ rows) (hd : d ∈ rows)
    (hp : a.path <+: d.path) (hne : a ≠ d) : a.depth < d.depth := by
  rcases Nat.lt_or_ge a.depth d.depth with h1 | h1
  · exact h1
  · have h2 := prefix_depth h hok ha hd hp
    have : a.path = d.path := hp.eq_of_length (by rw [h.depth a ha, h.depth d hd]; congr 1; omega)
    exact absurd (h.inv.path_inj ha hd this) hne

/-- the rows `get_tree(parent)` lists before the depth limit -/
theorem mem_branch {p : Row} {r : Row} :
    r ∈ orderByPath (db.rows.filter (fun r => p.path.isPrefixOf r.path)) ↔ r ∈ db.rows ∧ p.path <+: r.path := by
  unfold orderByPath
  rw [mem_sortBy, List.mem_filter, List.isPrefixOf_iff_prefix]

theorem mem_orderByPath {l : List Row} {r : Row} : r ∈ orderByPath l ↔ r ∈ l := mem_sortBy

/-- sorting commutes with filtering -/
theorem filter_sorted {rows l : List Row} (hn : (rows.map Row.path).Nodup) {q : Row → Bool}
    (hl : l.Pairwise (fun a b => a.path < b.path)) (hm : ∀ r, r ∈ l ↔ r ∈ rows ∧ q r = true) :
    orderByPath (rows.filter q) = l := by
  refine sorted_unique (T := fun _ => True) (lt := fun a b : Row => a.path < b.path) ?_ (fun _ _ => trivial)
    (orderByPath_strict (nodup_filter_paths hn _)) hl ?_
  · intro a b _ _ hab; exact plt_asymm hab
  · intro r; rw [mem_orderByPath, hm, List.mem_filter]

theorem mem_getTree_none (k : Option Int) {r : Row} : r ∈ getTree db none k ↔
    r ∈ db.rows ∧ ∀ m, k = some m → (r.depth : Int) ≤ m := by
  unfold getTree
  simp only
  rw [mem_orderByPath, List.mem_filter]
  cases k <;> simp

theorem getTree_sorted (h : PInv cfg db.rows) (p : Option Row) (k : Option Int) :
    (getTree db p k).Pairwise (fun a b => a.path < b.path) := by
  unfold getTree
  split
  · split
    · exact orderByPath_strict (nodup_filter_paths h.inv.pathNodup _)
    · exact orderByPath_strict (nodup_filter_paths h.inv.pathNodup _)
  · exact orderByPath_strict (nodup_filter_paths h.inv.pathNodup _)

/-- a leaf has nothing below it -/
theorem leaf_branch (h : Inv cfg rows) (hok : cfg.Ok) {n r : Row} (hn : n ∈ rows) (hr : r ∈ rows)
    (hl : n.isLeaf = true) (hp : n.path <+: r.path) : r = n := by
  by_contra hne
  have hd := (desc_PF h.toPInv hok hn hr).2 ⟨hp, Ne.symm hne⟩
  obtain ⟨c, hc, _⟩ := hd.cases_head
  have h0 : n.numchild = 0 := by simpa [Row.isLeaf] using hl
  have h1 := h.num n hn
  rw [h0] at h1
  have h2 : PF cfg rows (some n.pk) = [] := List.length_eq_zero_iff.1 (by omega)
  rw [h2] at hc
  exact absurd hc (by simp)

/-- members of `get_tree(parent, max_depth)`, for a nonnegative `max_depth` -/
theorem mem_getTree_some (h : Inv cfg db.rows) (hok : cfg.Ok) {p : Row} (hp : p ∈ db.rows) {k : Option Int}
    (hk : ∀ m, k = some m → 0 ≤ m) {r : Row} : r ∈ getTree db (some p) k ↔
      r ∈ db.rows ∧ p.path <+: r.path ∧ ∀ m, k = some m → (r.depth : Int) ≤ m + p.depth := by
  unfold getTree
  simp only
  split
  · rename_i hl
    rw [mem_orderByPath, List.mem_filter, beq_iff_eq]
    constructor
    · rintro ⟨hr, e⟩
      have : r = p := h.inv.pk_inj hr hp e
      subst this
      exact ⟨hr, List.prefix_refl _, fun m hm => by have := hk m hm; omega⟩
    · rintro ⟨hr, hpre, _⟩
      exact ⟨hr, by rw [leaf_branch h hok hp hr hl hpre]⟩
  · rw [mem_orderByPath, List.mem_filter]
    simp only [Bool.and_eq_true, List.isPrefixOf_iff_prefix, decide_eq_true_eq]
    constructor
    · rintro ⟨hr, ⟨hpre, _⟩, hd⟩
      refine ⟨hr, hpre, ?_⟩
      rintro m rfl
      simpa using hd
    · rintro ⟨hr, hpre, hd⟩
      refine ⟨hr, ⟨hpre, prefix_depth h.toPInv hok hp hr hpre⟩, ?_⟩
      cases k with
      | none => rfl
      | some m => simpa using hd m rfl

/-- `get_tree()`: the pre-order of the whole forest -/
theorem getTree_all (h : PInv cfg db.rows) (hok : cfg.Ok) :
    (PF cfg db.rows).DFS (PF cfg db.rows none) ((getTree db none none).map Row.pk) :=
  dfs_all h.inv hok.step (getTree_sorted h none none) (fun r => by rw [mem_getTree_none]; simp)

/-- `get_tree(parent)`: the pre-order of the branch -/
theorem getTree_branch (h : Inv cfg db.rows) (hok : cfg.Ok) {p : Row} (hp : p ∈ db.rows) :
    (PF cfg db.rows).DFS [p.pk] ((getTree db (some p) none).map Row.pk) :=
  dfs_branch h.inv hok.step hp (getTree_sorted h.toPInv (some p) none)
    (fun r => by rw [mem_getTree_some h hok hp (by simp)]; simp)

/-- `max_depth` keeps the order and drops exactly the nodes too deep -/
theorem getTree_limit (h : Inv cfg db.rows) (hok : cfg.Ok) {p : Option Row} (hp : ∀ q, p = some q → q ∈ db.rows)
    {m : Int} (hm : 0 ≤ m) : getTree db p (some m) =
      (getTree db p none).filter (fun r => decide ((r.depth : Int) ≤ m + (match p with | none => 0 | some q => q.depth))) := by
  refine sorted_unique (T := fun _ => True) (lt := fun a b : Row => a.path < b.path) ?_ (fun _ _ => trivial)
    (getTree_sorted h.toPInv p _) ((getTree_sorted h.toPInv p none).filter _) ?_
  · intro a b _ _ hab; exact plt_asymm hab
  · intro r
    rw [List.mem_filter, decide_eq_true_eq]
    cases p with
    | none => rw [mem_getTree_none, mem_getTree_none]; simp
    | some q =>
      rw [mem_getTree_some h hok (hp q rfl) (by rintro m' ⟨⟩; exact hm),
        mem_getTree_some h hok (hp q rfl) (by simp)]
      simp [and_assoc]

theorem descendants_eq (h : Inv cfg db.rows) (hok : cfg.Ok) {p : Row} (hp : p ∈ db.rows) {k : Option Int}
    (hk : ∀ m, k = some m → 0 ≤ m) : descendants db p false k =
      (getTree db (some p) k).filter (fun r => !(r.pk == p.pk)) := by
  unfold descendants
  simp only [Bool.false_eq_true, if_false]
  split
  · rename_i hl
    symm
    rw [List.filter_eq_nil_iff]
    intro r hr
    have hr := (mem_getTree_some h hok hp hk).1 hr
    simp [leaf_branch h hok hp hr.1 hl hr.2.1]
  · rfl

theorem mem_descendants (h : Inv cfg db.rows) (hok : cfg.Ok) {p : Row} (hp : p ∈ db.rows) {k : Option Int}
    (hk : ∀ m, k = some m → 0 ≤ m) {r : Row} : r ∈ descendants db p false k ↔
      r ∈ db.rows ∧ (PF cfg db.rows).Desc p.pk r.pk ∧ ∀ m, k = some m → (r.depth : Int) ≤ m + p.depth := by
  rw [descendants_eq h hok hp hk, List.mem_filter, mem_getTree_some h hok hp hk]
  constructor
  · rintro ⟨⟨hr, hpre, hd⟩, hne⟩
    refine ⟨hr, (desc_PF h.toPInv hok hp hr).2 ⟨hpre, ?_⟩, hd⟩
    rintro rfl; simp at hne
  · rintro ⟨hr, hdesc, hd⟩
    obtain ⟨hpre, hne⟩ := (desc_PF h.toPInv hok hp hr).1 hdesc
    refine ⟨⟨hr, hpre, hd⟩, ?_⟩
    simp only [Bool.not_eq_true', beq_eq_false_iff_ne, ne_eq]
    intro e; exact hne (h.inv.pk_inj hr hp e).symm

theorem getByPath_eq_ok (h : PI cfg db.rows) {p : List Nat} {r : Row} :
    getByPath db p = .ok r ↔ r ∈ db.rows ∧ r.path = p := by
  unfold getByPath
  cases hf : db.rows.find? (·.path == p) with
  | none =>
    rw [List.find?_eq_none] at hf
    simp only [reduceCtorEq, false_iff, not_and]
    intro hr e; exact absurd e (by simpa using hf r hr)
  | some q =>
    have h1 := List.mem_of_find?_eq_some hf
    have h2 : q.path = p := by simpa using List.find?_some hf
    simp only [Except.ok.injEq]
    constructor
    · rintro rfl; exact ⟨h1, h2⟩
    · rintro ⟨hr, e⟩; exact h.path_inj h1 hr (by rw [h2, e])

theorem getByPath_error {p : List Nat} (hno : ∀ r ∈ db.rows, r.path ≠ p) :
    getByPath db p = .error .doesNotExist := by
  unfold getByPath
  cases hf : db.rows.find? (·.path == p) with
  | none => rfl
  | some q =>
    exact absurd (by simpa using List.find?_some hf) (hno q (List.mem_of_find?_eq_some hf))

/-- `get_parent` of a root is `None` -/
theorem getParent_root (h : PInv cfg db.rows) (hok : cfg.Ok) {x : Row} (hx : x ∈ db.rows)
    (hr : par cfg db.rows x = none) : getParent cfg db x = .ok none := by
  unfold getParent
  have := (parOf_eq_none h.inv hok.step hx).1 hr
  simp only [this]
  rw [if_pos]
  rw [Nat.div_self hok.step]

/-- `get_parent` of another node is its parent -/
theorem getParent_some (h : PInv cfg db.rows) (hok : cfg.Ok) {x p : Row} (hx : x ∈ db.rows) (hp : p ∈ db.rows)
    (hr : par cfg db.rows x = some p.pk) : getParent cfg db x = .ok (some p) := by
  have hpp := (par_eq_some_iff h.inv hp).1 hr
  have hd : x.path.length / cfg.steplen = x.depth := by
    rw [h.depth x hx]; exact Nat.mul_div_cancel _ hok.step
  have hne : ¬ x.depth ≤ 1 := by
    intro hle
    have h1 := h.depth_pos hok hx
    have h2 : x.depth = 1 := by omega
    have h3 := h.depth x hx
    have h4 := congrArg List.length hpp
    have h5 := (h.inv.len p hp).2
    have h6 := hok.step
    rw [pp_length, h3, h2] at h4
    omega
  unfold getParent
  simp only [hd]
  rw [if_neg hne, h.basepath hok hx, (getByPath_eq_ok h.inv).2 ⟨hp, hpp.symm⟩]

/-- the root above a row is unique -/
theorem take_step_root {x r : Row}
    (hl : r.path.length = cfg.steplen) (hp : r.path <+: x.path) : r.path = x.path.take cfg.steplen := by
  rw [← hl]; exact List.prefix_iff_eq_take.1 hp

/-- `get_root`: the root of the branch -/
theorem getRoot_spec (h : PInv cfg db.rows) (hok : cfg.Ok) {x : Row} (hx : x ∈ db.rows) :
    ∃ r ∈ db.rows, getRoot cfg db x = .ok r ∧ par cfg db.rows r = none ∧ (r = x ∨ (PF cfg db.rows).Desc r.pk x.pk) := by
  unfold getRoot
  by_cases h1 : x.isRoot = true
  · rw [if_pos h1]
    refine ⟨x, hx, rfl, (parOf_eq_none h.inv hok.step hx).2 ?_, Or.inl rfl⟩
    have : x.depth = 1 := by simpa [Row.isRoot] using h1
    rw [h.depth x hx, this, Nat.one_mul]
  · rw [if_neg h1]
    obtain ⟨r, hr, hl, hp⟩ := exists_root h.inv hok.step _ x (Nat.le_refl _) hx
    refine ⟨r, hr, (getByPath_eq_ok h.inv).2 ⟨hr, take_step_root hl hp⟩,
      (parOf_eq_none h.inv hok.step hr).2 hl, ?_⟩
    by_cases e : r = x
    · exact Or.inl e
    · exact Or.inr ((desc_PF h hok hr hx).2 ⟨hp, e⟩)

/-- members of `get_ancestors` -/
theorem mem_ancestors (h : PInv cfg db.rows) (hok : cfg.Ok) {x r : Row} (hx : x ∈ db.rows) :
    r ∈ ancestors cfg db x ↔ r ∈ db.rows ∧ r.path <+: x.path ∧ r ≠ x := by
  unfold ancestors
  have hs := hok.step
  split
  · rename_i h1
    have h1 : x.depth = 1 := by simpa [Row.isRoot] using h1
    simp only [List.not_mem_nil, false_iff, not_and, not_not]
    intro hr hp
    have := prefix_depth h hok hr hx hp
    have h2 := h.depth_pos hok hr
    by_contra hne
    have := prefix_depth_lt h hok hr hx hp hne
    omega
  · simp only
    rw [mem_sortBy, List.mem_filter, List.contains_iff_mem, List.mem_map]
    refine and_congr_right (fun hr => ?_)
    constructor
    · rintro ⟨k, hk, e⟩
      rw [List.mem_filter, List.mem_range, Bool.and_eq_true] at hk
      refine ⟨e ▸ List.take_prefix _ _, ?_⟩
      rintro rfl
      have := congrArg List.length e
      rw [List.length_take] at this
      omega
    · rintro ⟨hp, hne⟩
      have hlt := prefix_depth_lt h hok hr hx hp hne
      refine ⟨r.path.length, ?_, (List.prefix_iff_eq_take.1 hp).symm⟩
      rw [List.mem_filter, List.mem_range, Bool.and_eq_true, decide_eq_true_eq, beq_iff_eq]
      refine ⟨?_, ?_, ?_⟩
      · rw [h.depth r hr, h.depth x hx]; exact Nat.mul_lt_mul_of_pos_right hlt hs
      · have := (h.inv.len r hr).2; omega
      · rw [h.depth r hr]; exact Nat.mul_mod_left _ _

theorem strictWeak_depth : StrictWeak (fun a b : Row => decide (a.depth < b.depth)) where
  total a b := by simp only [decide_eq_false_iff_not]; omega
  trans a b c := by simp only [decide_eq_false_iff_not]; omega

/-- the ancestors come in order of depth -/
theorem ancestors_sorted (h : PInv cfg db.rows) (hok : cfg.Ok) {x : Row} (hx : x ∈ db.rows) :
    (ancestors cfg db x).Pairwise (fun a b => a.depth < b.depth) := by
  have hm := fun r => mem_ancestors h hok (r := r) hx
  have hcmp : ∀ a ∈ ancestors cfg db x, ∀ b ∈ ancestors cfg db x, a ≠ b → a.depth < b.depth ∨ b.depth < a.depth := by
    intro a ha b hb hne
    obtain ⟨ha, hpa, _⟩ := (hm a).1 ha
    obtain ⟨hb, hpb, _⟩ := (hm b).1 hb
    rcases List.prefix_or_prefix_of_prefix hpa hpb with hp | hp
    · exact Or.inl (prefix_depth_lt h hok ha hb hp hne)
    · exact Or.inr (prefix_depth_lt h hok hb ha hp (Ne.symm hne))
  unfold ancestors at hcmp ⊢
  split
  · simp
  · rename_i h1
    rw [if_neg h1] at hcmp
    simp only at hcmp ⊢
    refine (sortBy_strict strictWeak_depth (h.nodup.filter _) ?_).imp (by simp)
    intro a ha b hb hne
    rw [decide_eq_true_eq, decide_eq_true_eq]
    exact hcmp a (mem_sortBy.2 ha) b (mem_sortBy.2 hb) hne

/-- `get_ancestors`: from the root down to the parent -/
theorem ancestors_anc (h : PInv cfg db.rows) (hok : cfg.Ok) : ∀ (n : Nat) (x : Row), x.depth ≤ n → x ∈ db.rows →
    (PF cfg db.rows).Anc x.pk ((ancestors cfg db x).map Row.pk) := by
  intro n
  induction n with
  | zero => intro x hn hx; have := h.depth_pos hok hx; omega
  | succ n ih =>
    intro x hn hx
    cases hpar : par cfg db.rows x with
    | none =>
      have : ancestors cfg db x = [] := by
        rw [List.eq_nil_iff_forall_not_mem]
        intro r hr
        obtain ⟨hr, hp, hne⟩ := (mem_ancestors h hok hx).1 hr
        have h1 := prefix_pp h.inv hr hx hp hne
        have h2 := (parOf_eq_none h.inv hok.step hx).1 hpar
        have h3 := h1.length_le
        have h4 := (h.inv.len r hr).2
        have := hok.step
        rw [pp_length] at h3
        omega
      rw [this]
      exact .root ((mem_PF h).2 ⟨x, hx, hpar, rfl⟩)
    | some k =>
      obtain ⟨p, hp, e, rfl⟩ := (parOf_eq_some h.inv).1 hpar
      obtain ⟨hpre, hpne⟩ := child_prefix h.inv hok.step hx e
      have hlt := prefix_depth_lt h hok hp hx hpre hpne
      have hanc : ancestors cfg db x = ancestors cfg db p ++ [p] := by
        refine sorted_unique (T := fun _ => True) (lt := fun a b : Row => a.depth < b.depth) ?_ (fun _ _ => trivial)
          (ancestors_sorted h hok hx) ?_ ?_
        · intro a b _ _ hab; omega
        · rw [List.pairwise_append]
          refine ⟨ancestors_sorted h hok hp, by simp, ?_⟩
          intro a ha b hb
          rw [List.mem_singleton] at hb; subst hb
          obtain ⟨ha, hpa, hne⟩ := (mem_ancestors h hok hp).1 ha
          exact prefix_depth_lt h hok ha hp hpa hne
        · intro r
          rw [mem_ancestors h hok hx, List.mem_append, mem_ancestors h hok hp, List.mem_singleton]
          constructor
          · rintro ⟨hr, hpr, hne⟩
            by_cases hrp : r = p
            · exact Or.inr hrp
            · exact Or.inl ⟨hr, e ▸ prefix_pp h.inv hr hx hpr hne, hrp⟩
          · rintro (⟨hr, hpr, hne⟩ | rfl)
            · refine ⟨hr, hpr.trans hpre, ?_⟩
              rintro rfl
              have := prefix_depth h hok hr hp hpr
              omega
            · exact ⟨hp, hpre, hpne⟩
      rw [hanc, List.map_append]
      exact .step (ih p (by omega) hp) ((mem_PF h).2 ⟨x, hx, hpar, rfl⟩)

/-- rows with the same parent have the same parent path -/
theorem pp_par_inj (h : PInv cfg rows) (hok : cfg.Ok) {r s : Row} (hr : r ∈ rows) (hs : s ∈ rows)
    (e : par cfg rows r = par cfg rows s) : pp cfg.steplen r.path = pp cfg.steplen s.path := by
  refine pp_of_par h.inv hok.step hr ?_ e
  by_cases hl : s.path.length = cfg.steplen
  · left; rw [pp_length]; omega
  · right
    have := (h.inv.len s hs).2
    exact h.inv.closed s hs (by omega)

/-- siblings lists as the forest shows them -/
theorem siblings_PF (h : PInv cfg db.rows) (hok : cfg.Ok) {x : Row} (hx : x ∈ db.rows) :
    (siblings cfg db x).map Row.pk = PF cfg db.rows (par cfg db.rows x) := by
  obtain ⟨l, e, s, m⟩ := (shows_pforest h.inv).lists (par cfg db.rows x)
  refine Eq.trans ?_ e.symm
  congr 1
  refine sorted_unique (T := fun _ => True) (lt := fun a b : Row => a.path < b.path) ?_ (fun _ _ => trivial)
    (siblings_sorted h x) s ?_
  · intro a b _ _ hab; exact plt_asymm hab
  · intro r
    rw [mem_siblings h hok hx, m]
    refine and_congr_right (fun hr => ?_)
    constructor
    · intro e; simp only [par, parOf, e]
    · intro e
      exact pp_par_inj h hok hr hx e

/-- neighbours in a sorted list -/
theorem next_in_sorted {l : List Row} (hs : l.Pairwise (fun a b => a.path < b.path)) {x : Row} (hx : x ∈ l) :
    ∃ l₁ l₂, l = l₁ ++ x :: l₂ ∧ l.filter (fun r => decide (x.path < r.path)) = l₂ ∧
      l.filter (fun r => decide (r.path < x.path)) = l₁ := by
  obtain ⟨l₁, l₂, rfl⟩ := List.append_of_mem hx
  refine ⟨l₁, l₂, rfl, ?_, ?_⟩
  · rw [List.pairwise_append, List.pairwise_cons] at hs
    rw [List.filter_append, List.filter_cons]
    have h1 : l₁.filter (fun r => decide (x.path < r.path)) = [] := by
      rw [List.filter_eq_nil_iff]
      intro r hr
      simpa using plt_asymm (hs.2.2 r hr x (by simp))
    have h2 : l₂.filter (fun r => decide (x.path < r.path)) = l₂ := by
      rw [List.filter_eq_self]
      intro r hr
      simpa using hs.2.1.1 r hr
    rw [h1, h2]
    simp
  · rw [List.pairwise_append, List.pairwise_cons] at hs
    rw [List.filter_append, List.filter_cons]
    have h1 : l₁.filter (fun r => decide (r.path < x.path)) = l₁ := by
      rw [List.filter_eq_self]
      intro r hr
      simpa using hs.2.2 r hr x (by simp)
    have h2 : l₂.filter (fun r => decide (r.path < x.path)) = [] := by
      rw [List.filter_eq_nil_iff]
      intro r hr
      simpa using plt_asymm (hs.2.1.1 r hr)
    rw [h1, h2]
    simp

/-- `get_next_sibling` and `get_prev_sibling`: the neighbours of the node in the list of its siblings -/
theorem neighbours (h : PInv cfg db.rows) (hok : cfg.Ok) {x : Row} (hx : x ∈ db.rows) :
    ∃ l₁ l₂, PF cfg db.rows (par cfg db.rows x) = l₁ ++ x.pk :: l₂ ∧
      (nextSibling cfg db x).map Row.pk = l₂.head? ∧ (prevSibling cfg db x).map Row.pk = l₁.getLast? := by
  have hmem : x ∈ siblings cfg db x := (mem_siblings h hok hx).2 ⟨hx, rfl⟩
  obtain ⟨l₁, l₂, e, e1, e2⟩ := next_in_sorted (siblings_sorted h x) hmem
  refine ⟨l₁.map Row.pk, l₂.map Row.pk, ?_, ?_, ?_⟩
  · rw [← siblings_PF h hok hx, e]; simp
  · unfold nextSibling; rw [e1]; simp
  · unfold prevSibling; rw [e2]; simp

theorem isRoot_iff (h : PInv cfg db.rows) (hok : cfg.Ok) {x : Row} (hx : x ∈ db.rows) :
    x.isRoot = true ↔ par cfg db.rows x = none := by
  rw [parOf_eq_none h.inv hok.step hx, Row.isRoot, beq_iff_eq, depth_eq_iff h hok hx, Nat.one_mul]

theorem isChildOf_iff (h : PInv cfg db.rows) (hok : cfg.Ok) {x p : Row} (hx : x ∈ db.rows) (hp : p ∈ db.rows) :
    x.isChildOf p = true ↔ par cfg db.rows x = some p.pk := by
  rw [par_eq_some_iff h.inv hp, Row.isChildOf, Bool.and_eq_true, List.isPrefixOf_iff_prefix, beq_iff_eq]
  constructor
  · rintro ⟨hpre, hd⟩
    have hne : p ≠ x := by rintro rfl; omega
    have h1 := prefix_pp h.inv hp hx hpre hne
    symm
    apply h1.eq_of_length
    rw [pp_length, h.depth p hp, h.depth x hx, hd, Nat.add_mul]; omega
  · intro e
    obtain ⟨hpre, _⟩ := child_prefix h.inv hok.step hx e.symm
    refine ⟨hpre, ?_⟩
    have h1 := congrArg List.length e
    have h2 := (h.inv.len x hx).2
    rw [pp_length] at h1
    rw [depth_eq_iff h hok hx, Nat.add_mul, ← h.depth p hp]; omega

theorem isDescendantOf_PF (h : PInv cfg db.rows) (hok : cfg.Ok) {x p : Row} (hx : x ∈ db.rows) (hp : p ∈ db.rows) :
    x.isDescendantOf p = true ↔ (PF cfg db.rows).Desc p.pk x.pk := by
  rw [desc_PF h hok hp hx, Row.isDescendantOf, Bool.and_eq_true, List.isPrefixOf_iff_prefix, decide_eq_true_eq]
  constructor
  · rintro ⟨hpre, hd⟩
    exact ⟨hpre, by rintro rfl; omega⟩
  · rintro ⟨hpre, hne⟩
    exact ⟨hpre, prefix_depth_lt h hok hp hx hpre hne⟩

theorem isSiblingOf_iff (h : PInv cfg db.rows) (hok : cfg.Ok) {x y : Row} (hx : x ∈ db.rows) (hy : y ∈ db.rows) :
    x.isSiblingOf cfg y = true ↔ par cfg db.rows x = par cfg db.rows y := by
  have hpp : par cfg db.rows x = par cfg db.rows y ↔ pp cfg.steplen x.path = pp cfg.steplen y.path := by
    constructor
    · intro e; exact pp_par_inj h hok hx hy e
    · intro e; simp only [par, parOf, e]
  rw [hpp]
  unfold Row.isSiblingOf
  have hxd := h.depth x hx
  have hyd := h.depth y hy
  have hs := hok.step
  have hxl := (h.inv.len x hx).2
  have hyl := (h.inv.len y hy).2
  by_cases hd : x.depth = y.depth
  · rw [if_neg (by simpa using hd)]
    have hl : x.path.length = y.path.length := by rw [hxd, hyd, hd]
    by_cases h1 : x.depth = 1
    · rw [if_pos h1]
      have e1 : pp cfg.steplen x.path = [] := by
        apply List.eq_nil_of_length_eq_zero; rw [pp_length, hxd, h1]; omega
      have e2 : pp cfg.steplen y.path = [] := by
        apply List.eq_nil_of_length_eq_zero; rw [pp_length, hyd, ← hd, h1]; omega
      simp [e1, e2]
    · rw [if_neg h1, h.basepath hok hx, List.isPrefixOf_iff_prefix]
      constructor
      · intro hp
        have := List.prefix_iff_eq_take.1 hp
        rw [this, pp_length, hl]; rfl
      · intro e; rw [e]; exact pp_prefix _
  · rw [if_pos (by simpa using hd)]
    simp only [Bool.false_eq_true, false_iff]
    intro e
    have := congrArg List.length e
    rw [pp_length, pp_length] at this
    apply hd
    rw [depth_eq_iff h hok hx, ← hyd]; omega

theorem isLeaf_iff (h : Inv cfg db.rows) {x : Row} (hx : x ∈ db.rows) :
    x.isLeaf = true ↔ PF cfg db.rows (some x.pk) = [] := by
  rw [Row.isLeaf, beq_iff_eq, h.num x hx, ← List.length_eq_zero_iff]; omega

end MP
end Verif
