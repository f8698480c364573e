/-
NS: what the query sets contain on nested tables.
-/
import Verif.NS.Jump

namespace Verif.NS

variable {db : DB}

theorem get?_eq_some (h : NI db.rows) {k : Nat} {r : Row} : db.get? k = some r ↔ r ∈ db.rows ∧ r.pk = k := by
  unfold DB.get?
  constructor
  · intro e
    have := List.find?_some e
    exact ⟨List.mem_of_find?_eq_some e, by simpa using this⟩
  · rintro ⟨hr, rfl⟩
    cases e : db.rows.find? (·.pk == r.pk) with
    | none =>
      rw [List.find?_eq_none] at e
      exact absurd (by simp) (e r hr)
    | some r' =>
      have h1 := List.find?_some e
      have h2 := List.mem_of_find?_eq_some e
      rw [h.pk_inj h2 hr (by simpa using h1)]

theorem get?_eq_none {k : Nat} : db.get? k = none ↔ ∀ r ∈ db.rows, r.pk ≠ k := by
  unfold DB.get?
  rw [List.find?_eq_none]
  simp

theorem isDescendantOf_iff {r q : Row} : r.isDescendantOf q = true ↔ encl q r := by
  unfold Row.isDescendantOf encl
  simp only [Bool.and_eq_true, beq_iff_eq, decide_eq_true_eq]
  constructor
  · rintro ⟨⟨h1, h2⟩, h3⟩; exact ⟨h1.symm, h2, h3⟩
  · rintro ⟨h1, h2, h3⟩; exact ⟨⟨h1.symm, h2⟩, h3⟩

/-! ### Roots -/

theorem mem_rootNodes {r : Row} : r ∈ rootNodes db ↔ r ∈ db.rows ∧ r.lft = 1 := by
  unfold rootNodes
  rw [mem_order, List.mem_filter]
  simp

theorem rootNodes_sorted (h : NI db.rows) : (rootNodes db).Pairwise lt := order_filter_sorted h _

theorem rootNodes_par (h : NI db.rows) {r : Row} : r ∈ rootNodes db ↔ r ∈ db.rows ∧ par db.rows r = none := by
  rw [mem_rootNodes]
  constructor
  · rintro ⟨h1, h2⟩; exact ⟨h1, (par_eq_none h h1).2 h2⟩
  · rintro ⟨h1, h2⟩; exact ⟨h1, (par_eq_none h h1).1 h2⟩

theorem rootNodes_PF (h : NI db.rows) : (rootNodes db).map Row.pk = PF db.rows none :=
  list_PF h (rootNodes_sorted h) (fun _ => rootNodes_par h)

/-! ### Branches -/

theorem leaf_no_encl (h : NI db.rows) {p r : Row} (hl : p.isLeaf = true) (hr : r ∈ db.rows) : ¬ encl p r := by
  intro he
  have := h.lr r hr
  unfold Row.isLeaf at hl
  unfold encl at he
  simp only [beq_iff_eq] at hl
  omega

/-- `get_tree(p)` contains the branch of `p`, in order -/
theorem mem_getTree (h : NI db.rows) {p r : Row} (hp : p ∈ db.rows) {m : Option Int} :
    r ∈ getTree db (some p) m ↔ r ∈ db.rows ∧ InB p r ∧ (p.isLeaf = true ∨ ∀ k, m = some k → k = 0 ∨ r.depth ≤ k + p.depth) := by
  unfold getTree
  simp only
  split
  · rename_i hl
    rw [mem_order, List.mem_filter]
    simp only [beq_iff_eq]
    constructor
    · rintro ⟨h1, h2⟩
      exact ⟨h1, Or.inl (h.pk_inj h1 hp h2), Or.inl hl⟩
    · rintro ⟨h1, h2, _⟩
      rcases h2 with rfl | h2
      · exact ⟨h1, rfl⟩
      · exact absurd h2 (leaf_no_encl h hl h1)
  · rename_i hl
    rw [mem_order, List.mem_filter]
    simp only [Bool.and_eq_true, beq_iff_eq, decide_eq_true_eq]
    constructor
    · rintro ⟨h1, ⟨⟨h2, h3⟩, h4⟩, h5⟩
      refine ⟨h1, (h.inB_iff hp h1).2 ⟨h2, h3, by omega⟩, Or.inr ?_⟩
      rintro k rfl
      simpa using h5
    · rintro ⟨h1, h2, h3⟩
      have hm := (h.inB_iff hp h1).1 h2
      have hlp := h.lr p hp
      have hlr := h.lr r h1
      have : r.lft ≤ p.rgt - 1 := by
        rcases h2 with rfl | he
        · omega
        · unfold encl at he; omega
      refine ⟨h1, ⟨⟨hm.1, hm.2.1⟩, this⟩, ?_⟩
      cases m with
      | none => rfl
      | some k =>
        rcases h3 with h3 | h3
        · exact absurd h3 hl
        · simpa using h3 k rfl

theorem getTree_sorted (h : NI db.rows) (p : Option Row) (m : Option Int) : (getTree db p m).Pairwise lt := by
  unfold getTree
  split
  · split <;> exact order_filter_sorted h _
  · exact order_filter_sorted h _

theorem mem_descendants (h : NI db.rows) {p r : Row} (hp : p ∈ db.rows) {m : Option Int} :
    r ∈ descendants db p false m ↔ r ∈ db.rows ∧ encl p r ∧ (∀ k, m = some k → k = 0 ∨ r.depth ≤ k + p.depth) := by
  unfold descendants
  simp only [Bool.false_eq_true, if_false]
  split
  · rename_i hl
    simp only [List.not_mem_nil, false_iff]
    rintro ⟨h1, h2, _⟩
    exact leaf_no_encl h hl h1 h2
  · rename_i hl
    rw [List.mem_filter, mem_getTree h hp]
    simp only [Bool.not_eq_true', beq_eq_false_iff_ne, ne_eq]
    constructor
    · rintro ⟨⟨h1, h2, h3⟩, h4⟩
      rcases h2 with rfl | h2
      · exact absurd rfl h4
      · exact ⟨h1, h2, h3.resolve_left hl⟩
    · rintro ⟨h1, h2, h3⟩
      refine ⟨⟨h1, Or.inr h2, Or.inr h3⟩, ?_⟩
      intro e
      rw [h.pk_inj h1 hp e] at h2
      exact encl_irrefl _ h2

theorem descendants_sorted (h : NI db.rows) (p : Row) (s : Bool) (m : Option Int) : (descendants db p s m).Pairwise lt := by
  unfold descendants
  split
  · exact getTree_sorted h _ _
  · split
    · exact List.Pairwise.nil
    · exact (getTree_sorted h _ _).sublist List.filter_sublist

theorem mem_children (h : NI db.rows) {p r : Row} (hp : p ∈ db.rows) :
    r ∈ children db p ↔ r ∈ db.rows ∧ par db.rows r = some p.pk := by
  unfold children
  rw [List.mem_filter, mem_descendants h hp]
  simp only [beq_iff_eq]
  constructor
  · rintro ⟨⟨h1, h2, _⟩, h3⟩
    exact ⟨h1, (par_row h hp h1).2 ((h.inner_iff hp h1).2 ⟨h2, h3⟩)⟩
  · rintro ⟨h1, h2⟩
    have := (h.inner_iff hp h1).1 ((par_row h hp h1).1 h2)
    exact ⟨⟨h1, this.1, by intro k e; cases e⟩, this.2⟩

theorem children_sorted (h : NI db.rows) (p : Row) : (children db p).Pairwise lt :=
  (descendants_sorted h _ _ _).sublist List.filter_sublist

theorem children_PF (h : NI db.rows) {p : Row} (hp : p ∈ db.rows) : (children db p).map Row.pk = PF db.rows (some p.pk) :=
  list_PF h (children_sorted h p) (fun _ => mem_children h hp)

/-! ### Parents and siblings -/

theorem ancestors_eq (h : NI db.rows) (r : Row) :
    ancestors db r = order (db.rows.filter (fun q => decide (encl q r))) := by
  have e : ∀ q : Row, (q.tree == r.tree && decide (q.lft < r.lft) && decide (q.rgt > r.rgt)) = decide (encl q r) := by
    intro q
    rw [Bool.eq_iff_iff]
    simp only [Bool.and_eq_true, beq_iff_eq, decide_eq_true_eq]
    unfold encl
    constructor
    · rintro ⟨⟨h1, h2⟩, h3⟩; exact ⟨h1, h2, by omega⟩
    · rintro ⟨h1, h2, h3⟩; exact ⟨⟨h1, h2⟩, by omega⟩
  unfold ancestors
  split
  · rename_i hl
    have : db.rows.filter (fun q => decide (encl q r)) = [] := by
      rw [List.filter_eq_nil_iff]
      intro q hq
      have := h.one q hq
      unfold Row.isRoot at hl
      simp only [beq_iff_eq] at hl
      simp only [decide_eq_true_eq]
      unfold encl
      omega
    rw [this]; rfl
  · congr 1
    exact List.filter_congr (fun q _ => e q)

/-- the parent of a node, without a cache -/
theorem getParent_spec (h : NI db.rows) {r : Row} (hr : r ∈ db.rows) :
    (r.lft = 1 ∧ par db.rows r = none ∧ getParent db r none = .ok none) ∨
    (r.lft ≠ 1 ∧ ∃ p, Inner db.rows p r ∧ par db.rows r = some p.pk ∧ getParent db r none = .ok (some p)) := by
  unfold getParent
  by_cases hl : r.lft = 1
  · left
    refine ⟨hl, (par_eq_none h hr).2 hl, ?_⟩
    rw [if_pos (by simp [Row.isRoot, hl])]
  · right
    refine ⟨hl, ?_⟩
    rw [if_neg (by simp [Row.isRoot, hl])]
    simp only
    rw [ancestors_eq h]
    cases e : (order (db.rows.filter (fun q => decide (encl q r)))).getLast? with
    | none =>
      have : par db.rows r = none := by unfold par; rw [e]; rfl
      exact absurd ((par_eq_none h hr).1 this) hl
    | some z => exact ⟨z, inner_of_last h hr e, by unfold par; rw [e]; rfl, rfl⟩

theorem siblings_spec (h : NI db.rows) {t : Row} (ht : t ∈ db.rows) :
    ∃ l, siblings db t = .ok l ∧ l.Pairwise lt ∧ (∀ r, r ∈ l ↔ r ∈ db.rows ∧ par db.rows r = par db.rows t) ∧
      l.map Row.pk = PF db.rows (par db.rows t) := by
  unfold siblings
  rcases getParent_spec h ht with ⟨h1, h2, _⟩ | ⟨h1, p, hi, h2, h3⟩
  · refine ⟨rootNodes db, by rw [if_pos (by simp [h1])], rootNodes_sorted h, ?_, ?_⟩
    · intro r; rw [h2]; exact rootNodes_par h
    · rw [h2]; exact rootNodes_PF h
  · refine ⟨children db p, by rw [if_neg (by simp [h1]), h3], children_sorted h p, ?_, ?_⟩
    · intro r; rw [h2]; exact mem_children h hi.1
    · rw [h2]; exact children_PF h hi.1

/-! ### The forest read through the API -/

/-- The forest as the API shows it: `get_root_nodes` and `get_children`. -/
def forest (db : DB) : Forest := fun p => match p with
  | none => (rootNodes db).map Row.pk
  | some k => match db.get? k with
    | none => []
    | some r => (children db r).map Row.pk

theorem forest_eq (h : NI db.rows) : forest db = PF db.rows := by
  funext p
  cases p with
  | none => exact rootNodes_PF h
  | some k =>
    unfold forest
    simp only
    cases e : db.get? k with
    | none =>
      have hk := get?_eq_none.1 e
      symm
      simp only
      rw [List.eq_nil_iff_forall_not_mem]
      intro j hj
      obtain ⟨r, hr, hp, _⟩ := (mem_PF h).1 hj
      obtain ⟨p, hi, e⟩ := (par_eq_some h hr).1 hp
      exact hk p hi.1 e
    | some r =>
      obtain ⟨hr, rfl⟩ := (get?_eq_some h).1 e
      exact children_PF h hr

end Verif.NS
