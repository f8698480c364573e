/-
C54: the admin's tree list shows the tree.
-/
import Verif.AdminModel
import Verif.Props.MPForm
import Verif.Props.NSForm
import Verif.Props.ALForm
import Verif.Props.LTForm

namespace Verif

theorem adminShows_of {σ ρ : Type} {v : TreeView σ ρ} {db : σ} {rows : List ρ} {F : Forest} (hf : v.Fits db rows F)
    (hF : F.IsForestOn (rows.map v.key)) : AdminShows F (rows.map v.key) (treeContext v db) := by
  refine ⟨fun p hp => hf.lists hp, fun k hk => hf.unknown hk, ?_⟩
  obtain ⟨top, e, ht⟩ := hf.lists (p := none) (by simp)
  obtain ⟨l, hd, hn, hp⟩ := hF.listing
  obtain ⟨out, ho, rfl, hl⟩ := opened_dfs (ids := rows.map v.key) (req := treeContext v db) (fun k hk => hf.lists (p := some k) (by simpa using hk)) hd
    top ht.nodes (fun k hk => hp.mem_iff.1 hk) ht.hasChildren ht.level
  exact ⟨top, out, e, ho, fun out' h' => h'.unique ho, hd, hn, fun k => hp.mem_iff, hl⟩

namespace MP
variable {cfg : Cfg} {db : DB}

/-- admin_tree.py:31-32: `numchild > 0` -/
def hasChildren (r : Row) : Bool := decide (0 < r.numchild)

/-- the list for an MP model -/
def treeView (cfg : Cfg) : TreeView DB Row where
  key := Row.pk
  find := DB.get?
  roots := rootNodes
  children := children cfg
  depth := fun _ r => .ok r.depth
  hasChildren := fun _ r => hasChildren r

/-- **C54 for MP**, on every consistent tree. -/
theorem C54_mp (hok : cfg.Ok) (h : Consistent cfg db) : AdminShows (forest cfg db) (db.rows.map Row.pk) (treeContext (treeView cfg) db) := by
  have hi := (consistent_iff hok).1 h
  refine adminShows_of (v := treeView cfg) (rows := db.rows) ⟨?_, ?_, ⟨rfl, ?_⟩, ?_, ?_, ?_⟩
    (by rw [forest_eq hi hok]; exact isForestOn hi.inv hok.step)
  · intro k p e
    exact (get?_eq_some hi.inv).1 e
  · intro k e hk
    obtain ⟨r, hr, rfl⟩ := List.mem_map.1 hk
    exact absurd (((get?_eq_some hi.inv).2 ⟨hr, rfl⟩).symm.trans e) (by simp)
  · exact fun r hr => (List.mem_filter.1 (mem_sortBy.1 hr)).1
  · intro p hp
    refine ⟨(C10_nav hok h hp).children, ?_⟩
    intro r hr
    replace hr : r ∈ children cfg db p := hr
    unfold children at hr
    split at hr
    · simp at hr
    · exact (List.mem_filter.1 (mem_sortBy.1 hr)).1
  · exact fun p hp => (C10_nav hok h hp).depth
  · intro r hr
    show decide (0 < r.numchild) = true ↔ forest cfg db (some r.pk) ≠ []
    have := (C10_nav hok h hr).childrenCount
    rw [decide_eq_true_eq, show r.numchild = _ from this, ← List.length_pos_iff]
    omega

end MP

namespace NS
variable {db : DB}

/-- admin_tree.py:33-36: `rgt - lft > 1` -/
def hasChildren (r : Row) : Bool := decide (1 < r.rgt - r.lft)

/-- the list for an NS model -/
def treeView : TreeView DB Row where
  key := Row.pk
  find := DB.get?
  roots := rootNodes
  children := children
  depth := fun _ r => .ok r.depth
  hasChildren := fun _ r => hasChildren r

/-- **C54 for NS**, on every consistent tree. -/
theorem C54_ns (h : Consistent db) : AdminShows (forest db) (db.rows.map Row.pk) (treeContext treeView db) := by
  have hF := isForestOn h
  rw [keys_eq] at hF
  refine adminShows_of (v := treeView) (rows := db.rows) ⟨?_, ?_, ⟨rfl, ?_⟩, ?_, ?_, ?_⟩ hF
  · exact fun k p e => (get?_eq_some h.toNI).1 e
  · intro k e hk
    obtain ⟨r, hr, rfl⟩ := List.mem_map.1 hk
    exact get?_eq_none.1 e r hr rfl
  · exact fun r hr => (mem_rootNodes.1 hr).1
  · exact fun p hp => ⟨(C25_nav h hp).children, fun r hr => ((mem_children h.toNI hp).1 hr).1⟩
  · exact fun p hp => (C25_nav h hp).depth
  · intro r hr
    show decide (1 < r.rgt - r.lft) = true ↔ forest db (some r.pk) ≠ []
    have hl := (C25_nav h hr).isLeaf
    have hlr := h.lr r hr
    rw [Ne, ← hl]
    show _ ↔ ¬ (r.rgt - r.lft == 1) = true
    rw [decide_eq_true_eq, beq_iff_eq]
    omega

end NS

namespace AL
variable {cfg : Cfg} {db : DB}

/-- admin_tree.py:37-38: there is a row with this parent -/
def hasChildren (db : DB) (r : Row) : Bool := db.rows.any (fun q => q.parent == some r.pk)

/-- the list for an AL model -/
def treeView (cfg : Cfg) : TreeView DB Row where
  key := Row.pk
  find := DB.get?
  roots := rootNodes cfg
  children := children cfg
  depth := fun db r => getDepth db r none
  hasChildren := hasChildren

/-- **C54 for AL**, on every well-formed tree, with and without `node_order_by`. -/
theorem C54_al (h : Wf cfg db) : AdminShows (forest cfg db) (db.rows.map Row.pk) (treeContext (treeView cfg) db) := by
  have hF := isForestOn (cfg := cfg) h.ai
  rw [data_keys] at hF
  refine adminShows_of (v := treeView cfg) (rows := db.rows) ⟨?_, ?_, ⟨rfl, ?_⟩, ?_, ?_, ?_⟩ hF
  · exact fun k p e => (get?_eq_some h.ai).1 e
  · intro k e hk
    obtain ⟨r, hr, rfl⟩ := List.mem_map.1 hk
    exact get?_eq_none.1 e r hr rfl
  · exact fun r hr => (List.mem_filter.1 (mem_order.1 hr)).1
  · intro p hp
    obtain ⟨_, _, hn⟩ := C32_nav_partial h hp
    exact ⟨hn.children, fun r hr => (mem_children.1 hr).1⟩
  · intro p hp
    obtain ⟨_, _, hn⟩ := C32_nav_partial h hp
    exact hn.depth
  · intro r hr
    obtain ⟨_, _, hn⟩ := C32_nav_partial h hr
    show hasChildren db r = true ↔ forest cfg db (some r.pk) ≠ []
    rw [← hn.children]
    unfold hasChildren
    rw [List.any_eq_true]
    constructor
    · rintro ⟨q, hq, e⟩
      exact List.ne_nil_of_mem (List.mem_map_of_mem (mem_children.2 ⟨hq, by simpa using e⟩))
    · intro hne
      obtain ⟨k, hk⟩ := List.exists_mem_of_ne_nil _ hne
      obtain ⟨q, hq, _⟩ := List.mem_map.1 hk
      obtain ⟨h1, h2⟩ := mem_children.1 hq
      exact ⟨q, h1, by simpa using h2⟩

end AL

namespace LT
variable {db : DB}

/-- admin_tree.py:39-44: there is another row whose path is at or below the path of this one -/
def hasChildren (db : DB) (r : Row) : Bool := db.rows.any (fun q => r.path.isPrefixOf q.path && q.pk != r.pk)

/-- the list for an LT model -/
def treeView : TreeView DB Row where
  key := Row.pk
  find := DB.get?
  roots := rootNodes
  children := children
  depth := fun _ r => .ok r.depth
  hasChildren := hasChildren

/-- **C54 for LT**, on every consistent tree. -/
theorem C54_lt (h : Consistent db) : AdminShows (forest db) (db.rows.map Row.pk) (treeContext treeView db) := by
  have hF := isForestOn h
  rw [keys_eq] at hF
  have hp := h.inv.inv
  refine adminShows_of (v := treeView) (rows := db.rows) ⟨?_, ?_, ⟨rfl, ?_⟩, ?_, ?_, ?_⟩ hF
  · exact fun k p e => (get?_eq_some hp).1 e
  · intro k e hk
    obtain ⟨r, hr, rfl⟩ := List.mem_map.1 hk
    exact get?_eq_none.1 e r hr rfl
  · exact fun r hr => ((mem_rootNodes hp).1 hr).1
  · exact fun p hq => ⟨(C37_nav h hq).children, fun r hr => ((mem_children hp).1 hr).1⟩
  · exact fun p hq => (C37_nav h hq).depth
  · intro r hr
    show hasChildren db r = true ↔ forest db (some r.pk) ≠ []
    unfold hasChildren
    rw [List.any_eq_true, forest_eq hp]
    constructor
    · rintro ⟨q, hq, e⟩
      simp only [Bool.and_eq_true, List.isPrefixOf_iff_prefix, bne_iff_ne, ne_eq] at e
      have hd := (desc_PF hp hr hq).2 ⟨e.1, fun e' => e.2 (by rw [e'])⟩
      obtain ⟨c, hc, _⟩ := hd.cases_head
      exact List.ne_nil_of_mem hc
    · intro hne
      obtain ⟨k, hk⟩ := List.exists_mem_of_ne_nil _ hne
      obtain ⟨q, hq, _, rfl⟩ := (mem_PF hp).1 hk
      obtain ⟨h1, h2⟩ := (desc_PF hp hr hq).1 (.child hk)
      refine ⟨q, hq, ?_⟩
      simp only [Bool.and_eq_true, List.isPrefixOf_iff_prefix, bne_iff_ne, ne_eq]
      exact ⟨h1, fun e => h2 (hp.pk_inj hr hq e.symm)⟩

end LT

/-! ### Examples -/

/-- The theorems apply to trees with children: what the list shows first, and below node 1. -/
example : MP.Consistent MP.exCfg MP.exDB ∧
    treeContext (MP.treeView MP.exCfg) MP.exDB none = .ok [⟨1, 0, 1, true⟩, ⟨5, 0, 1, false⟩] ∧
    treeContext (MP.treeView MP.exCfg) MP.exDB (some 1) = .ok [⟨2, 1, 2, false⟩, ⟨3, 1, 2, true⟩] ∧
    treeContext (MP.treeView MP.exCfg) MP.exDB (some 9) = .error .doesNotExist ∧
    NS.Consistent NS.formDB ∧ treeContext NS.treeView NS.formDB (some 1) = .ok [⟨2, 1, 2, true⟩, ⟨5, 1, 2, false⟩] ∧
    AL.Wf AL.exSorted AL.exSDB ∧
    treeContext (AL.treeView AL.exSorted) AL.exSDB (some 1) = .ok [⟨2, 1, 2, false⟩, ⟨3, 1, 2, false⟩, ⟨4, 1, 2, false⟩] ∧
    LT.Consistent LT.exDB ∧ treeContext LT.treeView LT.exDB (some 1) = .ok [⟨2, 1, 2, false⟩, ⟨3, 1, 2, true⟩] :=
  ⟨MP.exDB_consistent, by decide, by decide, by decide, NS.formDB_inv, by decide, AL.wf_of_ai AL.exSDB_inv.toAI, by decide,
    LT.consistent_iff.2 LT.exDB_inv, by decide⟩

end Verif
