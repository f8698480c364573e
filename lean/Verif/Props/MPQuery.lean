/-
C10 and C11 for the materialized path backend.
-/
import Verif.Props.MPAdd
import Verif.MP.Query
import Verif.SpecNav

namespace Verif

open MP

variable {cfg : Cfg} {db : DB}

/-- the answers of the MP backend for the node `x` -/
def mpNav (cfg : Cfg) (db : DB) (x : Row) : NavAnswers where
  parent := (getParent cfg db x).map (fun o => o.map Row.pk)
  root := (getRoot cfg db x).map Row.pk
  children := (children cfg db x).map Row.pk
  siblings := .ok ((siblings cfg db x).map Row.pk)
  ancestors := .ok ((ancestors cfg db x).map Row.pk)
  descendants := .ok ((descendants db x false none).map Row.pk)
  firstChild := (firstChild cfg db x).map Row.pk
  lastChild := (lastChild cfg db x).map Row.pk
  firstSibling := .ok ((firstSibling cfg db x).map Row.pk)
  lastSibling := .ok ((lastSibling cfg db x).map Row.pk)
  prev := .ok ((prevSibling cfg db x).map Row.pk)
  next := .ok ((nextSibling cfg db x).map Row.pk)
  isRoot := x.isRoot
  isLeaf := x.isLeaf
  childrenCount := childrenCount x
  descendantCount := .ok (descendantCount db x none : Int)
  depth := .ok x.depth

/-- the answers of the MP backend for the pair `x`, `y` -/
def mpPair (cfg : Cfg) (x y : Row) : PairAnswers where
  childOf := x.isChildOf y
  descendantOf := .ok (x.isDescendantOf y)
  siblingOf := .ok (x.isSiblingOf cfg y)

theorem par_mem {x : Row} : par cfg db.rows x = none ∨ ∃ p ∈ db.rows, par cfg db.rows x = some p.pk := by
  cases hp : par cfg db.rows x with
  | none => exact Or.inl rfl
  | some k =>
    right
    obtain ⟨p, hm, e⟩ := Option.map_eq_some_iff.1 hp
    exact ⟨p, List.mem_of_find?_eq_some hm, by rw [e]⟩

theorem children_PF (hok : cfg.Ok) (h : Inv cfg db.rows) {x : Row} (hx : x ∈ db.rows) :
    (children cfg db x).map Row.pk = PF cfg db.rows (some x.pk) := by
  rw [← forest_eq h hok]
  show _ = (match db.get? x.pk with | none => [] | some r => (children cfg db r).map Row.pk)
  rw [(get?_eq_some h.inv).2 ⟨hx, rfl⟩]

theorem dfs_nil {F : Forest} {l : List Nat} (h : F.DFS [] l) : l = [] := by cases h; rfl

theorem dfs_one {F : Forest} {x : Nat} {l : List Nat} (h : F.DFS [x] l) : ∃ l', l = x :: l' ∧ F.DFS (F (some x)) l' := by
  cases h with
  | cons h1 h2 =>
    cases h2
    exact ⟨_, by simp, h1⟩

theorem getTree_pk_nodup (h : PInv cfg db.rows) (p : Option Row) (k : Option Int) (hsub : ∀ r ∈ getTree db p k, r ∈ db.rows) :
    ((getTree db p k).map Row.pk).Nodup := by
  have hs := getTree_sorted h p k
  rw [List.nodup_iff_pairwise_ne, List.pairwise_map]
  refine hs.imp_of_mem ?_
  intro a b ha hb hlt e
  rw [h.inv.pk_inj (hsub a ha) (hsub b hb) e] at hlt
  exact List.lt_irrefl _ hlt

theorem getTree_sub {p : Option Row} {k : Option Int} : ∀ r ∈ getTree db p k, r ∈ db.rows := by
  intro r hr
  unfold getTree at hr
  split at hr
  · split at hr <;> exact (List.mem_filter.1 (mem_orderByPath.1 hr)).1
  · exact (List.mem_filter.1 (mem_orderByPath.1 hr)).1

theorem anc_of_getRoot (h : PInv cfg db.rows) (hok : cfg.Ok) {x : Row} (hx : x ∈ db.rows) :
    ∃ r ∈ db.rows, getRoot cfg db x = .ok r ∧ r.pk = (((ancestors cfg db x).map Row.pk) ++ [x.pk]).headD x.pk := by
  obtain ⟨r, hr, e, hp, hd⟩ := getRoot_spec h hok hx
  refine ⟨r, hr, e, ?_⟩
  rcases hd with rfl | hd
  · have : ancestors cfg db r = [] := by
      unfold ancestors
      rw [if_pos ((isRoot_iff h hok hr).2 hp)]
    simp [this]
  · have hd' := (desc_PF h hok hr hx).1 hd
    have hm : r ∈ ancestors cfg db x := (mem_ancestors h hok hx).2 ⟨hr, hd'.1, hd'.2⟩
    have hs := ancestors_sorted h hok hx
    have hdep : r.depth = 1 := by
      have := (isRoot_iff h hok hr).2 hp
      simpa [Row.isRoot] using this
    cases hl : ancestors cfg db x with
    | nil => rw [hl] at hm; simp at hm
    | cons a l =>
      rw [hl] at hm hs
      rw [List.pairwise_cons] at hs
      rcases List.mem_cons.1 hm with e1 | h1
      · simp [e1]
      · have h1 := hs.1 r h1
        have ha : a ∈ ancestors cfg db x := by rw [hl]; simp
        have ha := ((mem_ancestors h hok hx).1 ha).1
        have := h.depth a ha
        have h2 := (h.inv.len a ha).2
        have h3 : a.depth = 0 := by omega
        have h4 := hok.step
        rw [h3] at this
        omega

/-- **C10, single-node queries.** On every consistent tree and for every stored node, all navigation queries give what the
one forest (`get_root_nodes` and `get_children`) implies. -/
theorem C10_nav (hok : cfg.Ok) (h : Consistent cfg db) {x : Row} (hx : x ∈ db.rows) :
    NavSpec (forest cfg db) x.pk (mpNav cfg db x) := by
  have h := (consistent_iff hok).1 h
  have hp := h.toPInv
  rw [forest_eq h hok]
  have hch := children_PF hok h hx
  have hsib := siblings_PF hp hok hx
  refine ⟨⟨par cfg db.rows x, ?_, ?_, congrArg Except.ok hsib, ?_, ?_, ?_⟩, hch, ?_, ?_, ?_, isLeaf_iff h hx, ?_, ?_, ?_, ?_⟩
  · rcases par_mem (cfg := cfg) (db := db) (x := x) with e | ⟨p, hpm, e⟩
    · show (getParent cfg db x).map _ = _
      rw [getParent_root hp hok hx e, e]; rfl
    · show (getParent cfg db x).map _ = _
      rw [getParent_some hp hok hx hpm e, e]; rfl
  · exact (mem_PF hp).2 ⟨x, hx, rfl, rfl⟩
  · rw [← hsib]; simp [mpNav, firstSibling]
  · rw [← hsib]; simp [mpNav, lastSibling]
  · obtain ⟨l₁, l₂, e, h1, h2⟩ := neighbours hp hok hx
    exact ⟨l₁, l₂, e, congrArg Except.ok h2, congrArg Except.ok h1⟩
  · rw [← hch]; simp [mpNav, firstChild]
  · rw [← hch]; simp [mpNav, lastChild]
  · rw [mem_PF hp]
    rw [show (mpNav cfg db x).isRoot = x.isRoot from rfl, isRoot_iff hp hok hx]
    constructor
    · intro e; exact ⟨x, hx, e, rfl⟩
    · rintro ⟨r, hr, e, hk⟩; rwa [← hp.inv.pk_inj hr hx hk]
  · exact h.num x hx
  · obtain ⟨r, hr, e, hk⟩ := anc_of_getRoot hp hok hx
    refine ⟨_, rfl, ancestors_anc hp hok _ x (Nat.le_refl _) hx, ?_⟩
    rw [← hk]
    show (getRoot cfg db x).map Row.pk = _
    rw [e]; rfl
  · have hbr := getTree_branch h hok hx
    obtain ⟨l, e, hl⟩ := dfs_one hbr
    have hnd := getTree_pk_nodup hp (some x) none getTree_sub
    have hde : (descendants db x false none).map Row.pk = l := by
      rw [descendants_eq h hok hx (by simp)]
      have hfm := List.filter_map (p := fun k => !(k == x.pk)) (f := Row.pk) (l := getTree db (some x) none)
      refine Eq.trans (Eq.symm hfm) ?_
      rw [e] at hnd ⊢
      rw [List.nodup_cons] at hnd
      rw [List.filter_cons]
      simp only [beq_self_eq_true, Bool.not_true, Bool.false_eq_true, if_false]
      rw [List.filter_eq_self]
      intro k hk
      simp only [Bool.not_eq_true', beq_eq_false_iff_ne, ne_eq]
      rintro rfl
      exact hnd.1 hk
    refine ⟨l, ?_, hl, ?_, ?_, ?_⟩
    · show Except.ok _ = _
      rw [hde]
    · intro k
      rw [← hde, List.mem_map]
      constructor
      · rintro ⟨r, hr, rfl⟩; exact ((mem_descendants h hok hx (by simp)).1 hr).2.1
      · intro hd
        have hk : ∃ r ∈ db.rows, r.pk = k := by
          have : ∀ {k}, (PF cfg db.rows).Desc x.pk k → ∃ r ∈ db.rows, r.pk = k := by
            intro k hd
            cases hd with
            | child hm => obtain ⟨r, hr, _, e⟩ := (mem_PF hp).1 hm; exact ⟨r, hr, e⟩
            | step _ hm => obtain ⟨r, hr, _, e⟩ := (mem_PF hp).1 hm; exact ⟨r, hr, e⟩
          exact this hd
        obtain ⟨r, hr, rfl⟩ := hk
        exact ⟨r, (mem_descendants h hok hx (by simp)).2 ⟨hr, hd, by simp⟩, rfl⟩
    · rw [e, List.nodup_cons] at hnd; exact hnd.2
    · show Except.ok _ = Except.ok _
      rw [← hde, List.length_map]
      simp [descendantCount]
  · exact ⟨_, rfl, level_exists hp hok hx⟩

example : Consistent exCfg exDB ∧ (⟨3, [49, 51], 2, 1, []⟩ : Row) ∈ exDB.rows ∧
    (mpNav exCfg exDB ⟨3, [49, 51], 2, 1, []⟩).parent = .ok (some 1) ∧
    (mpNav exCfg exDB ⟨3, [49, 51], 2, 1, []⟩).siblings = .ok [2, 3] ∧
    (mpNav exCfg exDB ⟨3, [49, 51], 2, 1, []⟩).prev = .ok (some 2) ∧
    (mpNav exCfg exDB ⟨1, [49], 1, 2, []⟩).descendants = .ok [2, 3, 4] :=
  ⟨exDB_consistent, by decide, rfl, rfl, rfl, rfl⟩

/-- **C10, two-node queries.** -/
theorem C10_pair (hok : cfg.Ok) (h : Consistent cfg db) {x y : Row} (hx : x ∈ db.rows) (hy : y ∈ db.rows) :
    PairSpec (forest cfg db) x.pk y.pk (mpPair cfg x y) := by
  have h := (consistent_iff hok).1 h
  have hp := h.toPInv
  rw [forest_eq h hok]
  have key : ∀ {r : Row} {p : Option Nat}, r ∈ db.rows → (r.pk ∈ PF cfg db.rows p ↔ par cfg db.rows r = p) := by
    intro r p hr
    rw [mem_PF hp]
    constructor
    · rintro ⟨q, hq, e, hk⟩; rwa [← hp.inv.pk_inj hq hr hk]
    · intro e; exact ⟨r, hr, e, rfl⟩
  refine ⟨?_, ⟨_, rfl, isDescendantOf_PF hp hok hx hy⟩, ?_⟩
  · rw [key hx]; exact isChildOf_iff hp hok hx hy
  · refine ⟨_, rfl, (isSiblingOf_iff hp hok hx hy).trans ?_⟩
    constructor
    · intro e; exact ⟨_, (key hx).2 rfl, (key hy).2 e.symm⟩
    · rintro ⟨p, h1, h2⟩; rw [(key hx).1 h1, (key hy).1 h2]

/-- the depth that `max_depth` counts from -/
def topDepth : Option Row → Nat
  | none => 0
  | some q => q.depth

/-- **C11 for MP.** `get_tree(parent, max_depth)` on every consistent tree, with and without parent and limit. -/
theorem C11_mp (hok : cfg.Ok) (h : Consistent cfg db) {p : Option Row} (hp : ∀ q, p = some q → q ∈ db.rows) (m : Option Nat) :
    TreeListing (forest cfg db) (p.map Row.pk) m ((getTree db p (m.map Int.ofNat)).map Row.pk) := by
  have h := (consistent_iff hok).1 h
  rw [forest_eq h hok]
  refine ⟨(getTree db p none).map Row.pk, topDepth p, ?_,
    getTree_pk_nodup h.toPInv p none getTree_sub, ?_⟩
  · cases p with
    | none => exact ⟨getTree_all h.toPInv hok, rfl⟩
    | some q => exact ⟨getTree_branch h hok (hp q rfl), level_exists h.toPInv hok (hp q rfl)⟩
  · cases m with
    | none =>
      refine ⟨fun _ => true, by simp, ?_⟩
      intro k _; simp
    | some m =>
      have hl := getTree_limit h hok (p := p) hp (m := Int.ofNat m) (by simp)
      refine ⟨fun k => match db.get? k with | none => false | some r => decide (r.depth ≤ m + topDepth p), ?_, ?_⟩
      · rw [Option.map_some, hl, List.filter_map]
        congr 1
        apply List.filter_congr
        intro r hr
        simp only [Function.comp, (get?_eq_some h.inv).2 ⟨getTree_sub r hr, rfl⟩]
        congr 1
        cases p <;> simp [topDepth] <;> omega
      · intro k hk
        obtain ⟨r, hr, rfl⟩ := List.mem_map.1 hk
        have hr := getTree_sub r hr
        simp only [(get?_eq_some h.inv).2 ⟨hr, rfl⟩, decide_eq_true_eq, Option.some.injEq]
        constructor
        · rintro h1 n rfl
          exact ⟨r.depth, level_exists h.toPInv hok hr, by omega⟩
        · intro h1
          obtain ⟨lv, h2, h3⟩ := h1 m rfl
          have := (level_PF h.toPInv hok hr).1 h2
          omega

example : Consistent exCfg exDB ∧ (getTree exDB none none).map Row.pk = [1, 2, 3, 4, 5] ∧
    (getTree exDB (some ⟨1, [49], 1, 2, []⟩) (some 1)).map Row.pk = [1, 2, 3] := ⟨exDB_consistent, by decide, by decide⟩

end Verif
