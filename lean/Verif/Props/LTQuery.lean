/-
C37 (queries) and C11 for the ltree backend.
-/
import Verif.Props.LTTree
import Verif.Props.MPQuery

namespace Verif.LT

variable {db : DB}

/-- the answers of the LT backend for the node `x` -/
def ltNav (db : DB) (x : Row) : NavAnswers where
  parent := (getParent db x).map (fun o => o.map Row.pk)
  root := (getRoot db x).map Row.pk
  children := (children db x).map Row.pk
  siblings := .ok ((siblings db x).map Row.pk)
  ancestors := .ok ((ancestors db x).map Row.pk)
  descendants := .ok ((descendants db x false none).map Row.pk)
  firstChild := (firstChild db x).map Row.pk
  lastChild := (lastChild db x).map Row.pk
  firstSibling := .ok ((firstSibling db x).map Row.pk)
  lastSibling := .ok ((lastSibling db x).map Row.pk)
  prev := .ok ((prevSibling db x).map Row.pk)
  next := .ok ((nextSibling db x).map Row.pk)
  isRoot := x.isRoot
  isLeaf := isLeaf db x
  childrenCount := childrenCount db x
  descendantCount := .ok (descendantCount db x : Int)
  depth := .ok x.depth

/-- the answers of the LT backend for the pair `x`, `y` -/
def ltPair (x y : Row) : PairAnswers where
  childOf := x.isChildOf y
  descendantOf := .ok (x.isDescendantOf y)
  siblingOf := .ok (x.isSiblingOf y)

theorem par_mem {x : Row} : par db.rows x = none ∨ ∃ p ∈ db.rows, par db.rows x = some p.pk := by
  cases hp : par db.rows x with
  | none => exact Or.inl rfl
  | some k =>
    right
    obtain ⟨p, hm, e⟩ := Option.map_eq_some_iff.1 hp
    exact ⟨p, List.mem_of_find?_eq_some hm, by rw [e]⟩

/-- **C37, single-node queries.** On every consistent tree and for every stored node, all navigation queries give what the
one forest (`get_root_nodes` and `get_children`) implies. -/
theorem C37_nav (h : Consistent db) {x : Row} (hx : x ∈ db.rows) : NavSpec (forest db) x.pk (ltNav db x) := by
  have hp := h.inv.inv
  rw [forest_eq hp]
  have hch := children_PF hp hx
  have hsib := siblings_PF hp hx
  refine ⟨⟨par db.rows x, ?_, ?_, congrArg Except.ok hsib, ?_, ?_, ?_⟩, hch, ?_, ?_, ?_, ?_, ?_, ?_, ?_, ?_⟩
  · rcases par_mem (db := db) (x := x) with e | ⟨p, hpm, e⟩
    · show (getParent db x).map _ = _
      rw [getParent_root hp hx e, e]; rfl
    · show (getParent db x).map _ = _
      rw [getParent_some hp hpm e, e]; rfl
  · exact (mem_PF hp).2 ⟨x, hx, rfl, rfl⟩
  · rw [← hsib]; simp [ltNav, firstSibling]
  · rw [← hsib]; simp [ltNav, lastSibling]
  · obtain ⟨l₁, l₂, e, h1, h2⟩ := neighbours hp hx
    exact ⟨l₁, l₂, e, congrArg Except.ok h2, congrArg Except.ok h1⟩
  · rw [← hch]; simp [ltNav, firstChild]
  · rw [← hch]; simp [ltNav, lastChild]
  · rw [mem_PF hp]
    rw [show (ltNav db x).isRoot = x.isRoot from rfl, isRoot_iff hp hx]
    constructor
    · intro e; exact ⟨x, hx, e, rfl⟩
    · rintro ⟨r, hr, e, hk⟩; rwa [← hp.pk_inj hr hx hk]
  · rw [← hch]; simp [ltNav, isLeaf]
  · rw [← hch]; simp [ltNav, childrenCount]
  · obtain ⟨r, hr, e, hl, hpre⟩ := getRoot_spec hp hx
    refine ⟨_, rfl, ancestors_anc hp _ x (Nat.le_refl _) hx, ?_⟩
    rw [← root_headD hp hx hr hl hpre]
    show (getRoot db x).map Row.pk = _
    rw [e]; rfl
  · have hbr := getTree_branch hp hx
    obtain ⟨l, e, hl⟩ := dfs_one hbr
    have hnd := getTree_pk_nodup hp (some x) none
    have hde : (descendants db x false none).map Row.pk = l := by
      unfold descendants
      simp only [Bool.false_eq_true, if_false]
      have hfm := List.filter_map (p := fun k => k != x.pk) (f := Row.pk) (l := getTree db (some x) none)
      refine Eq.trans (Eq.symm hfm) ?_
      rw [e] at hnd ⊢
      rw [List.nodup_cons] at hnd
      rw [List.filter_cons]
      simp only [bne_self_eq_false, Bool.false_eq_true, if_false]
      rw [List.filter_eq_self]
      intro k hk
      simp only [bne_iff_ne, ne_eq]
      rintro rfl
      exact hnd.1 hk
    refine ⟨l, ?_, hl, ?_, ?_, ?_⟩
    · show Except.ok _ = _
      rw [hde]
    · intro k
      rw [← hde, List.mem_map]
      constructor
      · rintro ⟨r, hr, rfl⟩; exact ((mem_descendants hp hx).1 hr).2
      · intro hd
        have hk : ∃ r ∈ db.rows, r.pk = k := by
          cases hd with
          | child hm => obtain ⟨r, hr, _, e⟩ := (mem_PF hp).1 hm; exact ⟨r, hr, e⟩
          | step _ hm => obtain ⟨r, hr, _, e⟩ := (mem_PF hp).1 hm; exact ⟨r, hr, e⟩
        obtain ⟨r, hr, rfl⟩ := hk
        exact ⟨r, (mem_descendants hp hx).2 ⟨hr, hd⟩, rfl⟩
    · rw [e, List.nodup_cons] at hnd; exact hnd.2
    · show Except.ok _ = Except.ok _
      rw [← hde, List.length_map]
      simp [descendantCount]
  · exact ⟨_, rfl, level_exists hp hx⟩

example : Consistent exDB ∧ (⟨3, [[65], [66]], []⟩ : Row) ∈ exDB.rows ∧
    (ltNav exDB ⟨3, [[65], [66]], []⟩).parent = .ok (some 1) ∧
    (ltNav exDB ⟨3, [[65], [66]], []⟩).siblings = .ok [2, 3] ∧
    (ltNav exDB ⟨3, [[65], [66]], []⟩).prev = .ok (some 2) ∧
    (ltNav exDB ⟨1, [[65]], []⟩).descendants = .ok [2, 3, 4] :=
  ⟨consistent_iff.2 exDB_inv, by decide, rfl, rfl, rfl, rfl⟩

/-- **C37, two-node queries.** -/
theorem C37_pair (h : Consistent db) {x y : Row} (hx : x ∈ db.rows) (hy : y ∈ db.rows) :
    PairSpec (forest db) x.pk y.pk (ltPair x y) := by
  have hp := h.inv.inv
  refine ⟨?_, ⟨_, rfl, ?_⟩, ⟨_, rfl, ?_⟩⟩
  · rw [mem_forest hp hx, par_eq_some hp hy]
    simp [ltPair, Row.isChildOf]
  · rw [forest_eq hp]
    exact isDescendantOf_iff hp hy hx
  · simp only [Row.isSiblingOf, beq_iff_eq]
    rw [← par_iff_dropLast hp hx hy]
    constructor
    · intro e; exact ⟨_, (mem_forest hp hx).2 rfl, (mem_forest hp hy).2 e.symm⟩
    · rintro ⟨p, h1, h2⟩; rw [(mem_forest hp hx).1 h1, (mem_forest hp hy).1 h2]

/-- **C11 for LT.** `get_tree(parent, max_depth)` on every consistent tree, with and without parent and limit.  `max_depth=0` means no
limit (`if max_depth`). -/
theorem C11_lt (h : Consistent db) {p : Option Row} (hp : ∀ q, p = some q → q ∈ db.rows) (m : Option Nat) (hm : m ≠ some 0) :
    TreeListing (forest db) (p.map Row.pk) m ((getTree db p (m.map Int.ofNat)).map Row.pk) := by
  have h := h.inv.inv
  rw [forest_eq h]
  refine ⟨(getTree db p none).map Row.pk, topLen p, ?_, getTree_pk_nodup h p none, ?_⟩
  · cases p with
    | none => exact ⟨getTree_all h, rfl⟩
    | some q => exact ⟨getTree_branch h (hp q rfl), level_exists h (hp q rfl)⟩
  · cases m with
    | none =>
      refine ⟨fun _ => true, by simp, ?_⟩
      intro k _; simp
    | some m =>
      have hl := getTree_limit h p (m := Int.ofNat m) (by intro e; exact hm (by congr; exact Int.ofNat_eq_zero.1 e))
      refine ⟨fun k => match db.get? k with | none => false | some r => decide (r.path.length ≤ m + topLen p), ?_, ?_⟩
      · rw [Option.map_some, hl, List.filter_map]
        congr 1
        apply List.filter_congr
        intro r hr
        simp only [Function.comp, (get?_eq_some h).2 ⟨getTree_sub r hr, rfl⟩]
        congr 1
        simp only [Int.ofNat_eq_natCast, eq_iff_iff]
        omega
      · intro k hk
        obtain ⟨r, hr, rfl⟩ := List.mem_map.1 hk
        have hr := getTree_sub r hr
        simp only [(get?_eq_some h).2 ⟨hr, rfl⟩, decide_eq_true_eq, Option.some.injEq]
        constructor
        · rintro h1 n rfl
          exact ⟨r.path.length, level_exists h hr, by omega⟩
        · intro h1
          obtain ⟨lv, h2, h3⟩ := h1 m rfl
          have := (level_PF h hr).1 h2
          omega

example : Consistent exDB ∧ (getTree exDB none none).map Row.pk = [1, 2, 3, 4, 5] ∧
    (getTree exDB (some ⟨1, [[65]], []⟩) (some 1)).map Row.pk = [1, 2, 3] := ⟨consistent_iff.2 exDB_inv, by decide, by decide⟩

/-- `max_depth=0` means no limit. -/
theorem C11_lt_zero (p : Option Row) : getTree db p (some 0) = getTree db p none := by
  unfold getTree; simp

end Verif.LT
