/-
C25 and C11 for the nested sets backend.
-/
import Verif.Props.NSTree
import Verif.NS.Nav

namespace Verif.NS

variable {db : DB}

/-- the answers of the NS backend for the node `x` (without a cached parent) -/
def nsNav (db : DB) (x : Row) : NavAnswers where
  parent := (getParent db x none).map (fun o => o.map Row.pk)
  root := (getRoot db x).map Row.pk
  children := (children db x).map Row.pk
  siblings := (siblings db x).map (fun l => l.map Row.pk)
  ancestors := .ok ((ancestors db x).map Row.pk)
  descendants := .ok ((descendants db x false none).map Row.pk)
  firstChild := (firstChild db x).map Row.pk
  lastChild := (lastChild db x).map Row.pk
  firstSibling := (firstSibling db x).map (fun o => o.map Row.pk)
  lastSibling := (lastSibling db x).map (fun o => o.map Row.pk)
  prev := (prevSibling db x).map (fun o => o.map Row.pk)
  next := (nextSibling db x).map (fun o => o.map Row.pk)
  isRoot := x.isRoot
  isLeaf := x.isLeaf
  childrenCount := childrenCount db x
  descendantCount := .ok (descendantCount db x none)
  depth := .ok x.depth

/-- the answers of the NS backend for the pair `x`, `y` -/
def nsPair (db : DB) (x y : Row) : PairAnswers where
  childOf := isChildOf db x y
  descendantOf := .ok (x.isDescendantOf y)
  siblingOf := isSiblingOf db x y

theorem rows_pk_nodup {rows l : List Row} (h : NI rows) (hl : l.Pairwise lt) (hsub : ∀ r ∈ l, r ∈ rows) : (l.map Row.pk).Nodup := by
  rw [List.nodup_iff_pairwise_ne, List.pairwise_map]
  refine hl.imp_of_mem ?_
  intro a b ha hb hlt e
  rw [h.pk_inj (hsub a ha) (hsub b hb) e] at hlt
  exact lt_irrefl _ hlt

theorem key_iff (h : NI db.rows) {r : Row} {p : Option Nat} (hr : r ∈ db.rows) : r.pk ∈ PF db.rows p ↔ par db.rows r = p := by
  rw [mem_PF h]
  constructor
  · rintro ⟨q, hq, e, hk⟩; rwa [← h.pk_inj hq hr hk]
  · intro e; exact ⟨r, hr, e, rfl⟩

theorem getTree_sub {p : Option Row} {k : Option Int} : ∀ r ∈ getTree db p k, r ∈ db.rows := by
  intro r hr
  unfold getTree at hr
  split at hr
  · split at hr <;> exact (List.mem_filter.1 (mem_order.1 hr)).1
  · exact (List.mem_filter.1 (mem_order.1 hr)).1

/-- the descendants of a node, depth first -/
theorem descendants_dfs (h : NI db.rows) {x : Row} (hx : x ∈ db.rows) :
    (PF db.rows).DFS (PF db.rows (some x.pk)) ((descendants db x false none).map Row.pk) := by
  rw [← children_PF h hx]
  refine dfs_rows h (descendants_sorted h x false none) (children_sorted h x) (fun c hc => ((mem_children h hx).1 hc).1) ?_ ?_
  · intro a ha b hb
    have h1 := (mem_children h hx).1 ha
    have h2 := (mem_children h hx).1 hb
    exact sib_no_encl h h1.1 h2.1 (h1.2.trans h2.2.symm)
  · intro r
    rw [mem_descendants h hx]
    constructor
    · rintro ⟨hr, he, _⟩
      refine ⟨hr, ?_⟩
      have hd := (desc_PF h hx hr).2 he
      obtain ⟨c, hc, hcr⟩ := hd.cases_head
      obtain ⟨c', hc', hp, rfl⟩ := (mem_PF h).1 hc
      refine ⟨c', (mem_children h hx).2 ⟨hc', hp⟩, ?_⟩
      rcases hcr with e | hcr
      · exact Or.inl (h.pk_inj hr hc' e)
      · exact Or.inr ((desc_PF h hc' hr).1 hcr)
    · rintro ⟨hr, c, hc, hb⟩
      have h1 := (mem_children h hx).1 hc
      have hi : encl x c := (desc_PF h hx h1.1).1 (.child ((key_iff h h1.1).2 h1.2))
      refine ⟨hr, ?_, by simp⟩
      rcases hb with rfl | he
      · exact hi
      · exact encl_trans hi he

/-- **C25, single-node queries.** On every consistent tree and for every stored node, all navigation queries give what the
one forest (`get_root_nodes` and `get_children`) implies; `get_descendant_count` and `is_leaf`, computed from `lft` and
`rgt` alone, are exact. -/
theorem C25_nav (h : Consistent db) {x : Row} (hx : x ∈ db.rows) : NavSpec (forest db) x.pk (nsNav db x) := by
  have hn : NI db.rows := h.toNI
  rw [forest_eq hn]
  have hch := children_PF hn hx
  obtain ⟨sl, es, hss, hsm, hsp⟩ := siblings_spec hn hx
  have hxs : x ∈ sl := (hsm x).2 ⟨hx, rfl⟩
  have hsnd : (sl.map Row.pk).Nodup := rows_pk_nodup hn hss (fun r hr => ((hsm r).1 hr).1)
  refine ⟨⟨par db.rows x, ?_, (key_iff hn hx).2 rfl, ?_, ?_, ?_, ?_⟩, hch, ?_, ?_, ?_, ?_, ?_, ?_, ?_, ?_⟩
  · show (getParent db x none).map _ = _
    rcases getParent_spec hn hx with ⟨_, e, e'⟩ | ⟨_, p, _, e, e'⟩
    · rw [e', e]; rfl
    · rw [e', e]; rfl
  · show (siblings db x).map _ = _
    rw [es, ← hsp]; rfl
  · show ((siblings db x).map _).map _ = _
    rw [es, ← hsp]; simp [Except.map]
  · show ((siblings db x).map _).map _ = _
    rw [es, ← hsp]; simp [Except.map]
  · obtain ⟨l₁, l₂, e⟩ := List.append_of_mem hxs
    rw [e] at hsnd
    refine ⟨l₁.map Row.pk, l₂.map Row.pk, by rw [← hsp, e]; simp, ?_, ?_⟩
    · show (prevSibling db x).map _ = _
      unfold prevSibling
      rw [es, e]
      simp only
      rw [prevIn_split hsnd, List.getLast?_map]; rfl
    · show (nextSibling db x).map _ = _
      unfold nextSibling
      rw [es, e]
      simp only
      rw [nextIn_split hsnd, List.head?_map]; rfl
  · rw [← hch]; simp [nsNav, firstChild]
  · rw [← hch]; simp [nsNav, lastChild]
  · rw [key_iff hn hx, par_eq_none hn hx]
    simp [nsNav, Row.isRoot]
  · have hc := count_encl h hx
    have hd : PF db.rows (some x.pk) = [] ↔ (db.rows.filter (fun r => decide (encl x r))).length = 0 := by
      rw [List.length_eq_zero_iff, List.filter_eq_nil_iff, List.eq_nil_iff_forall_not_mem]
      constructor
      · intro he r hr hxr
        obtain ⟨c, hc, _⟩ := ((desc_PF hn hx hr).2 (of_decide_eq_true hxr)).cases_head
        exact he _ hc
      · intro he k hk
        obtain ⟨r, hr, hp, rfl⟩ := (mem_PF hn).1 hk
        exact he r hr (decide_eq_true ((desc_PF hn hx hr).1 (.child ((key_iff hn hr).2 hp))))
    rw [hd]
    show (x.rgt - x.lft == 1) = true ↔ _
    rw [beq_iff_eq]
    omega
  · show ((children db x).length : Int) = _
    rw [← hch, List.length_map]
  · obtain ⟨q, e, hk⟩ := getRoot_spec hn hx
    refine ⟨_, rfl, (ancestors_anc hn _ x hx rfl).1, ?_⟩
    show (getRoot db x).map Row.pk = _
    rw [e, ← hk]; rfl
  · refine ⟨_, rfl, descendants_dfs hn hx, ?_, ?_, ?_⟩
    · intro k
      rw [List.mem_map]
      constructor
      · rintro ⟨r, hr, rfl⟩
        have := (mem_descendants hn hx).1 hr
        exact (desc_PF hn hx this.1).2 this.2.1
      · intro hd
        obtain ⟨r, hr, rfl, he⟩ := desc_row hn hx hd
        exact ⟨r, (mem_descendants hn hx).2 ⟨hr, he, by simp⟩, rfl⟩
    · exact rows_pk_nodup hn (descendants_sorted hn x false none) (fun r hr => ((mem_descendants hn hx).1 hr).1)
    · show Except.ok _ = Except.ok _
      rw [List.length_map, descendants_length hn hx]
      have hc := count_encl h hx
      unfold descendantCount
      simp only
      rw [hc]
      push_cast
      rw [Rat.div_def, Rat.mul_comm 2 _, Rat.mul_assoc, Rat.mul_inv_cancel 2 (by decide), Rat.mul_one]
  · obtain ⟨n, e, hl⟩ := level_depth hn hx
    exact ⟨n, by rw [← e]; rfl, hl⟩

example : Consistent exDB ∧ (⟨3, 1, 4, 7, 2, []⟩ : Row) ∈ exDB.rows ∧
    (nsNav exDB ⟨3, 1, 4, 7, 2, []⟩).parent = .ok (some 1) ∧
    (nsNav exDB ⟨3, 1, 4, 7, 2, []⟩).siblings = .ok [2, 3] ∧
    (nsNav exDB ⟨3, 1, 4, 7, 2, []⟩).prev = .ok (some 2) ∧
    (nsNav exDB ⟨1, 1, 1, 8, 1, []⟩).descendants = .ok [2, 3, 4] ∧
    descendantCount exDB ⟨1, 1, 1, 8, 1, []⟩ none = (6 : Int) / 2 :=
  ⟨exDB_inv, by decide, rfl, rfl, rfl, rfl, rfl⟩

/-- **C25, two-node queries.** -/
theorem C25_pair (h : Consistent db) {x y : Row} (hx : x ∈ db.rows) (hy : y ∈ db.rows) :
    PairSpec (forest db) x.pk y.pk (nsPair db x y) := by
  have hn : NI db.rows := h.toNI
  rw [forest_eq hn]
  have hany : ∀ {l : List Row} {r : Row}, (l.any (·.pk == r.pk)) = true ↔ r.pk ∈ l.map Row.pk := by
    intro l r
    rw [List.any_eq_true, List.mem_map]
    simp only [beq_iff_eq]
  refine ⟨?_, ⟨_, rfl, ?_⟩, ?_⟩
  · show isChildOf db x y = true ↔ _
    unfold isChildOf
    rw [hany, children_PF hn hy]
  · rw [isDescendantOf_iff, desc_PF hn hy hx]
  · obtain ⟨sl, es, _, _, hsp⟩ := siblings_spec hn hx
    refine ⟨sl.any (·.pk == y.pk), ?_, ?_⟩
    · show isSiblingOf db x y = _
      unfold isSiblingOf
      rw [es]; rfl
    · rw [hany, hsp]
      constructor
      · intro hm; exact ⟨_, (key_iff hn hx).2 rfl, hm⟩
      · rintro ⟨p, h1, h2⟩
        rw [(key_iff hn hx).1 h1]; exact h2

example : Consistent exDB ∧ (nsPair exDB ⟨4, 1, 5, 6, 3, []⟩ ⟨3, 1, 4, 7, 2, []⟩).childOf = true ∧
    (nsPair exDB ⟨4, 1, 5, 6, 3, []⟩ ⟨1, 1, 1, 8, 1, []⟩).descendantOf = .ok true ∧
    (nsPair exDB ⟨1, 1, 1, 8, 1, []⟩ ⟨5, 2, 1, 2, 1, []⟩).siblingOf = .ok true := ⟨exDB_inv, rfl, rfl, rfl⟩

/-- **C25, limited counts.** `get_descendant_count(max_depth=k)` counts the descendants at most `k` levels below. -/
theorem C25_count (h : Consistent db) {x : Row} (hx : x ∈ db.rows) {k : Nat} (hk : 0 < k) :
    ∃ l : List Nat, descendantCount db x (some k) = (l.length : Rat) ∧ l.Nodup ∧
      ∀ y, y ∈ l ↔ (forest db).Desc x.pk y ∧ ∃ a b, (forest db).Level x.pk a ∧ (forest db).Level y b ∧ b ≤ a + k := by
  have hn : NI db.rows := h.toNI
  rw [forest_eq hn]
  refine ⟨(descendants db x false (some k)).map Row.pk, ?_, ?_, ?_⟩
  · unfold descendantCount
    simp only
    rw [if_neg (by omega), List.length_map]
  · exact rows_pk_nodup hn (descendants_sorted hn x false _) (fun r hr => ((mem_descendants hn hx).1 hr).1)
  · intro y
    rw [List.mem_map]
    constructor
    · rintro ⟨r, hr, rfl⟩
      obtain ⟨h1, h2, h3⟩ := (mem_descendants hn hx).1 hr
      obtain ⟨a, ea, la⟩ := level_depth hn hx
      obtain ⟨b, eb, lb⟩ := level_depth hn h1
      refine ⟨(desc_PF hn hx h1).2 h2, a, b, la, lb, ?_⟩
      have := h3 k rfl
      omega
    · rintro ⟨hd, a, b, la, lb, hab⟩
      obtain ⟨r, hr, rfl, he⟩ := desc_row hn hx hd
      have h1 := level_unique hn hx la
      have h2 := level_unique hn hr lb
      refine ⟨r, (mem_descendants hn hx).2 ⟨hr, he, ?_⟩, rfl⟩
      intro j hj
      cases hj
      right
      omega

example : Consistent exDB ∧ descendantCount exDB ⟨1, 1, 1, 8, 1, []⟩ (some 1) = 2 := ⟨exDB_inv, by decide⟩

/-- the depth that `max_depth` counts from -/
def topDepth : Option Row → Int
  | none => 0
  | some q => q.depth

/-- **C11 for NS.** `get_tree(parent, max_depth)` on every consistent tree, with and without parent and limit; the limit 0
means no limit in this backend. -/
theorem C11_ns (h : Consistent db) {p : Option Row} (hp : ∀ q, p = some q → q ∈ db.rows) (m : Option Nat)
    (hm : m ≠ some 0) :
    TreeListing (forest db) (p.map Row.pk) m ((getTree db p (m.map Int.ofNat)).map Row.pk) := by
  have hn : NI db.rows := h.toNI
  rw [forest_eq hn]
  have hbase : ∃ base : Nat, topDepth p = base ∧
      (p = none → (PF db.rows).DFS (PF db.rows none) ((getTree db p none).map Row.pk) ∧ base = 0) ∧
      ∀ q, p = some q → (PF db.rows).DFS [q.pk] ((getTree db p none).map Row.pk) ∧ (PF db.rows).Level q.pk base := by
    cases p with
    | none => exact ⟨0, rfl, fun _ => ⟨getTree_all hn, rfl⟩, fun q e => by cases e⟩
    | some q =>
      obtain ⟨n, e, hl⟩ := level_depth hn (hp q rfl)
      exact ⟨n, e, fun e => (by cases e), fun q' e => by cases e; exact ⟨getTree_branch hn (hp q rfl), hl⟩⟩
  obtain ⟨base, eb, hb1, hb2⟩ := hbase
  refine ⟨(getTree db p none).map Row.pk, base, by cases p with | none => exact hb1 rfl | some q => exact hb2 q rfl, rows_pk_nodup hn (getTree_sorted hn p none) getTree_sub, ?_⟩
  cases m with
  | none =>
    refine ⟨fun _ => true, by simp, ?_⟩
    intro k _; simp
  | some m =>
    have hm : 0 < m := Nat.pos_of_ne_zero (fun e => hm (by rw [e]))
    have hl := getTree_limit hn (p := p) hp (m := Int.ofNat m) (by simpa using hm)
    refine ⟨fun k => match db.get? k with | none => false | some r => decide (r.depth ≤ m + topDepth p), ?_, ?_⟩
    · rw [Option.map_some, hl, List.filter_map]
      congr 1
      apply List.filter_congr
      intro r hr
      simp only [Function.comp, (get?_eq_some hn).2 ⟨getTree_sub r hr, rfl⟩]
      cases p <;> rfl
    · intro k hk
      obtain ⟨r, hr, rfl⟩ := List.mem_map.1 hk
      have hr := getTree_sub r hr
      simp only [(get?_eq_some hn).2 ⟨hr, rfl⟩, decide_eq_true_eq, Option.some.injEq]
      constructor
      · rintro h1 n rfl
        obtain ⟨lv, e, hl⟩ := level_depth hn hr
        exact ⟨lv, hl, by omega⟩
      · intro h1
        obtain ⟨lv, h2, h3⟩ := h1 m rfl
        have := level_unique hn hr h2
        omega

example : Consistent exDB ∧ (getTree exDB none none).map Row.pk = [1, 2, 3, 4, 5] ∧
    (getTree exDB (some ⟨1, 1, 1, 8, 1, []⟩) (some 1)).map Row.pk = [1, 2, 3] := ⟨exDB_inv, by decide, by decide⟩

end Verif.NS
