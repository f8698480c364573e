/-
C32, and C11 for AL: the queries of the adjacency list backend.
-/
import Verif.Props.ALTree

namespace Verif.AL

variable {cfg : Cfg} {db : DB}

/-- the answers of the AL backend for a freshly fetched node `x` (nothing cached) -/
def alNav (cfg : Cfg) (db : DB) (x : Row) : NavAnswers where
  parent := (getParent db x).map (fun o => o.map Row.pk)
  root := (getRoot db x).map Row.pk
  children := (children cfg db x).map Row.pk
  siblings := .ok ((siblings cfg db x).map Row.pk)
  ancestors := (ancestors db x).map (fun l => l.map Row.pk)
  descendants := (descendants cfg db x none false none).map keys
  firstChild := (firstChild cfg db x).map Row.pk
  lastChild := (lastChild cfg db x).map Row.pk
  firstSibling := .ok ((firstSibling cfg db x).map Row.pk)
  lastSibling := .ok ((lastSibling cfg db x).map Row.pk)
  prev := (prevSibling cfg db x).map (fun o => o.map Row.pk)
  next := (nextSibling cfg db x).map (fun o => o.map Row.pk)
  isRoot := x.isRoot
  isLeaf := isLeaf cfg db x
  childrenCount := childrenCount cfg db x
  descendantCount := (descendantCount cfg db x none none).map (fun n => (n : Rat))
  depth := getDepth db x none

/-- the answers of the AL backend for the pair `x`, `y` -/
def alPair (cfg : Cfg) (db : DB) (x y : Row) : PairAnswers where
  childOf := x.isChildOf y
  descendantOf := isDescendantOf cfg db x y none
  siblingOf := .ok (x.isSiblingOf y)

theorem PF_dfs_nodup {rows : List Row} (h : AI rows) {p : Option Nat} {l : List Nat} (hd : (PF cfg rows).DFS (PF cfg rows p) l) : l.Nodup :=
  hd.nodup (fun _ _ _ h1 h2 => PF_parent_unique h h1 h2) (desc_irrefl h) (PF_nodup h) (PF_nodup h p)
    (fun _ ha _ hb => Forest.sib_not_desc (fun _ _ _ h1 h2 => PF_parent_unique h h1 h2) (desc_irrefl h) ha hb)

/-- the parts that do not depend on positions -/
theorem nav_core (h : AI db.rows) {x : Row} (hx : x ∈ db.rows) {prev next : Except Err (Option Nat)}
    (hpn : ∃ l₁ l₂, PF cfg db.rows x.parent = l₁ ++ x.pk :: l₂ ∧ prev = .ok l₁.getLast? ∧ next = .ok l₂.head?) :
    NavSpec (PF cfg db.rows) x.pk { alNav cfg db x with prev := prev, next := next } := by
  have hch := children_PF (cfg := cfg) db x
  have hsib : (siblings cfg db x).map Row.pk = PF cfg db.rows x.parent := by rw [siblings_eq]; rfl
  obtain ⟨l, hc⟩ := chain_exists h hx
  refine ⟨⟨x.parent, ?_, (key_iff h hx).2 rfl, ?_, ?_, ?_, hpn⟩, hch, ?_, ?_, ?_, ?_, ?_, ?_, ?_, ?_⟩
  · show (getParent db x).map _ = _
    rcases getParent_spec h hx with ⟨e, e'⟩ | ⟨p, _, e, e'⟩
    · rw [e', e]; rfl
    · rw [e', e]; rfl
  · exact congrArg Except.ok hsib
  · rw [← hsib, List.head?_map]; rfl
  · rw [← hsib, List.getLast?_map]; rfl
  · rw [← hch, List.head?_map]; rfl
  · rw [← hch, List.getLast?_map]; rfl
  · rw [key_iff h hx]
    show x.parent.isNone = true ↔ _
    rw [Option.isNone_iff_eq_none]
  · show isLeaf cfg db x = true ↔ _
    rw [isLeaf_iff, List.eq_nil_iff_forall_not_mem]
    constructor
    · intro hall k hk
      obtain ⟨r, hr, hp, _⟩ := mem_PF.1 hk
      exact hall r hr hp
    · intro hall r hr hp
      exact hall r.pk (mem_PF.2 ⟨r, hr, hp, rfl⟩)
  · rw [← hch, List.length_map]; rfl
  · refine ⟨l.map Row.pk, ?_, hc.anc, ?_⟩
    · show (ancestors db x).map _ = _
      rw [ancestors_spec h hc]; rfl
    · show (getRoot db x).map _ = _
      unfold getRoot
      rw [ancestors_spec h hc]
      cases l <;> rfl
  · obtain ⟨L, e, hd⟩ := descendants_spec (cfg := cfg) h hx none
    refine ⟨keys L, ?_, hd, ?_, PF_dfs_nodup h hd, ?_⟩
    · show (descendants cfg db x none false none).map _ = _
      rw [e]; rfl
    · intro k
      rw [hd.mem]
      constructor
      · rintro ⟨c, hc, rfl | h2⟩
        · exact .child hc
        · exact Forest.Desc.trans (.child hc) h2
      · intro hk
        obtain ⟨c, hc, h2⟩ := hk.cases_head
        exact ⟨c, hc, h2⟩
    · simp only [alNav, descendantCount]
      rw [e]
      simp [Except.map, keys]
      rfl
  · exact ⟨_, by show getDepth db x none = _; rw [getDepth_spec h hc]; simp, hc.level⟩

/-- **C32, single-node queries**, for every well-formed table, with or without `node_order_by` and equal siblings: all navigation
queries terminate and give what the one forest (`get_root_nodes` and `get_children`) implies.  The two
queries left out are the subject of the next theorems. -/
theorem C32_nav_partial (h : Wf cfg db) {x : Row} (hx : x ∈ db.rows) :
    ∃ prev next, NavSpec (forest cfg db) x.pk { alNav cfg db x with prev := prev, next := next } := by
  have hai := h.ai
  rw [forest_eq hai]
  obtain ⟨l₁, l₂, e⟩ := List.append_of_mem ((key_iff (cfg := cfg) hai hx).2 rfl)
  exact ⟨_, _, nav_core hai hx ⟨l₁, l₂, e, rfl, rfl⟩⟩

/-- **C32, single-node queries**, without `node_order_by`: all of them. -/
theorem C32_nav (ho : cfg.ordered = false) (h : Consistent cfg db) {x : Row} (hx : x ∈ db.rows) :
    NavSpec (forest cfg db) x.pk (alNav cfg db x) := by
  have hi := h.inv ho
  rw [forest_eq hi.toAI]
  refine nav_core hi.toAI hx ?_
  have hs : order cfg (withParent db x.parent) = siblings cfg db x := (siblings_eq x).symm
  have hsort := order_sorted hi x.parent
  have hxm : x ∈ order cfg (withParent db x.parent) := mem_order.2 (mem_withParent.2 ⟨hx, rfl⟩)
  obtain ⟨l₁, l₂, e⟩ := List.append_of_mem hxm
  rw [e, List.pairwise_append, List.pairwise_cons] at hsort
  have h1 : ∀ a ∈ l₁, a.sib < x.sib := fun a ha => (lt_plain ho).1 (hsort.2.2 a ha x (by simp))
  have h2 : ∀ b ∈ l₂, x.sib < b.sib := fun b hb => (lt_plain ho).1 (hsort.2.1.1 b hb)
  refine ⟨l₁.map Row.pk, l₂.map Row.pk, ?_, ?_, ?_⟩
  · show (order cfg (withParent db x.parent)).map Row.pk = _
    rw [e]; simp
  · show (prevSibling cfg db x).map _ = _
    unfold prevSibling
    rw [ho, ← hs, e, if_neg (by simp), List.filter_append, List.filter_cons_of_neg (by simp),
      List.filter_eq_self.2 (fun a ha => decide_eq_true (h1 a ha)),
      List.filter_eq_nil_iff.2 (fun b hb => by have := h2 b hb; simp; omega), List.append_nil, List.getLast?_map]
    rfl
  · show (nextSibling cfg db x).map _ = _
    unfold nextSibling
    rw [ho, ← hs, e, if_neg (by simp), List.filter_append, List.filter_cons_of_neg (by simp),
      List.filter_eq_nil_iff.2 (fun a ha => by have := h1 a ha; simp; omega),
      List.filter_eq_self.2 (fun b hb => decide_eq_true (h2 b hb)), List.nil_append, List.head?_map]
    rfl

/-- **With `node_order_by` the two queries raise** for every node of every table: they filter by `sib_order`, which such a
model does not have. -/
theorem C32_sorted_prev_next_raise (ho : cfg.ordered = true) (db : DB) (x : Row) :
    prevSibling cfg db x = .error .attributeError ∧ nextSibling cfg db x = .error .attributeError := by
  simp [prevSibling, nextSibling, ho]

example : Consistent exPlain exDB ∧ (⟨3, some 1, 4, []⟩ : Row) ∈ exDB.rows ∧
    (alNav exPlain exDB ⟨3, some 1, 4, []⟩).siblings = .ok [2, 3] ∧
    (alNav exPlain exDB ⟨3, some 1, 4, []⟩).prev = .ok (some 2) ∧
    (alNav exPlain exDB ⟨4, some 3, 1, []⟩).ancestors = .ok [1, 3] ∧
    (alNav exPlain exDB ⟨4, some 3, 1, []⟩).depth = .ok 3 ∧
    (alNav exPlain exDB ⟨1, none, 2, []⟩).descendants = .ok [2, 3, 4] :=
  ⟨consistent_of_inv rfl exDB_inv, by decide, rfl, rfl, rfl, rfl, rfl⟩

/-- **C32, two-node queries.** -/
theorem C32_pair (h : Wf cfg db) {x y : Row} (hx : x ∈ db.rows) (hy : y ∈ db.rows) :
    PairSpec (forest cfg db) x.pk y.pk (alPair cfg db x y) := by
  have hai := h.ai
  rw [forest_eq hai]
  refine ⟨?_, ?_, _, rfl, ?_⟩
  · rw [key_iff hai hx]
    show (x.parent == some y.pk) = true ↔ _
    rw [beq_iff_eq]
  · exact isDescendantOf_spec hai hy x none
  · show (x.parent == y.parent) = true ↔ _
    rw [beq_iff_eq]
    constructor
    · intro e; exact ⟨x.parent, (key_iff hai hx).2 rfl, (key_iff hai hy).2 e.symm⟩
    · rintro ⟨p, h1, h2⟩
      rw [(key_iff hai hx).1 h1, (key_iff hai hy).1 h2]

example : Wf exPlain exDB ∧ (alPair exPlain exDB ⟨4, some 3, 1, []⟩ ⟨3, some 1, 4, []⟩).childOf = true ∧
    (alPair exPlain exDB ⟨4, some 3, 1, []⟩ ⟨1, none, 2, []⟩).descendantOf = .ok true ∧
    (alPair exPlain exDB ⟨1, none, 2, []⟩ ⟨4, some 3, 1, []⟩).descendantOf = .ok false ∧
    (alPair exPlain exDB ⟨1, none, 2, []⟩ ⟨5, none, 3, []⟩).siblingOf = .ok true :=
  ⟨wf_of_ai exDB_inv.toAI, rfl, rfl, rfl, rfl⟩

/-- **C11 for AL**, and C32 for `get_tree`: the listing, and the depth of every listed node.  The limit 0 means no limit in
this backend. -/
theorem C11_al (h : Wf cfg db) {p : Option Row} (hp : ∀ q, p = some q → q ∈ db.rows) (m : Option Nat) (hm : m ≠ some 0) :
    ∃ L, getTree cfg db (p.map (fun q => (q, none))) (m.map Int.ofNat) = .ok L ∧
      TreeListing (forest cfg db) (p.map Row.pk) m (L.map (fun e => e.1.pk)) ∧
      ∀ e ∈ L, ∃ n : Nat, e.2 = n ∧ (forest cfg db).Level e.1.pk n := by
  have hai := h.ai
  rw [forest_eq hai]
  -- the full listing
  have key : ∃ L base, getTree cfg db (p.map (fun q => (q, none))) none = .ok L ∧
      (match p.map Row.pk with
        | none => (PF cfg db.rows).DFS (PF cfg db.rows none) (keys L) ∧ base = 0
        | some k => (PF cfg db.rows).DFS [k] (keys L) ∧ (PF cfg db.rows).Level k base) ∧ (keys L).Nodup ∧
      (∀ e ∈ L, ∃ n : Nat, e.2 = n ∧ (PF cfg db.rows).Level e.1.pk n) ∧
      ∀ m : Nat, m ≠ 0 → getTree cfg db (p.map (fun q => (q, none))) (some (m : Int)) =
        .ok (L.filter (fun e => decide (e.2 ≤ base + m))) := by
    cases p with
    | none =>
      obtain ⟨L, e, hd, hq⟩ := treeRec_none (cfg := cfg) hai
      refine ⟨L, 0, by simpa [getTree] using e, ⟨hd, rfl⟩, PF_dfs_nodup hai hd, ?_, ?_⟩
      · intro x hx
        obtain ⟨l, hc, _, e⟩ := hq x hx
        exact ⟨l.length + 1, by rw [e]; push_cast; omega, hc.level⟩
      · intro m hm
        have := treeRec_limit (m := (m : Int)) (by omega) _ _ _ _ e
        simp only [Option.map_none, getTree]
        rw [this]
        congr 2
        funext x
        simp
    | some q =>
      have hq := hp q rfl
      obtain ⟨l, hc⟩ := chain_exists hai hq
      obtain ⟨L, e, hd, hdep, hlim⟩ := getTree_some (cfg := cfg) hai hc (getDepth_spec hai hc)
      have hdd : (PF cfg db.rows).DFS [q.pk] (keys ((q, ((l.length : Int) + 1)) :: L)) := by
        rw [keys_cons]
        have := Forest.DFS.cons hd (Forest.DFS.nil (F := PF cfg db.rows))
        rwa [List.append_nil] at this
      have hnd := hdd.nodup (fun _ _ _ h1 h2 => PF_parent_unique hai h1 h2) (desc_irrefl hai) (PF_nodup hai) (by simp)
        (fun a ha b hb => by
          rw [List.mem_singleton] at ha hb
          subst ha
          subst hb
          exact desc_irrefl hai _)
      refine ⟨_, l.length + 1, e, ⟨hdd, hc.level⟩, hnd, ?_, ?_⟩
      · intro x hx
        rcases List.mem_cons.1 hx with rfl | hx
        · exact ⟨l.length + 1, by push_cast; rfl, hc.level⟩
        · obtain ⟨l', hc', hb, e⟩ := hdep x hx
          exact ⟨l'.length + 1, by rw [e]; push_cast; omega, hc'.level⟩
      · intro m hm
        have := hlim m (by omega) (by omega)
        simp only [Option.map_some]
        rw [this, List.filter_cons_of_pos (by simp; omega)]
        congr 3
        funext x
        congr 1
        push_cast
        rw [Int.add_comm]
  obtain ⟨L, base, e, hf, hnd, hlev, hlim⟩ := key
  cases m with
  | none =>
    refine ⟨L, e, ⟨keys L, base, by cases p <;> exact hf, hnd, fun _ => true, by simp [keys], ?_⟩, hlev⟩
    intro k _; simp
  | some m =>
    have hm0 : m ≠ 0 := fun e => hm (by rw [e])
    refine ⟨_, hlim m hm0, ⟨keys L, base, by cases p <;> exact hf, hnd, fun k => L.any (fun e => e.1.pk == k && decide (e.2 ≤ base + m)), ?_, ?_⟩, ?_⟩
    · unfold keys
      rw [List.filter_map]
      congr 1
      apply List.filter_congr
      intro x hx
      rw [Bool.eq_iff_iff, Function.comp_apply, List.any_eq_true, decide_eq_true_eq]
      constructor
      · intro hle; exact ⟨x, hx, by simpa using hle⟩
      · rintro ⟨y, hy, hxy⟩
        rw [Bool.and_eq_true, beq_iff_eq, decide_eq_true_eq] at hxy
        rw [List.inj_on_of_nodup_map hnd hx hy hxy.1.symm]
        exact hxy.2
    · intro k hk
      obtain ⟨x, hx, rfl⟩ := List.mem_map.1 hk
      obtain ⟨n, en, hn⟩ := hlev x hx
      rw [List.any_eq_true]
      constructor
      · rintro ⟨y, hy, hxy⟩ j ej
        cases ej
        rw [Bool.and_eq_true, beq_iff_eq, decide_eq_true_eq] at hxy
        rw [← List.inj_on_of_nodup_map hnd hx hy hxy.1.symm] at hxy
        exact ⟨n, hn, by omega⟩
      · intro hall
        obtain ⟨lv, h1, h2⟩ := hall m rfl
        have := level_unique hai h1 hn
        exact ⟨x, hx, by simp; omega⟩
    · intro x hx
      exact hlev x (List.mem_filter.1 hx).1

example : Wf exPlain exDB ∧ ((getTree exPlain exDB none none).map keys) = .ok [1, 2, 3, 4, 5] ∧
    ((getTree exPlain exDB (some (⟨1, none, 2, []⟩, none)) (some 1)).map keys) = .ok [1, 2, 3] :=
  ⟨wf_of_ai exDB_inv.toAI, rfl, rfl⟩

end Verif.AL
