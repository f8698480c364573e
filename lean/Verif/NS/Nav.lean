/-
NS: the remaining queries, and what they return.
-/
import Verif.NS.Delete
import Verif.Nav
import Mathlib.Order.Interval.Finset.Basic
import Mathlib.Data.Int.Interval

namespace Verif.NS

variable {db : DB} {rows : List Row}

/-! ### Model -/

/-- models.py:512-514 `get_children_count` -/
def childrenCount (db : DB) (node : Row) : Nat := (children db node).length

/-- ns_tree.py:507-516 `get_descendant_count`; the division is Python's `/`, so the result is a float (modelled as a
rational: no rounding) -/
def descendantCount (db : DB) (node : Row) (maxDepth : Option Int) : Rat :=
  match maxDepth with
  | none => ((node.rgt - node.lft - 1 : Int) : Rat) / 2
  | some k => if k = 0 then ((node.rgt - node.lft - 1 : Int) : Rat) / 2
    else ((descendants db node false (some k)).length : Rat)

/-- ns_tree.py:518-522 `get_root` -/
def getRoot (db : DB) (node : Row) : Except Err Row :=
  if node.lft == 1 then .ok node
  else match db.rows.filter (fun r => r.tree == node.tree && r.lft == 1) with
    | [] => .error .doesNotExist
    | [r] => .ok r
    | _ => .error .multipleObjectsReturned

/-- models.py:579-589 `get_prev_sibling` -/
def prevSibling (db : DB) (node : Row) : Except Err (Option Row) :=
  match siblings db node with
  | .error e => .error e
  | .ok l => prevIn Row.pk l node.pk

/-- models.py:591-601 `get_next_sibling` -/
def nextSibling (db : DB) (node : Row) : Except Err (Option Row) :=
  match siblings db node with
  | .error e => .error e
  | .ok l => nextIn Row.pk l node.pk

/-- models.py:40-44 `is_sibling_of` -/
def isSiblingOf (db : DB) (r node : Row) : Except Err Bool :=
  (siblings db r).map (fun l => l.any (·.pk == node.pk))

/-- models.py:46-50 `is_child_of` -/
def isChildOf (db : DB) (r node : Row) : Bool := (children db node).any (·.pk == r.pk)

/-! ### Pre-order -/

theorem lt_block (h : NI rows) {a b y z : Row} (ha : a ∈ rows) (hb : b ∈ rows) (hlt : lt a b) (h1 : ¬ encl a b)
    (hy : y ∈ rows) (hz : z ∈ rows) (hay : InB a y) (hbz : InB b z) : lt y z := by
  have hne : a ≠ b := by rintro rfl; exact lt_irrefl _ hlt
  have hya := (h.inB_iff ha hy).1 hay
  have hzb := (h.inB_iff hb hz).1 hbz
  rw [lt_iff] at *
  by_cases ht : a.tree = b.tree
  · have := h.tri ha hb hne ht
    have l1 := h.lr y hy
    have l2 := h.lr b hb
    have l3 := h.lr a ha
    rcases this with h2 | h2 | h2 | h2
    · exact absurd h2 h1
    · unfold encl at h2; omega
    · omega
    · omega
  · omega

theorem sib_no_encl (h : NI rows) {a b : Row} (ha : a ∈ rows) (hb : b ∈ rows) (hp : par rows a = par rows b) : ¬ encl a b := by
  intro he
  rcases par_cases h hb with ⟨_, hn⟩ | ⟨p, hi, e⟩
  · exact hn a ha he
  · rcases par_cases h ha with ⟨e', _⟩ | ⟨p', hi', e'⟩
    · rw [hp, e] at e'; cases e'
    · rw [e', e] at hp
      have : p' = p := h.pk_inj hi'.1 hi.1 (Option.some.inj hp)
      subst this
      rcases hi.2.2 a ha he with e2 | e2
      · subst e2; exact encl_irrefl _ hi'.2.1
      · exact encl_asymm e2 hi'.2.1

/-- keys in the order of their rows -/
def klt (rows : List Row) (a b : Nat) : Prop := ∃ ra ∈ rows, ∃ rb ∈ rows, ra.pk = a ∧ rb.pk = b ∧ lt ra rb

theorem desc_row (h : NI rows) {a : Row} (ha : a ∈ rows) {d : Nat} (hd : (PF rows).Desc a.pk d) : ∃ r ∈ rows, r.pk = d ∧ encl a r := by
  have : ∃ r ∈ rows, r.pk = d := by
    cases hd with
    | child hm => obtain ⟨r, hr, _, e⟩ := (mem_PF h).1 hm; exact ⟨r, hr, e⟩
    | step _ hm => obtain ⟨r, hr, _, e⟩ := (mem_PF h).1 hm; exact ⟨r, hr, e⟩
  obtain ⟨r, hr, rfl⟩ := this
  exact ⟨r, hr, rfl, (desc_PF h ha hr).1 hd⟩

theorem inB_of_key (h : NI rows) {a : Row} (ha : a ∈ rows) {y : Nat} (hy : y = a.pk ∨ (PF rows).Desc a.pk y) :
    ∃ r ∈ rows, r.pk = y ∧ InB a r := by
  rcases hy with rfl | hd
  · exact ⟨a, ha, rfl, Or.inl rfl⟩
  · obtain ⟨r, hr, e, he⟩ := desc_row h ha hd
    exact ⟨r, hr, e, Or.inr he⟩

theorem dfs_rows (h : NI rows) {l cs : List Row} (hl : l.Pairwise lt) (hcs : cs.Pairwise lt) (hsub : ∀ c ∈ cs, c ∈ rows)
    (hsib : ∀ a ∈ cs, ∀ b ∈ cs, ¬ encl a b) (hm : ∀ r, r ∈ l ↔ r ∈ rows ∧ ∃ c ∈ cs, InB c r) :
    (PF rows).DFS (cs.map Row.pk) (l.map Row.pk) := by
  have hlsub : ∀ r ∈ l, r ∈ rows := fun r hr => ((hm r).1 hr).1
  have kpw : ∀ m : List Row, (∀ r ∈ m, r ∈ rows) → m.Pairwise lt → (m.map Row.pk).Pairwise (klt rows) := by
    intro m hmem hp
    rw [List.pairwise_map]
    exact hp.imp_of_mem (fun ha hb hab => ⟨_, hmem _ ha, _, hmem _ hb, rfl, rfl, hab⟩)
  refine dfs_of_sorted (lt := klt rows) _ _ _ (Nat.le_refl _) ?_ (kpw l hlsub hl) (kpw cs hsub hcs) ?_ ?_ ?_ ?_ ?_
  · rintro a b _ _ ⟨ra, h1, rb, h2, rfl, rfl, h3⟩ ⟨ra', h4, rb', h5, e1, e2, h6⟩
    rw [h.pk_inj h4 h2 e1, h.pk_inj h5 h1 e2] at h6
    exact lt_asymm h3 h6
  · intro p _
    obtain ⟨m, e, hs, hm'⟩ := (shows_PF h).lists (some p)
    rw [e]
    exact kpw m (fun r hr => ((hm' r).1 hr).1) hs
  · intro y
    rw [List.mem_map]
    constructor
    · rintro ⟨r, hr, rfl⟩
      obtain ⟨h1, c, hc, hb⟩ := (hm r).1 hr
      refine ⟨c.pk, List.mem_map_of_mem hc, ?_⟩
      rcases hb with rfl | he
      · exact Or.inl rfl
      · exact Or.inr ((desc_PF h (hsub c hc) h1).2 he)
    · rintro ⟨k, hk, hy⟩
      obtain ⟨c, hc, rfl⟩ := List.mem_map.1 hk
      obtain ⟨r, hr, e, hb⟩ := inB_of_key h (hsub c hc) hy
      exact ⟨r, (hm r).2 ⟨hr, c, hc, hb⟩, e⟩
  · intro a d ha hd
    obtain ⟨ra, hra, rfl⟩ := List.mem_map.1 ha
    obtain ⟨r, hr, rfl, he⟩ := desc_row h (hlsub ra hra) hd
    exact ⟨ra, hlsub ra hra, r, hr, rfl, rfl, by rw [lt_iff]; unfold encl at he; omega⟩
  · intro a b ha hb hab y z hy hz
    obtain ⟨ra, hra, rfl⟩ := List.mem_map.1 ha
    obtain ⟨rb, hrb, rfl⟩ := List.mem_map.1 hb
    obtain ⟨y', hy', rfl, hyb⟩ := inB_of_key h (hsub ra hra) hy
    obtain ⟨z', hz', rfl, hzb⟩ := inB_of_key h (hsub rb hrb) hz
    obtain ⟨ra', h1, rb', h2, e1, e2, hlt⟩ := hab
    rw [h.pk_inj h1 (hsub ra hra) e1, h.pk_inj h2 (hsub rb hrb) e2] at hlt
    exact ⟨y', hy', z', hz', rfl, rfl, lt_block h (hsub ra hra) (hsub rb hrb) hlt (hsib ra hra rb hrb) hy' hz' hyb hzb⟩
  · intro p _ a b ha hb hab y z hy hz
    obtain ⟨ra, hra, hpa, rfl⟩ := (mem_PF h).1 ha
    obtain ⟨rb, hrb, hpb, rfl⟩ := (mem_PF h).1 hb
    obtain ⟨y', hy', rfl, hyb⟩ := inB_of_key h hra hy
    obtain ⟨z', hz', rfl, hzb⟩ := inB_of_key h hrb hz
    obtain ⟨ra', h1, rb', h2, e1, e2, hlt⟩ := hab
    rw [h.pk_inj h1 hra e1, h.pk_inj h2 hrb e2] at hlt
    exact ⟨y', hy', z', hz', rfl, rfl, lt_block h hra hrb hlt (sib_no_encl h hra hrb (hpa.trans hpb.symm)) hy' hz' hyb hzb⟩

/-- `get_tree()` -/
theorem getTree_all (h : NI db.rows) : (PF db.rows).DFS (PF db.rows none) ((getTree db none none).map Row.pk) := by
  rw [← rootNodes_PF h]
  refine dfs_rows h (getTree_sorted h none none) (rootNodes_sorted h) (fun c hc => (mem_rootNodes.1 hc).1) ?_ ?_
  · intro a ha b hb
    have h1 := (rootNodes_par h).1 ha
    have h2 := (rootNodes_par h).1 hb
    exact sib_no_encl h h1.1 h2.1 (h1.2.trans h2.2.symm)
  · intro r
    unfold getTree
    simp only [mem_order, List.mem_filter, and_true]
    constructor
    · intro hr
      refine ⟨hr, ?_⟩
      by_cases hl : r.lft = 1
      · exact ⟨r, mem_rootNodes.2 ⟨hr, hl⟩, Or.inl rfl⟩
      · obtain ⟨q, hq, h1, he⟩ := h.root r hr hl
        exact ⟨q, mem_rootNodes.2 ⟨hq, h1⟩, Or.inr he⟩
    · exact And.left

/-- `get_tree(parent)` -/
theorem getTree_branch (h : NI db.rows) {p : Row} (hp : p ∈ db.rows) :
    (PF db.rows).DFS [p.pk] ((getTree db (some p) none).map Row.pk) := by
  refine dfs_rows h (cs := [p]) (getTree_sorted h _ none) (by simp) (by simpa using hp) (by simpa using encl_irrefl p) ?_
  intro r
  rw [mem_getTree h hp]
  simp

/-- `max_depth` drops exactly the nodes too deep -/
theorem getTree_limit (h : NI db.rows) {p : Option Row} (hp : ∀ q, p = some q → q ∈ db.rows) {m : Int} (hm : 0 < m) :
    getTree db p (some m) =
      (getTree db p none).filter (fun r => decide (r.depth ≤ m + (match p with | none => 0 | some q => q.depth))) := by
  refine sorted_unique (T := fun _ => True) (asymOn_lt _) (fun _ _ => trivial) (getTree_sorted h p _)
    ((getTree_sorted h p none).sublist List.filter_sublist) ?_
  intro r
  rw [List.mem_filter, decide_eq_true_eq]
  cases p with
  | none =>
    unfold getTree
    simp only [mem_order, List.mem_filter, Bool.or_eq_true, beq_iff_eq, decide_eq_true_eq, and_true]
    constructor
    · rintro ⟨h1, h2⟩; exact ⟨h1, by omega⟩
    · rintro ⟨h1, h2⟩; exact ⟨h1, Or.inr h2⟩
  | some q =>
    have hq := hp q rfl
    rw [mem_getTree h hq, mem_getTree h hq]
    simp only
    constructor
    · rintro ⟨h1, h2, h3⟩
      refine ⟨⟨h1, h2, Or.inr (by simp)⟩, ?_⟩
      rcases h3 with h3 | h3
      · rcases h2 with rfl | he
        · omega
        · exact absurd he (leaf_no_encl h h3 h1)
      · have := h3 m rfl; omega
    · rintro ⟨⟨h1, h2, _⟩, h4⟩
      exact ⟨h1, h2, Or.inr (by rintro k ⟨⟩; exact Or.inr h4)⟩

/-! ### Ancestors and levels -/

theorem mem_ancestors (h : NI db.rows) {r q : Row} : q ∈ ancestors db r ↔ q ∈ db.rows ∧ encl q r := by
  rw [ancestors_eq h, mem_order, List.mem_filter, decide_eq_true_eq]

theorem ancestors_sorted (h : NI db.rows) (r : Row) : (ancestors db r).Pairwise lt := by
  rw [ancestors_eq h]; exact order_filter_sorted h _

theorem ancestors_root {r : Row} (hl : r.lft = 1) : ancestors db r = [] := by
  unfold ancestors
  rw [if_pos (by simp [Row.isRoot, hl])]

theorem ancestors_inner (h : NI db.rows) {p r : Row} (hi : Inner db.rows p r) : ancestors db r = ancestors db p ++ [p] := by
  refine sorted_unique (T := fun _ => True) (asymOn_lt _) (fun _ _ => trivial) (ancestors_sorted h r) ?_ ?_
  · rw [List.pairwise_append]
    refine ⟨ancestors_sorted h p, by simp, ?_⟩
    intro a ha b hb
    rw [List.mem_singleton.1 hb]
    have := ((mem_ancestors h).1 ha).2
    rw [lt_iff]; unfold encl at this; omega
  · intro q
    rw [List.mem_append, mem_ancestors h, mem_ancestors h, List.mem_singleton]
    constructor
    · rintro ⟨h1, h2⟩
      rcases hi.2.2 q h1 h2 with e | e
      · exact Or.inr e
      · exact Or.inl ⟨h1, e⟩
    · rintro (⟨h1, h2⟩ | rfl)
      · exact ⟨h1, encl_trans h2 hi.2.1⟩
      · exact ⟨hi.1, hi.2.1⟩

theorem ancestors_anc (h : NI db.rows) : ∀ n, ∀ r ∈ db.rows, above db.rows r = n →
    (PF db.rows).Anc r.pk ((ancestors db r).map Row.pk) ∧ (PF db.rows).Level r.pk (n + 1) := by
  intro n
  induction n with
  | zero =>
    intro r hr ha
    have hl : r.lft = 1 := by
      by_contra hl
      obtain ⟨q, hq, _, he⟩ := h.root r hr hl
      unfold above at ha
      rw [List.countP_eq_zero] at ha
      exact ha q hq (by simpa using he)
    have hm : r.pk ∈ PF db.rows none := (mem_PF h).2 ⟨r, hr, (par_eq_none h hr).2 hl, rfl⟩
    rw [ancestors_root hl]
    exact ⟨.root hm, .root hm⟩
  | succ n ih =>
    intro r hr ha
    rcases par_cases h hr with ⟨_, hn⟩ | ⟨p, hi, e⟩
    · have : above db.rows r = 0 := by
        unfold above
        rw [List.countP_eq_zero]
        intro q hq; simpa using hn q hq
      omega
    · have := above_inner h hi
      obtain ⟨h1, h2⟩ := ih p hi.1 (by omega)
      have hm : r.pk ∈ PF db.rows (some p.pk) := (mem_PF h).2 ⟨r, hr, e, rfl⟩
      rw [ancestors_inner h hi, List.map_append]
      exact ⟨.step h1 hm, .child h2 hm⟩

theorem level_depth (h : NI db.rows) {r : Row} (hr : r ∈ db.rows) : ∃ n : Nat, r.depth = n ∧ (PF db.rows).Level r.pk n := by
  refine ⟨above db.rows r + 1, ?_, (ancestors_anc h _ r hr rfl).2⟩
  rw [h.depth r hr]; omega

theorem level_unique (h : NI db.rows) {r : Row} (hr : r ∈ db.rows) {n : Nat} (hl : (PF db.rows).Level r.pk n) : r.depth = n := by
  have key : ∀ k n, (PF db.rows).Level k n → ∀ r ∈ db.rows, r.pk = k → r.depth = n := by
    intro k n hl
    induction hl with
    | root hm =>
      rintro r hr rfl
      obtain ⟨r', hr', hp, e⟩ := (mem_PF h).1 hm
      rw [h.pk_inj hr' hr e] at hp
      exact h.depth_root hr ((par_eq_none h hr).1 hp)
    | child _ hm ih =>
      rintro r hr rfl
      obtain ⟨r', hr', hp, e⟩ := (mem_PF h).1 hm
      rw [h.pk_inj hr' hr e] at hp
      obtain ⟨p, hi, e⟩ := (par_eq_some h hr).1 hp
      have := ih p hi.1 e
      rw [h.depth_inner hi hr, this]
      push_cast; rfl
  exact key _ _ hl r hr rfl

theorem getRoot_spec (h : NI db.rows) {r : Row} (hr : r ∈ db.rows) :
    ∃ q, getRoot db r = .ok q ∧ q.pk = (((ancestors db r).map Row.pk) ++ [r.pk]).headD r.pk := by
  unfold getRoot
  by_cases hl : r.lft = 1
  · refine ⟨r, by rw [if_pos (by simp [hl])], ?_⟩
    rw [ancestors_root hl]; rfl
  · rw [if_neg (by simp [hl])]
    obtain ⟨q, hq, h1, he⟩ := h.root r hr hl
    have hone : db.rows.filter (fun s => s.tree == r.tree && s.lft == 1) = [q] := by
      have hmem : ∀ s, s ∈ db.rows.filter (fun s => s.tree == r.tree && s.lft == 1) ↔ s = q := by
        intro s
        rw [List.mem_filter, Bool.and_eq_true, beq_iff_eq, beq_iff_eq]
        constructor
        · rintro ⟨h2, h3, h4⟩
          by_contra hne
          exact (h.dist s h2 q hq hne (h3.trans he.1.symm)).1 (by rw [h4, h1])
        · rintro rfl; exact ⟨hq, he.1, h1⟩
      have hnd := h.nodup.filter (fun s => s.tree == r.tree && s.lft == 1)
      exact List.perm_singleton.1 ((List.perm_ext_iff_of_nodup hnd (by simp)).2 (fun s => by rw [hmem, List.mem_singleton]))
    rw [hone]
    refine ⟨q, rfl, ?_⟩
    have hmq : q ∈ ancestors db r := (mem_ancestors h).2 ⟨hq, he⟩
    cases ha : ancestors db r with
    | nil => rw [ha] at hmq; cases hmq
    | cons a l =>
      show q.pk = a.pk
      have hs := ancestors_sorted h r
      rw [ha] at hs hmq
      rcases List.mem_cons.1 hmq with e | e
      · rw [e]
      · have hlt := (List.pairwise_cons.1 hs).1 q e
        have ham : a ∈ ancestors db r := by rw [ha]; simp
        have ha' := (mem_ancestors h).1 ham
        have := h.one a ha'.1
        have h2 := he.1
        have h3 := ha'.2.1
        rw [lt_iff] at hlt
        omega

/-! ### Counting -/

/-- **the interval tells the number of descendants** -/
theorem count_encl (h : NInv rows) {p : Row} (hp : p ∈ rows) :
    p.rgt - p.lft - 1 = 2 * ((rows.filter (fun r => decide (encl p r))).length : Int) := by
  set l := rows.filter (fun r => decide (encl p r)) with hl
  have hml : ∀ r, r ∈ l ↔ r ∈ rows ∧ encl p r := by intro r; rw [hl, List.mem_filter, decide_eq_true_eq]
  have hnl : l.Nodup := h.nodup.filter _
  have hdis : ∀ a ∈ l, ∀ b ∈ l, a ≠ b → a.lft ≠ b.lft ∧ a.lft ≠ b.rgt ∧ a.rgt ≠ b.rgt := by
    intro a ha b hb hne
    have h1 := (hml a).1 ha
    have h2 := (hml b).1 hb
    exact h.dist a h1.1 b h2.1 hne (h1.2.1.symm.trans h2.2.1)
  have hset : (l.map Row.lft).toFinset ∪ (l.map Row.rgt).toFinset = Finset.Ioo p.lft p.rgt := by
    ext i
    simp only [Finset.mem_union, List.mem_toFinset, List.mem_map, Finset.mem_Ioo]
    constructor
    · rintro (⟨r, hr, rfl⟩ | ⟨r, hr, rfl⟩) <;>
      · have h1 := (hml r).1 hr
        have h2 := h.lr r h1.1
        have h3 := h1.2
        unfold encl at h3
        omega
    · rintro ⟨h1, h2⟩
      obtain ⟨q, hq, ht, hi⟩ := h.full p hp i (by omega) (by omega)
      have hne : q ≠ p := by rintro rfl; omega
      have hlr := h.lr q hq
      have hlp := h.lr p hp
      have htri := h.toNI.tri hp hq (Ne.symm hne) ht.symm
      have : encl p q := by
        rcases htri with h3 | h3 | h3 | h3
        · exact h3
        · unfold encl at h3; omega
        · omega
        · omega
      rcases hi with rfl | rfl
      · exact Or.inl ⟨q, (hml q).2 ⟨hq, this⟩, rfl⟩
      · exact Or.inr ⟨q, (hml q).2 ⟨hq, this⟩, rfl⟩
  have n1 : (l.map Row.lft).Nodup := by
    rw [List.nodup_map_iff_inj_on hnl]
    intro a ha b hb e
    by_contra hne
    exact (hdis a ha b hb hne).1 e
  have n2 : (l.map Row.rgt).Nodup := by
    rw [List.nodup_map_iff_inj_on hnl]
    intro a ha b hb e
    by_contra hne
    exact (hdis a ha b hb hne).2.2 e
  have hdj : Disjoint (l.map Row.lft).toFinset (l.map Row.rgt).toFinset := by
    rw [Finset.disjoint_left]
    intro i h1 h2
    rw [List.mem_toFinset, List.mem_map] at h1 h2
    obtain ⟨a, ha, rfl⟩ := h1
    obtain ⟨b, hb, e⟩ := h2
    by_cases hne : a = b
    · subst hne
      have := h.lr a ((hml a).1 ha).1
      omega
    · exact (hdis a ha b hb hne).2.1 e.symm
  have hcard := congrArg Finset.card hset
  rw [Finset.card_union_of_disjoint hdj, List.toFinset_card_of_nodup n1, List.toFinset_card_of_nodup n2, Int.card_Ioo,
    List.length_map, List.length_map] at hcard
  have := h.lr p hp
  omega

theorem descendants_length (h : NI db.rows) {p : Row} (hp : p ∈ db.rows) :
    (descendants db p false none).length = (db.rows.filter (fun r => decide (encl p r))).length := by
  have hnd : (descendants db p false none).Nodup := by
    have := descendants_sorted h p false none
    exact this.imp (fun {a b} hab e => by subst e; exact lt_irrefl _ hab)
  have := (List.perm_ext_iff_of_nodup hnd (h.nodup.filter (fun r => decide (encl p r)))).2 (fun r => by
    rw [mem_descendants h hp, List.mem_filter, decide_eq_true_eq]; simp)
  exact this.length_eq

end Verif.NS
