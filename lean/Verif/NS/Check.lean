/-
NS: `find_problems`.
-/
import Verif.NS.Nav
import Mathlib.Data.List.Induction

namespace Verif.NS

variable {db : DB} {rows : List Row}

/-! ### Model -/

/-- The local variables of `find_problems`: the tree of the current group, the stack (top first), `has_seen_root_node`
and the four result lists. -/
structure FP where
  cur : Option Int
  stack : List Row
  seen : Bool
  reversed : List Nat
  overlapping : List Nat
  duplicate : List Nat
  wrongDepth : List Nat
deriving DecidableEq, Repr

/-- before the loop -/
def FP.start : FP := ⟨none, [], false, [], [], [], []⟩

/-- ns_tree.py:455-457: `groupby` starts a new group when the tree id changes -/
def FP.group (s : FP) (tree : Int) : FP := if s.cur = some tree then s else { s with cur := some tree, stack := [], seen := false }

/-- ns_tree.py:488-490, the end of the loop body -/
def FP.depthCheck (initial : Int) (s : FP) (node : Row) : FP :=
  if node.depth ≠ initial + s.stack.length then { s with wrongDepth := s.wrongDepth ++ [node.pk] } else s

/-- ns_tree.py:468-490, after popping -/
def FP.place (initial : Int) (s : FP) (node : Row) : FP :=
  match s.stack with
  | [] =>
    if s.seen then { s with duplicate := s.duplicate ++ [node.pk], stack := [node] }
    else FP.depthCheck initial { s with seen := true, stack := [node] } node
  | top :: rest =>
    if node.lft ≤ top.lft ∨ top.rgt ≤ node.rgt then { s with overlapping := s.overlapping ++ [node.pk] }
    else FP.depthCheck initial { s with stack := node :: top :: rest } node

/-- ns_tree.py:460-490, the loop body within a group -/
def FP.visit (initial : Int) (s : FP) (node : Row) : FP :=
  if node.rgt ≤ node.lft then { s with reversed := s.reversed ++ [node.pk] }
  else FP.place initial { s with stack := s.stack.dropWhile (fun t => decide (t.rgt < node.lft)) } node

/-- one row, with `groupby` -/
def FP.step (initial : Int) (s : FP) (node : Row) : FP := FP.visit initial (s.group node.tree) node

/-- ns_tree.py:452-490, the loops over the ordered rows -/
def checkRows (initial : Int) (l : List Row) : FP := (order l).foldl (FP.step initial) FP.start

/-- ns_tree.py:419-492 `find_problems` -/
def findProblems (db : DB) (parent : Option Row) : List Nat × List Nat × List Nat × List Nat :=
  let s := match parent with
    | some p => checkRows ((ancestors db p).length : Int)
        (db.rows.filter (fun r => r.tree == p.tree && decide (p.lft ≤ r.lft) && decide (r.rgt ≤ p.rgt)))
    | none => checkRows 0 db.rows
  (s.reversed, s.overlapping, s.duplicate, s.wrongDepth)

/-! ### Theory -/

/-- nothing reported -/
def FP.Clean (s : FP) : Prop := s.reversed = [] ∧ s.overlapping = [] ∧ s.duplicate = [] ∧ s.wrongDepth = []

/-- Properly nested intervals, one root interval per tree around the others, and depths that count the enclosing intervals. -/
structure WellNested (initial : Int) (rows : List Row) : Prop where
  lr : ∀ r ∈ rows, r.lft < r.rgt
  nest : ∀ r ∈ rows, ∀ q ∈ rows, r ≠ q → r.tree = q.tree → encl r q ∨ encl q r ∨ r.rgt < q.lft ∨ q.rgt < r.lft
  root : ∀ r ∈ rows, ∃ q ∈ rows, q.tree = r.tree ∧ ∀ r' ∈ rows, r'.tree = r.tree → r' = q ∨ encl q r'
  depth : ∀ r ∈ rows, r.depth = initial + 1 + (above rows r : Int)

theorem clean_group {s : FP} {t : Int} : (s.group t).Clean ↔ s.Clean := by
  unfold FP.group FP.Clean; split <;> simp

theorem clean_depthCheck {i : Int} {s : FP} {n : Row} : (s.depthCheck i n).Clean ↔ s.Clean ∧ n.depth = i + s.stack.length := by
  unfold FP.depthCheck
  split
  · rename_i h
    constructor
    · intro hc; exact absurd hc.2.2.2 (by simp)
    · intro hc; exact absurd hc.2 h
  · rename_i h
    rw [not_not] at h
    simp [h]

/-- sorted by tree and `lft`, ties in any order -/
def Ordered (l : List Row) : Prop := l.Pairwise (fun a b => ¬ lt b a)

theorem ordered_order (l : List Row) : Ordered (order l) :=
  (sortBy_sorted strictWeak l).imp (fun {a b} h => by
    intro hlt
    rw [show tlLt b a = true from hlt] at h
    cases h)

theorem ordered_append {D : List Row} {n : Row} (h : Ordered (D ++ [n])) : Ordered D ∧ ∀ r ∈ D, ¬ lt n r := by
  unfold Ordered at h
  rw [List.pairwise_append] at h
  exact ⟨h.1, fun r hr => h.2.2 r hr n (by simp)⟩

/-- what the stack holds after the rows `D` when nothing was reported -/
structure StackInv (D : List Row) (s : FP) : Prop where
  nonempty : D ≠ [] → s.seen = true
  cur : ∀ t, s.cur = some t ↔ ∃ r, D.getLast? = some r ∧ r.tree = t
  chain : s.stack.Pairwise (fun a b => encl b a)
  sub : ∀ r ∈ s.stack, r ∈ D ∧ s.cur = some r.tree
  rest : ∀ r ∈ D, s.cur = some r.tree → r ∈ s.stack ∨ ∀ z, D.getLast? = some z → r.rgt < z.lft

/-- the stack that the checks of the next row `n` see -/
structure Before (D : List Row) (n : Row) (s : FP) : Prop where
  cur : s.cur = some n.tree
  seen : s.seen = true ↔ ∃ r ∈ D, r.tree = n.tree
  chain : s.stack.Pairwise (fun a b => encl b a)
  mem : ∀ r, r ∈ s.stack ↔ r ∈ D ∧ r.tree = n.tree ∧ n.lft ≤ r.rgt

theorem chain_dropWhile {c : Int} : ∀ {l : List Row}, l.Pairwise (fun a b => encl b a) →
    (l.dropWhile (fun t => decide (t.rgt < c))).Pairwise (fun a b => encl b a) ∧
      ∀ r, r ∈ l.dropWhile (fun t => decide (t.rgt < c)) ↔ r ∈ l ∧ c ≤ r.rgt := by
  intro l
  induction l with
  | nil => intro _; simp
  | cons a l ih =>
    intro hp
    obtain ⟨h1, h2⟩ := List.pairwise_cons.1 hp
    rw [List.dropWhile_cons]
    by_cases hc : a.rgt < c
    · rw [if_pos (by simpa using hc)]
      refine ⟨(ih h2).1, fun r => ?_⟩
      rw [(ih h2).2, List.mem_cons]
      constructor
      · rintro ⟨h3, h4⟩; exact ⟨Or.inr h3, h4⟩
      · rintro ⟨rfl | h3, h4⟩
        · omega
        · exact ⟨h3, h4⟩
    · rw [if_neg (by simpa using hc)]
      refine ⟨hp, fun r => ?_⟩
      constructor
      · intro hr
        refine ⟨hr, ?_⟩
        rcases List.mem_cons.1 hr with rfl | hr
        · omega
        · have := h1 r hr
          unfold encl at this
          omega
      · exact And.left

theorem before_of {D : List Row} {n : Row} {s : FP} (ho : Ordered (D ++ [n])) (hi : StackInv D s) :
    Before D n { s.group n.tree with stack := (s.group n.tree).stack.dropWhile (fun t => decide (t.rgt < n.lft)) } := by
  obtain ⟨hoD, hn⟩ := ordered_append ho
  unfold FP.group
  by_cases hc : s.cur = some n.tree
  · rw [if_pos hc]
    obtain ⟨z, hz, hzt⟩ := (hi.cur _).1 hc
    have hzD : z ∈ D := List.mem_of_getLast? hz
    obtain ⟨c1, c2⟩ := chain_dropWhile (c := n.lft) hi.chain
    refine ⟨hc, ?_, c1, ?_⟩
    · show s.seen = true ↔ _
      rw [hi.nonempty (List.ne_nil_of_mem hzD)]
      exact ⟨fun _ => ⟨z, hzD, hzt⟩, fun _ => rfl⟩
    · intro r
      rw [c2]
      constructor
      · rintro ⟨h1, h2⟩
        obtain ⟨h3, h4⟩ := hi.sub r h1
        rw [hc] at h4
        exact ⟨h3, (Option.some.inj h4).symm, h2⟩
      · rintro ⟨h1, h2, h3⟩
        refine ⟨?_, h3⟩
        rcases hi.rest r h1 (by rw [hc, h2]) with h4 | h4
        · exact h4
        · have h5 := h4 z hz
          have := hn z hzD
          rw [lt_iff] at this
          omega
  · rw [if_neg hc]
    have hno : ∀ r ∈ D, r.tree ≠ n.tree := by
      intro r hr e
      cases hz : D.getLast? with
      | none => rw [List.getLast?_eq_none_iff] at hz; rw [hz] at hr; cases hr
      | some z =>
        have hzt : z.tree ≠ n.tree := fun e => hc ((hi.cur _).2 ⟨z, hz, e⟩)
        have h1 := hn z (List.mem_of_getLast? hz)
        obtain ⟨D', rfl⟩ := List.getLast?_eq_some_iff.1 hz
        rw [lt_iff] at h1
        rcases List.mem_append.1 hr with h2 | h2
        · have := (ordered_append hoD).2 r h2
          rw [lt_iff] at this
          omega
        · rw [List.mem_singleton.1 h2] at e
          exact hzt e
    refine ⟨rfl, ?_, by simp, ?_⟩
    · constructor
      · intro h; cases h
      · rintro ⟨r, hr, e⟩; exact absurd e (hno r hr)
    · intro r
      constructor
      · intro h; simp at h
      · rintro ⟨h1, h2, _⟩; exact absurd h2 (hno r h1)

theorem Before.count {D : List Row} {n : Row} {s : FP} (hb : Before D n s) (hnd : D.Nodup)
    (hall : ∀ r ∈ s.stack, encl r n) (hn : n.lft < n.rgt) : above D n = s.stack.length := by
  unfold above
  rw [List.countP_eq_length_filter]
  have hns : s.stack.Nodup := hb.chain.imp (fun {a b} h e => by subst e; exact encl_irrefl _ h)
  refine ((List.perm_ext_iff_of_nodup (hnd.filter _) hns).2 (fun r => ?_)).length_eq
  rw [List.mem_filter, decide_eq_true_eq]
  constructor
  · rintro ⟨h1, h2⟩
    refine (hb.mem r).2 ⟨h1, h2.1, ?_⟩
    unfold encl at h2
    omega
  · intro h; exact ⟨((hb.mem r).1 h).1, hall r h⟩

/-- the state after an accepted row -/
theorem stackInv_push {D : List Row} {n : Row} {s s' : FP} (hb : Before D n s) (hall : ∀ r ∈ s.stack, encl r n)
    (h1 : s'.cur = some n.tree) (h2 : s'.seen = true) (h3 : s'.stack = n :: s.stack) : StackInv (D ++ [n]) s' := by
  refine ⟨fun _ => h2, ?_, ?_, ?_, ?_⟩
  · intro t
    rw [h1]
    simp [List.getLast?_append]
  · rw [h3, List.pairwise_cons]
    exact ⟨hall, hb.chain⟩
  · intro r hr
    rw [h3] at hr
    rcases List.mem_cons.1 hr with rfl | hr
    · exact ⟨by simp, h1⟩
    · have := (hb.mem r).1 hr
      exact ⟨by simp [this.1], by rw [h1, this.2.1]⟩
  · intro r hr ht
    rw [h1] at ht
    rw [h3]
    rcases List.mem_append.1 hr with h4 | h4
    · by_cases hc : n.lft ≤ r.rgt
      · exact Or.inl (List.mem_cons_of_mem _ ((hb.mem r).2 ⟨h4, (Option.some.inj ht).symm, hc⟩))
      · right
        intro z hz
        have : n = z := by simpa [List.getLast?_append] using hz
        subst this
        omega
    · rw [List.mem_singleton.1 h4]; exact Or.inl (by simp)

theorem above_append {D : List Row} {n r : Row} (h : ¬ encl n r) : above (D ++ [n]) r = above D r := by
  unfold above
  rw [List.countP_append]
  simp [h]

theorem wellNested_prefix {i : Int} {D : List Row} {n : Row} (hnd : (D ++ [n]).Nodup) (ho : Ordered (D ++ [n]))
    (h : WellNested i (D ++ [n])) : WellNested i D := by
  obtain ⟨_, hn⟩ := ordered_append ho
  have hno : ∀ r ∈ D, ¬ encl n r := by
    intro r hr he
    have := hn r hr
    rw [lt_iff] at this
    unfold encl at he
    omega
  have hne : ∀ r ∈ D, r ≠ n := by
    rintro r hr rfl
    rw [List.nodup_append] at hnd
    exact hnd.2.2 r hr r (by simp) rfl
  have hs : ∀ r ∈ D, r ∈ D ++ [n] := fun r hr => List.mem_append_left _ hr
  refine ⟨fun r hr => h.lr r (hs r hr), fun r hr q hq => h.nest r (hs r hr) q (hs q hq), ?_, ?_⟩
  · intro r hr
    obtain ⟨q, hq, ht, hall⟩ := h.root r (hs r hr)
    rcases List.mem_append.1 hq with h1 | h1
    · exact ⟨q, h1, ht, fun r' hr' => hall r' (hs r' hr')⟩
    · rw [List.mem_singleton.1 h1] at hall
      rcases hall r (hs r hr) rfl with e | e
      · exact absurd e (hne r hr)
      · exact absurd e (hno r hr)
  · intro r hr
    rw [h.depth r (hs r hr), above_append (hno r hr)]

theorem clean_place {i : Int} {s : FP} {n : Row} : (s.place i n).Clean → s.Clean := by
  unfold FP.place
  split
  · split
    · intro h; exact absurd h.2.2.1 (by simp)
    · intro h; exact (clean_depthCheck.1 h).1
  · split
    · intro h; exact absurd h.2.1 (by simp)
    · intro h; exact (clean_depthCheck.1 h).1

theorem depthCheck_fields {i : Int} {s : FP} {n : Row} : (s.depthCheck i n).cur = s.cur ∧ (s.depthCheck i n).seen = s.seen ∧
    (s.depthCheck i n).stack = s.stack := by
  unfold FP.depthCheck; split <;> simp

theorem clean_place_iff {i : Int} {s : FP} {n : Row} (hs : s.Clean) : (s.place i n).Clean ↔
    (s.stack = [] → s.seen = false) ∧ (∀ top rest, s.stack = top :: rest → top.lft < n.lft ∧ n.rgt < top.rgt) ∧
      n.depth = i + s.stack.length + 1 := by
  unfold FP.place
  split
  · rename_i hst
    rw [hst]
    split
    · rename_i hseen
      constructor
      · intro h; exact absurd h.2.2.1 (by simp)
      · rintro ⟨h, _⟩; rw [h rfl] at hseen; cases hseen
    · rename_i hseen
      rw [clean_depthCheck]
      constructor
      · rintro ⟨_, h⟩
        exact ⟨fun _ => by simpa using hseen, fun top rest e => (by cases e), by simpa using h⟩
      · rintro ⟨_, _, h⟩
        exact ⟨hs, by simpa using h⟩
  · rename_i top rest hst
    rw [hst]
    split
    · rename_i hov
      constructor
      · intro h; exact absurd h.2.1 (by simp)
      · rintro ⟨_, h, _⟩
        have := h top rest rfl
        omega
    · rename_i hov
      rw [clean_depthCheck]
      constructor
      · rintro ⟨_, h⟩
        refine ⟨fun e => (by cases e), fun t r e => ?_, ?_⟩
        · cases e; omega
        · simp only [List.length_cons] at h ⊢; push_cast at h ⊢; omega
      · rintro ⟨_, _, h⟩
        refine ⟨hs, ?_⟩
        simp only [List.length_cons] at h ⊢; push_cast at h ⊢; omega

theorem place_fields {i : Int} {s : FP} {n : Row} (hs : (s.place i n).Clean) : (s.place i n).cur = s.cur ∧ (s.place i n).seen = true ∧
    (s.place i n).stack = n :: s.stack ∨ s.stack ≠ [] ∧ (s.place i n).cur = s.cur ∧ (s.place i n).seen = s.seen ∧
    (s.place i n).stack = n :: s.stack := by
  revert hs
  unfold FP.place
  split
  · rename_i hst
    split
    · intro h; exact absurd h.2.2.1 (by simp)
    · intro _
      obtain ⟨h1, h2, h3⟩ := depthCheck_fields (i := i) (s := { s with seen := true, stack := [n] }) (n := n)
      left
      exact ⟨h1, h2, by rw [h3, hst]⟩
  · rename_i top rest hst
    split
    · intro h; exact absurd h.2.1 (by simp)
    · intro _
      obtain ⟨h1, h2, h3⟩ := depthCheck_fields (i := i) (s := { s with stack := n :: top :: rest }) (n := n)
      right
      exact ⟨by rw [hst]; simp, h1, h2, by rw [h3, hst]⟩

/-- one more row -/
theorem check_step {i : Int} {D : List Row} {n : Row} (hnd : (D ++ [n]).Nodup) (ho : Ordered (D ++ [n])) {s : FP}
    (hiff : s.Clean ↔ WellNested i D) (hinv : s.Clean → StackInv D s) :
    ((s.step i n).Clean ↔ WellNested i (D ++ [n])) ∧ ((s.step i n).Clean → StackInv (D ++ [n]) (s.step i n)) := by
  obtain ⟨hoD, hn⟩ := ordered_append ho
  have hno : ∀ r ∈ D, ¬ encl n r := by
    intro r hr he
    have := hn r hr
    rw [lt_iff] at this
    unfold encl at he
    omega
  have hne : ∀ r ∈ D, r ≠ n := by
    rintro r hr rfl
    rw [List.nodup_append] at hnd
    exact hnd.2.2 r hr r (by simp) rfl
  have hndD : D.Nodup := (List.nodup_append.1 hnd).1
  unfold FP.step FP.visit
  by_cases hr : n.rgt ≤ n.lft
  · rw [if_pos hr]
    have hnc : ¬ ({ s.group n.tree with reversed := (s.group n.tree).reversed ++ [n.pk] } : FP).Clean := fun h => absurd h.1 (by simp)
    refine ⟨⟨fun h => absurd h hnc, fun h => ?_⟩, fun h => absurd h hnc⟩
    have := h.lr n (by simp)
    omega
  rw [if_neg hr]
  set s1 : FP := { s.group n.tree with stack := (s.group n.tree).stack.dropWhile (fun t => decide (t.rgt < n.lft)) } with hs1
  have hc1 : s1.Clean ↔ s.Clean := by rw [← clean_group (s := s) (t := n.tree)]; rfl
  by_cases hcl : s.Clean
  · have hb : Before D n s1 := before_of ho (hinv hcl)
    have hw : WellNested i D := hiff.1 hcl
    have hlft : ∀ r ∈ D, r.tree = n.tree → r.lft ≤ n.lft := by
      intro r hr ht
      have := hn r hr
      rw [lt_iff] at this
      omega
    -- the geometric meaning of an accepted row
    have hgeo : ((s1.stack = [] → s1.seen = false) ∧ (∀ top rest, s1.stack = top :: rest → top.lft < n.lft ∧ n.rgt < top.rgt)) →
        ∀ r ∈ s1.stack, encl r n := by
      rintro ⟨_, h⟩ r hr
      cases hst : s1.stack with
      | nil => rw [hst] at hr; cases hr
      | cons top rest =>
        have ht : encl top n := ⟨((hb.mem top).1 (by rw [hst]; simp)).2.1, h top rest hst⟩
        rw [hst] at hr
        rcases List.mem_cons.1 hr with rfl | hr
        · exact ht
        · have hch := hb.chain
          rw [hst, List.pairwise_cons] at hch
          exact encl_trans (hch.1 r hr) ht
    refine ⟨?_, ?_⟩
    · rw [clean_place_iff (hc1.2 hcl)]
      constructor
      · rintro ⟨h1, h2, h3⟩
        have hall := hgeo ⟨h1, h2⟩
        have hcount := hb.count hndD hall (by omega)
        have hpair : ∀ r ∈ D, r.tree = n.tree → encl r n ∨ r.rgt < n.lft := by
          intro r hr ht
          by_cases hc : n.lft ≤ r.rgt
          · exact Or.inl (hall r ((hb.mem r).2 ⟨hr, ht, hc⟩))
          · exact Or.inr (by omega)
        refine ⟨?_, ?_, ?_, ?_⟩
        · intro r hr
          rcases List.mem_append.1 hr with h | h
          · exact hw.lr r h
          · rw [List.mem_singleton.1 h]; omega
        · intro r hr q hq hrq ht
          rcases List.mem_append.1 hr with h | h <;> rcases List.mem_append.1 hq with h' | h'
          · exact hw.nest r h q h' hrq ht
          · rw [List.mem_singleton] at h'
            subst h'
            rcases hpair r h ht with e | e
            · exact Or.inl e
            · exact Or.inr (Or.inr (Or.inl e))
          · rw [List.mem_singleton] at h
            subst h
            rcases hpair q h' ht.symm with e | e
            · exact Or.inr (Or.inl e)
            · exact Or.inr (Or.inr (Or.inr e))
          · rw [List.mem_singleton] at h h'
            exact absurd (h.trans h'.symm) hrq
        · have hroot : ∀ q ∈ D, q.tree = n.tree → (∀ r' ∈ D, r'.tree = n.tree → r' = q ∨ encl q r') → encl q n := by
            intro q hq hqt hqall
            rcases hpair q hq hqt with e | e
            · exact e
            · exfalso
              by_cases hst : s1.stack = []
              · have := h1 hst
                rw [hb.seen.2 ⟨q, hq, hqt⟩] at this
                cases this
              · obtain ⟨top, htop⟩ := List.exists_mem_of_ne_nil _ hst
                have ht := (hb.mem top).1 htop
                rcases hqall top ht.1 ht.2.1 with e' | e'
                · subst e'; omega
                · unfold encl at e'; omega
          intro r hr
          rcases List.mem_append.1 hr with h | h
          · obtain ⟨q, hq, hqt, hqall⟩ := hw.root r h
            refine ⟨q, List.mem_append_left _ hq, hqt, ?_⟩
            intro r' hr' ht'
            rcases List.mem_append.1 hr' with h' | h'
            · exact hqall r' h' ht'
            · rw [List.mem_singleton] at h'
              subst h'
              exact Or.inr (hroot q hq (hqt.trans ht'.symm) (fun r'' hr'' e => hqall r'' hr'' (e.trans ht')))
          · rw [List.mem_singleton] at h
            subst h
            by_cases hex : ∃ r₀ ∈ D, r₀.tree = r.tree
            · obtain ⟨r₀, hr₀, e₀⟩ := hex
              obtain ⟨q, hq, hqt, hqall⟩ := hw.root r₀ hr₀
              have henc := hroot q hq (hqt.trans e₀) (fun r' hr' e => hqall r' hr' (e.trans e₀.symm))
              refine ⟨q, List.mem_append_left _ hq, hqt.trans e₀, ?_⟩
              intro r' hr' ht'
              rcases List.mem_append.1 hr' with h' | h'
              · exact hqall r' h' (ht'.trans e₀.symm)
              · rw [List.mem_singleton.1 h']; exact Or.inr henc
            · refine ⟨r, by simp, rfl, ?_⟩
              intro r' hr' ht'
              rcases List.mem_append.1 hr' with h' | h'
              · exact absurd ⟨r', h', ht'⟩ hex
              · exact Or.inl (List.mem_singleton.1 h')
        · intro r hr
          rcases List.mem_append.1 hr with h | h
          · rw [above_append (hno r h)]; exact hw.depth r h
          · rw [List.mem_singleton] at h
            subst h
            rw [above_append (encl_irrefl _), hcount]
            omega
      · intro hw'
        have hnest : ∀ r ∈ s1.stack, encl r n := by
          intro r hr
          have hm := (hb.mem r).1 hr
          have h1 := hlft r hm.1 hm.2.1
          have h2 := hw.lr r hm.1
          rcases hw'.nest r (List.mem_append_left _ hm.1) n (by simp) (hne r hm.1) hm.2.1 with e | e | e | e
          · exact e
          · exact absurd e (hno r hm.1)
          · omega
          · omega
        refine ⟨?_, ?_, ?_⟩
        · intro hst
          by_contra hseen
          rw [Bool.not_eq_false] at hseen
          obtain ⟨r, hrD, hrt⟩ := hb.seen.1 hseen
          obtain ⟨q, hq, hqt, hqall⟩ := hw'.root n (by simp)
          rcases List.mem_append.1 hq with h | h
          · rcases hqall n (by simp) rfl with e | e
            · exact hne q h e.symm
            · have h2 : q ∈ s1.stack := (hb.mem q).2 ⟨h, e.1, by unfold encl at e; omega⟩
              rw [hst] at h2; cases h2
          · rw [List.mem_singleton] at h
            subst h
            rcases hqall r (List.mem_append_left _ hrD) hrt with e | e
            · exact hne r hrD e
            · exact hno r hrD e
        · intro top rest hst
          exact (hnest top (by rw [hst]; simp)).2
        · have hcount := hb.count hndD hnest (by omega)
          have := hw'.depth n (by simp)
          rw [above_append (encl_irrefl _), hcount] at this
          omega
    · intro hfin
      have h0 := (clean_place_iff (hc1.2 hcl)).1 hfin
      have hall := hgeo ⟨h0.1, h0.2.1⟩
      rcases place_fields hfin with ⟨h1, h2, h3⟩ | ⟨hst, h1, h2, h3⟩
      · exact stackInv_push hb hall (h1.trans hb.cur) h2 h3
      · refine stackInv_push hb hall (h1.trans hb.cur) ?_ h3
        rw [h2]
        obtain ⟨top, htop⟩ := List.exists_mem_of_ne_nil _ hst
        have ht := (hb.mem top).1 htop
        exact hb.seen.2 ⟨top, ht.1, ht.2.1⟩
  · have hnc : ¬ (s1.place i n).Clean := fun h => hcl (hc1.1 (clean_place h))
    exact ⟨⟨fun h => absurd h hnc, fun h => absurd (hiff.2 (wellNested_prefix hnd ho h)) hcl⟩, fun h => absurd h hnc⟩

theorem fold_check {i : Int} (D : List Row) : D.Nodup → Ordered D →
    ((D.foldl (FP.step i) FP.start).Clean ↔ WellNested i D) ∧
      ((D.foldl (FP.step i) FP.start).Clean → StackInv D (D.foldl (FP.step i) FP.start)) := by
  induction D using List.reverseRecOn with
  | nil =>
    intro _ _
    refine ⟨⟨fun _ => ⟨by simp, by simp, by simp, by simp⟩, fun _ => ⟨rfl, rfl, rfl, rfl⟩⟩, fun _ => ⟨by simp, ?_, by simp [FP.start], by simp [FP.start], by simp⟩⟩
    intro t; simp [FP.start]
  | append_singleton D n ih =>
    intro hnd ho
    obtain ⟨h1, h2⟩ := ih (List.nodup_append.1 hnd).1 (ordered_append ho).1
    rw [List.foldl_append]
    exact check_step hnd ho h1 h2

theorem wellNested_perm {i : Int} {l l' : List Row} (hp : l.Perm l') (h : WellNested i l) : WellNested i l' := by
  have hm : ∀ r, r ∈ l' ↔ r ∈ l := fun r => hp.mem_iff.symm
  refine ⟨fun r hr => h.lr r ((hm r).1 hr), fun r hr q hq => h.nest r ((hm r).1 hr) q ((hm q).1 hq), ?_, ?_⟩
  · intro r hr
    obtain ⟨q, hq, ht, hall⟩ := h.root r ((hm r).1 hr)
    exact ⟨q, (hm q).2 hq, ht, fun r' hr' => hall r' ((hm r').1 hr')⟩
  · intro r hr
    rw [h.depth r ((hm r).1 hr)]
    unfold above
    rw [hp.countP_eq]

/-- **nothing is reported exactly for well nested rows** -/
theorem checkRows_iff {i : Int} {l : List Row} (hnd : l.Nodup) : (checkRows i l).Clean ↔ WellNested i l := by
  have hp : (order l).Perm l := sortBy_perm _ _
  unfold checkRows
  rw [(fold_check (order l) (hp.nodup_iff.2 hnd) (ordered_order l)).1]
  exact ⟨wellNested_perm hp, wellNested_perm hp.symm⟩

theorem place_reversed {i : Int} {s : FP} {n : Row} : (s.place i n).reversed = s.reversed := by
  unfold FP.place FP.depthCheck
  split <;> split <;> try rfl
  all_goals split <;> rfl

theorem step_reversed {i : Int} {s : FP} {n : Row} :
    (s.step i n).reversed = s.reversed ++ (if n.rgt ≤ n.lft then [n.pk] else []) := by
  unfold FP.step FP.visit
  have hg : (s.group n.tree).reversed = s.reversed := by unfold FP.group; split <;> rfl
  split
  · simp [hg]
  · rw [List.append_nil, place_reversed, hg]

/-- the first list is exact -/
theorem fold_reversed {i : Int} (l : List Row) : ∀ s : FP,
    (l.foldl (FP.step i) s).reversed = s.reversed ++ (l.filter (fun r => decide (r.rgt ≤ r.lft))).map Row.pk := by
  induction l with
  | nil => simp
  | cons n l ih =>
    intro s
    rw [List.foldl_cons, ih, step_reversed, List.filter_cons]
    by_cases h : n.rgt ≤ n.lft <;> simp [h]

/-! ### Consistent tables -/

theorem NI.wellNested (h : NI rows) : WellNested 0 rows := by
  refine ⟨h.lr, fun r hr q hq hne ht => h.tri hr hq hne ht, ?_, ?_⟩
  · intro r hr
    have hex : ∃ q ∈ rows, q.tree = r.tree ∧ q.lft = 1 := by
      by_cases hl : r.lft = 1
      · exact ⟨r, hr, rfl, hl⟩
      · obtain ⟨q, hq, h1, he⟩ := h.root r hr hl
        exact ⟨q, hq, he.1, h1⟩
    obtain ⟨q, hq, ht, h1⟩ := hex
    refine ⟨q, hq, ht, ?_⟩
    intro r' hr' ht'
    by_cases e : r' = q
    · exact Or.inl e
    · right
      have hd := h.dist r' hr' q hq e (ht'.trans ht.symm)
      obtain ⟨q', hq', h1', he'⟩ := h.root r' hr' (by omega)
      by_cases e' : q' = q
      · rwa [← e']
      · have := (h.dist q' hq' q hq e' (he'.1.trans (ht'.trans ht.symm))).1
        omega
  · intro r hr
    have := h.depth r hr
    omega

/-- the rows that `find_problems(parent)` looks at -/
def branchRows (rows : List Row) (p : Row) : List Row :=
  rows.filter (fun r => r.tree == p.tree && decide (p.lft ≤ r.lft) && decide (r.rgt ≤ p.rgt))

theorem mem_branchRows (h : NI rows) {p : Row} (hp : p ∈ rows) {r : Row} : r ∈ branchRows rows p ↔ r ∈ rows ∧ InB p r := by
  unfold branchRows
  rw [List.mem_filter]
  simp only [Bool.and_eq_true, beq_iff_eq, decide_eq_true_eq]
  constructor
  · rintro ⟨hr, ⟨h1, h2⟩, h3⟩
    refine ⟨hr, ?_⟩
    by_cases e : r = p
    · exact Or.inl e
    · right
      have hd := h.dist r hr p hp e h1
      exact ⟨h1.symm, by omega, by omega⟩
  · rintro ⟨hr, rfl | he⟩
    · exact ⟨hr, ⟨rfl, by omega⟩, by omega⟩
    · unfold encl at he
      exact ⟨hr, ⟨he.1.symm, by omega⟩, by omega⟩

theorem ancestors_length (h : NI db.rows) (p : Row) : (ancestors db p).length = above db.rows p := by
  rw [ancestors_eq h]
  unfold above order
  rw [(sortBy_perm _ _).length_eq, List.countP_eq_length_filter]

theorem NI.wellNested_branch (h : NI db.rows) {p : Row} (hp : p ∈ db.rows) :
    WellNested ((ancestors db p).length : Int) (branchRows db.rows p) := by
  have hm := fun r => mem_branchRows h hp (r := r)
  have hw := h.wellNested
  refine ⟨fun r hr => hw.lr r ((hm r).1 hr).1, fun r hr q hq => hw.nest r ((hm r).1 hr).1 q ((hm q).1 hq).1, ?_, ?_⟩
  · intro r hr
    refine ⟨p, (hm p).2 ⟨hp, Or.inl rfl⟩, ?_, fun r' hr' _ => ((hm r').1 hr').2⟩
    rcases ((hm r).1 hr).2 with rfl | he
    · rfl
    · exact he.1
  · intro r hr
    obtain ⟨hr', hb⟩ := (hm r).1 hr
    rw [h.depth r hr', ancestors_length h]
    have hsplit : above db.rows r = above db.rows p + above (branchRows db.rows p) r := by
      unfold above branchRows
      rw [List.countP_filter]
      have : ∀ l : List Row, (∀ q ∈ l, q ∈ db.rows) → l.countP (fun q => decide (encl q r)) =
          l.countP (fun q => decide (encl q p)) + l.countP (fun q => decide (encl q r) &&
            (q.tree == p.tree && decide (p.lft ≤ q.lft) && decide (q.rgt ≤ p.rgt))) := by
        intro l
        induction l with
        | nil => intro _; rfl
        | cons q l ih =>
          intro hl
          rw [List.countP_cons, List.countP_cons, List.countP_cons, ih (fun q hq => hl q (List.mem_cons_of_mem _ hq))]
          have hq := hl q List.mem_cons_self
          have hqp := mem_branchRows h hp (r := q)
          unfold branchRows at hqp
          rw [List.mem_filter] at hqp
          by_cases h1 : encl q r
          · by_cases h2 : encl q p
            · have : ¬ InB p q := by
                rintro (rfl | he)
                · exact encl_irrefl _ h2
                · exact encl_asymm he h2
              have hf : (q.tree == p.tree && decide (p.lft ≤ q.lft) && decide (q.rgt ≤ p.rgt)) = false := by
                rw [← Bool.not_eq_true]
                intro ht
                exact this (hqp.1 ⟨hq, ht⟩).2
              simp [h1, h2, hf]; omega
            · have : InB p q := by
                rcases hb with rfl | he
                · exact absurd h1 h2
                · rcases h.chain hq hp hr' h1 he with e | e | e
                  · exact Or.inl e
                  · exact absurd e h2
                  · exact Or.inr e
              have ht := (hqp.2 ⟨hq, this⟩).2
              simp only [h1, h2, ht]; simp
              omega
          · have h2 : ¬ encl q p := by
              intro h2
              rcases hb with rfl | he
              · exact h1 h2
              · exact h1 (encl_trans h2 he)
            simp [h1, h2]
      exact this db.rows (fun _ h => h)
    omega

end Verif.NS
