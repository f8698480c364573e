/-
Lemmas about the page of the admin's tree list: listings of opened forests, and what `collapse` does to the rows.
-/
import Verif.AdminPage
import Verif.DumpForest
import Verif.Annotated

namespace Verif

variable {F G : Forest}

/-! ### Listings -/

theorem Forest.DFS.uniq {cs l : List Nat} (h : F.DFS cs l) : l.Nodup →
    (∀ p ∈ l, ∀ x ∈ F (some p), x ∈ l ∧ x ∉ cs) ∧ ∀ p ∈ l, ∀ q ∈ l, ∀ x, x ∈ F (some p) → x ∈ F (some q) → p = q := by
  induction h with
  | nil => exact fun _ => ⟨nofun, nofun⟩
  | @cons c cs l₁ l₂ h1 h2 ih1 ih2 =>
    intro hnd
    simp only [List.nodup_cons, List.nodup_append, List.mem_append, not_or] at hnd
    obtain ⟨⟨hc1, hc2⟩, hn1, hn2, hdis⟩ := hnd
    obtain ⟨a1, b1⟩ := ih1 hn1
    obtain ⟨a2, b2⟩ := ih2 hn2
    have t1 := h1.top_sub
    have t2 := h2.top_sub
    have in1 : ∀ x ∈ l₁, x ∈ c :: (l₁ ++ l₂) ∧ x ∉ c :: cs := by
      intro x hx
      refine ⟨by simp [hx], ?_⟩
      rw [List.mem_cons, not_or]
      exact ⟨by rintro rfl; exact hc1 hx, fun h => hdis x hx x (t2 x h) rfl⟩
    constructor
    · intro p hp x hx
      simp only [List.mem_cons, List.mem_append] at hp
      rcases hp with rfl | hp | hp
      · exact in1 x (t1 x hx)
      · exact in1 x (a1 p hp x hx).1
      · obtain ⟨i, j⟩ := a2 p hp x hx
        refine ⟨by simp [i], ?_⟩
        rw [List.mem_cons, not_or]
        exact ⟨by rintro rfl; exact hc2 i, j⟩
    · have sep : ∀ p q x, (p = c ∨ p ∈ l₁) → q ∈ l₂ → x ∈ F (some p) → x ∈ F (some q) → False := by
        intro p q x hp hq hx hy
        have i := (a2 q hq x hy).1
        rcases hp with rfl | hp
        · exact hdis x (t1 x hx) x i rfl
        · exact hdis x (a1 p hp x hx).1 x i rfl
      intro p hp q hq x hx hy
      simp only [List.mem_cons, List.mem_append] at hp hq
      rcases hp with hp | hp | hp
      · rcases hq with hq | hq | hq
        · rw [hp, hq]
        · subst hp; exact absurd hx (a1 q hq x hy).2
        · exact (sep p q x (Or.inl hp) hq hx hy).elim
      · rcases hq with hq | hq | hq
        · subst hq; exact absurd hy (a1 p hp x hx).2
        · exact b1 p hp q hq x hx hy
        · exact (sep p q x (Or.inr hp) hq hx hy).elim
      · rcases hq with hq | hq | hq
        · exact (sep q p x (Or.inl hq) hp hy hx).elim
        · exact (sep q p x (Or.inr hq) hp hy hx).elim
        · exact b2 p hp q hq x hx hy

/-- what is needed of a forest here -/
structure Forest.Good (F : Forest) (ids : List Nat) : Prop where
  one : ∀ p q k, k ∈ F p → k ∈ F q → p = q
  sub : ∀ p, ∀ k ∈ F p, k ∈ ids
  all : ∃ l, F.DFS (F none) l ∧ l.Nodup

theorem Forest.IsForestOn.good {ids : List Nat} (h : F.IsForestOn ids) : F.Good ids := by
  obtain ⟨l, hd, hn, hp⟩ := h.listing
  obtain ⟨h1, h2⟩ := hd.uniq hn
  have hin : ∀ p x, x ∈ F (some p) → p ∈ l := by
    intro p x hx
    by_contra hc
    rw [h.outside p (fun h => hc (hp.mem_iff.2 h))] at hx
    cases hx
  refine ⟨?_, ?_, l, hd, hn⟩
  · intro p q k hk hk'
    cases p with
    | none =>
      cases q with
      | none => rfl
      | some q => exact absurd hk (h1 q (hin q k hk') k hk').2
    | some p =>
      cases q with
      | none => exact absurd hk' (h1 p (hin p k hk) k hk).2
      | some q => rw [h2 p (hin p k hk) q (hin q k hk') k hk hk']
  · intro p k hk
    cases p with
    | none => exact hp.mem_iff.1 (hd.top_sub k hk)
    | some p => exact hp.mem_iff.1 (h1 p (hin p k hk) k hk).1

theorem Forest.DFS.congr {cs l : List Nat} (h : F.DFS cs l) (he : ∀ x ∈ l, F (some x) = G (some x)) : G.DFS cs l := by
  induction h with
  | nil => exact .nil
  | @cons c cs l₁ l₂ h1 h2 ih1 ih2 =>
    refine .cons ?_ (ih2 (fun x hx => he x (by simp [hx])))
    rw [← he c (by simp)]
    exact ih1 (fun x hx => he x (by simp [hx]))

theorem dfs_leaves {cs : List Nat} (h : ∀ c ∈ cs, F (some c) = []) : F.DFS cs cs := by
  induction cs with
  | nil => exact .nil
  | cons c cs ih =>
    have := Forest.DFS.cons (F := F) (c := c) (l₁ := []) (by rw [h c (by simp)]; exact .nil) (ih (fun x hx => h x (by simp [hx])))
    exact this

theorem opened_sublist {D : Nat → Bool} {cs l : List Nat} (h : F.DFS cs l) : ∀ {l'}, (F.opened D).DFS cs l' → l'.Sublist l := by
  induction h with
  | nil => intro l' h; cases h; exact .slnil
  | @cons c cs l₁ l₂ h1 h2 ih1 ih2 =>
    intro l' h'
    cases h' with
    | @cons _ _ k₁ k₂ g1 g2 =>
      refine List.Sublist.cons_cons c ((?_ : k₁.Sublist l₁).append (ih2 g2))
      by_cases hD : D c = true
      · rw [show F.opened D (some c) = F (some c) from if_pos hD] at g1
        exact ih1 g1
      · rw [show F.opened D (some c) = [] from if_neg hD] at g1
        cases g1
        exact List.nil_sublist _

theorem DFS_branch {cs l : List Nat} (h : F.DFS cs l) {k : Nat} (hk : k ∈ l) : ∃ l', F.DFS [k] l' ∧ l'.length ≤ l.length := by
  induction h with
  | nil => cases hk
  | @cons c cs l₁ l₂ h1 h2 ih1 ih2 =>
    simp only [List.mem_cons, List.mem_append] at hk
    rcases hk with rfl | hk | hk
    · refine ⟨k :: (l₁ ++ []), .cons h1 .nil, by simp⟩
    · obtain ⟨l', a, b⟩ := ih1 hk
      exact ⟨l', a, by simp; omega⟩
    · obtain ⟨l', a, b⟩ := ih2 hk
      exact ⟨l', a, by simp; omega⟩

/-- put a list after `k` -/
def insertList (k : Nat) (new : List Nat) : List Nat → List Nat
  | [] => []
  | x :: xs => if x = k then x :: (new ++ xs) else x :: insertList k new xs

theorem insertList_not_mem {k : Nat} {new l : List Nat} (h : k ∉ l) : insertList k new l = l := by
  induction l with
  | nil => rfl
  | cons x xs ih =>
    rw [List.mem_cons, not_or] at h
    rw [insertList, if_neg (Ne.symm h.1), ih h.2]

theorem insertList_append {k : Nat} {new a b : List Nat} : insertList k new (a ++ b) = if k ∈ a then insertList k new a ++ b else a ++ insertList k new b := by
  induction a with
  | nil => simp
  | cons x xs ih =>
    by_cases hx : x = k
    · subst hx; simp [insertList]
    · simp only [List.cons_append, insertList, if_neg hx, ih, List.mem_cons, Ne.symm hx, false_or]
      split <;> simp

/-- opening one more node -/
theorem dfs_insert {D : Nat → Bool} {k : Nat} (hk : D k = false) (hc : ∀ c ∈ F (some k), D c = false ∧ c ≠ k) {cs l : List Nat} (h : (F.opened D).DFS cs l)
    (hn : l.Nodup) : (F.opened (fun x => D x || x == k)).DFS cs (insertList k (F (some k)) l) := by
  induction h with
  | nil => exact .nil
  | @cons c cs l₁ l₂ h1 h2 ih1 ih2 =>
    simp only [List.nodup_cons, List.nodup_append, List.mem_append, not_or] at hn
    obtain ⟨⟨hc1, hc2⟩, hn1, hn2, hdis⟩ := hn
    have hrest : ∀ l : List Nat, k ∉ l → ∀ x ∈ l, F.opened D (some x) = F.opened (fun x => D x || x == k) (some x) := by
      intro l hl x hx
      have : x ≠ k := by rintro rfl; exact hl hx
      simp [Forest.opened, this]
    by_cases hck : c = k
    · subst hck
      rw [show F.opened D (some c) = [] from by simp [Forest.opened, hk]] at h1
      cases h1
      rw [insertList, if_pos rfl]
      refine .cons ?_ (h2.congr (hrest l₂ hc2))
      rw [show F.opened (fun x => D x || x == c) (some c) = F (some c) from by simp [Forest.opened]]
      refine dfs_leaves (fun x hx => ?_)
      obtain ⟨h3, h4⟩ := hc x hx
      simp [Forest.opened, h3, h4]
    · rw [insertList, if_neg hck, insertList_append]
      have hcc : F.opened D (some c) = F.opened (fun x => D x || x == k) (some c) := by simp [Forest.opened, hck]
      by_cases hm : k ∈ l₁
      · rw [if_pos hm]
        refine .cons ?_ (h2.congr (hrest l₂ (fun h => hdis k hm k h rfl)))
        rw [← hcc]
        exact ih1 hn1
      · rw [if_neg hm]
        refine .cons ?_ (ih2 hn2)
        rw [← hcc]
        exact h1.congr (hrest l₁ hm)

/-! ### The static part of the rows -/

/-- the rows show the listing of the forest opened at `D`, with the right attributes -/
structure RowsRight (F : Forest) (D : Nat → Bool) (R : List AdminRow) : Prop where
  dfs : (F.opened D).DFS (F none) (R.map AdminRow.node)
  parent : ∀ a ∈ R, ∃ q, a.node ∈ F q ∧ a.parent = q.getD 0
  level : ∀ a ∈ R, ∃ n : Nat, a.level = n ∧ F.Level a.node n
  has : ∀ a ∈ R, (a.hasChildren = true ↔ F (some a.node) ≠ [])
  sub : ∀ x, D x = true → x ∈ R.map AdminRow.node

variable {D : Nat → Bool} {R : List AdminRow} {ids : List Nat}

theorem RowsRight.nodup (h : RowsRight F D R) (hg : F.Good ids) : (R.map AdminRow.node).Nodup := by
  obtain ⟨l, hl, hn⟩ := hg.all
  exact (opened_sublist hl h.dfs).nodup hn

theorem RowsRight.inj (h : RowsRight F D R) (hg : F.Good ids) {a b : AdminRow} (ha : a ∈ R) (hb : b ∈ R) (e : a.node = b.node) : a = b :=
  List.inj_on_of_nodup_map (h.nodup hg) ha hb e

/-- the parent of a row is open -/
theorem RowsRight.parent_open (h : RowsRight F D R) (hg : F.Good ids) {a : AdminRow} (ha : a ∈ R) {p : Nat} (hp : a.node ∈ F (some p)) :
    D p = true ∧ p ∈ R.map AdminRow.node := by
  have hm : a.node ∈ R.map AdminRow.node := List.mem_map_of_mem ha
  obtain ⟨pre, post, e⟩ := List.append_of_mem hm
  rcases h.dfs.parent_before pre a.node post e with h1 | ⟨b, hb, h1⟩
  · exact absurd (hg.one _ _ _ h1 hp) (by simp)
  · by_cases hD : D b = true
    · rw [show F.opened D (some b) = F (some b) from if_pos hD] at h1
      have := hg.one _ _ _ h1 hp
      injection this with this
      subst this
      exact ⟨hD, by rw [e]; simp [hb]⟩
    · rw [show F.opened D (some b) = [] from if_neg hD] at h1
      cases h1

/-- the rows below a row -/
theorem RowsRight.children (h : RowsRight F D R) (hg : F.Good ids) (h0 : 0 ∉ ids) {k : Nat} (hk : k ∈ R.map AdminRow.node) {a : AdminRow} (ha : a ∈ R) :
    a.parent = k ↔ a.node ∈ F.opened D (some k) := by
  obtain ⟨q, hq, e⟩ := h.parent a ha
  constructor
  · rintro rfl
    cases q with
    | none =>
      exfalso
      obtain ⟨b, hb, e'⟩ := List.mem_map.1 hk
      obtain ⟨q', hq', _⟩ := h.parent b hb
      rw [e', e] at hq'
      exact h0 (hg.sub _ _ hq')
    | some p =>
      rw [show a.parent = p from e, show F.opened D (some p) = F (some p) from if_pos (h.parent_open hg ha hq).1]
      exact hq
  · intro hm
    by_cases hD : D k = true
    · rw [show F.opened D (some k) = F (some k) from if_pos hD] at hm
      rw [e, hg.one _ _ _ hq hm]
      rfl
    · rw [show F.opened D (some k) = [] from if_neg hD] at hm
      cases hm

theorem uniq_listed (h : RowsRight F D R) (hg : F.Good ids) {k x : Nat} (hk : k ∈ R.map AdminRow.node) (hx : x ∈ F.opened D (some k)) : x ∈ R.map AdminRow.node :=
  ((h.dfs.uniq (h.nodup hg)).1 k hk x hx).1

/-! ### Collapsing -/

/-- what `collapse` does to a row: close it, hide it -/
def DomRow.mark (c h : Bool) (r : DomRow) : DomRow :=
  let r := if c then r.cls (fun r => { r with expanded := false, collapsed := true }) else r
  { r with hidden := r.hidden || h }

theorem mark_row (c h : Bool) (r : DomRow) : (r.mark c h).row = r.row := by
  unfold DomRow.mark DomRow.cls
  cases c <;> simp
  split <;> rfl

theorem mark_mark (c h c' h' : Bool) (r : DomRow) : (r.mark c h).mark c' h' = r.mark (c || c') (h || h') := by
  unfold DomRow.mark DomRow.cls
  cases c <;> cases c' <;> cases hc : r.row.hasChildren <;> simp [hc, Bool.or_assoc]

theorem mark_ff (r : DomRow) : r.mark false false = r := by simp [DomRow.mark]

/-- mark the rows of the nodes in `C` closed and those in `H` hidden -/
def markAll (C H : Nat → Bool) (rows : List DomRow) : List DomRow := rows.map (fun r => r.mark (C r.row.node) (H r.row.node))

theorem markAll_static (C H : Nat → Bool) (rows : List DomRow) : (markAll C H rows).map DomRow.row = rows.map DomRow.row := by
  simp [markAll, Function.comp_def, mark_row]

theorem markAll_markAll (C H C' H' : Nat → Bool) (rows : List DomRow) :
    markAll C' H' (markAll C H rows) = markAll (fun x => C x || C' x) (fun x => H x || H' x) rows := by
  simp [markAll, Function.comp_def, mark_row, mark_mark]

theorem markAll_congr {C H C' H' : Nat → Bool} {rows : List DomRow} (h : ∀ r ∈ rows, C r.row.node = C' r.row.node ∧ H r.row.node = H' r.row.node) :
    markAll C H rows = markAll C' H' rows := by
  refine List.map_congr_left (fun r hr => ?_)
  rw [(h r hr).1, (h r hr).2]

open Classical in
/-- in the branch of `k` -/
noncomputable def inBranch (G : Forest) (k : Nat) (x : Nat) : Bool := decide (x = k ∨ G.Desc k x)

open Classical in
/-- below `k` -/
noncomputable def isBelow (G : Forest) (k : Nat) (x : Nat) : Bool := decide (G.Desc k x)

theorem collapse_eq (hR : RowsRight F D R) (hg : F.Good ids) (h0 : 0 ∉ ids) : ∀ (n : Nat) (rows : List DomRow) (k : Nat) (l : List Nat), rows.map DomRow.row = R →
    k ∈ R.map AdminRow.node → (F.opened D).DFS [k] l → l.length ≤ n →
    collapse n rows k = .ok (markAll (inBranch (F.opened D) k) (isBelow (F.opened D) k) rows) := by
  intro n
  induction n with
  | zero =>
    intro rows k l _ _ hd hl
    obtain ⟨l', rfl, _⟩ := dfs_branch_cons hd
    simp at hl
  | succ n ih =>
    intro rows k l hrows hk hd hl
    obtain ⟨l', rfl, hd'⟩ := dfs_branch_cons hd
    simp only [List.length_cons] at hl
    -- the loop over the children
    have loop : ∀ (cs : List Nat) (rows : List DomRow), rows.map DomRow.row = R → (∀ c ∈ cs, c ∈ F.opened D (some k)) →
        cs.foldlM (fun rows c => collapse n rows c) rows =
          .ok (markAll (fun x => cs.any (fun c => inBranch (F.opened D) c x)) (fun x => cs.any (fun c => isBelow (F.opened D) c x)) rows) := by
      intro cs
      induction cs with
      | nil =>
        intro rows _ _
        simp only [List.foldlM_nil, List.any_nil]
        show Except.ok rows = _
        rw [show markAll (fun _ => false) (fun _ => false) rows = rows from by simp [markAll, mark_ff]]
      | cons c cs ihc =>
        intro rows hr hcs
        obtain ⟨lc, hlc, hlen⟩ := DFS_branch hd' (hd'.top_sub c (hcs c (by simp)))
        rw [List.foldlM_cons, ih rows c lc hr (uniq_listed hR hg hk (hcs c (by simp))) hlc (by omega)]
        show cs.foldlM (fun rows c => collapse n rows c) _ = _
        rw [ihc _ (by rw [markAll_static]; exact hr) (fun x hx => hcs x (by simp [hx])), markAll_markAll]
        rfl
    have hcs : ∀ c ∈ (rows.filter (fun r => r.row.parent == k)).map (fun r => r.row.node), c ∈ F.opened D (some k) := by
      intro c hc
      obtain ⟨r, hr, rfl⟩ := List.mem_map.1 hc
      obtain ⟨hr, hp⟩ := List.mem_filter.1 hr
      exact (hR.children hg h0 hk (by rw [← hrows]; exact List.mem_map_of_mem hr)).1 (by simpa using hp)
    rw [collapse, loop _ rows hrows hcs]
    refine congrArg Except.ok ?_
    have hch : ∀ x, (∃ c ∈ (rows.filter (fun r => r.row.parent == k)).map (fun r => r.row.node), c = x) ↔ x ∈ F.opened D (some k) := by
      intro x
      constructor
      · rintro ⟨c, hc, rfl⟩; exact hcs c hc
      · intro hx
        obtain ⟨a, ha, e⟩ := List.mem_map.1 (uniq_listed hR hg hk hx)
        have ha' := ha
        rw [← hrows] at ha'
        obtain ⟨r, hr, e'⟩ := List.mem_map.1 ha'
        have hp := (hR.children hg h0 hk ha).2 (by rw [e]; exact hx)
        subst e'
        exact ⟨_, List.mem_map_of_mem (List.mem_filter.2 ⟨hr, by simpa using hp⟩), e⟩
    generalize hcs' : (rows.filter (fun r => r.row.parent == k)).map (fun r => r.row.node) = cs at hch
    unfold onRow onChildren markAll
    rw [List.map_map, List.map_map]
    refine List.map_congr_left (fun r hr => ?_)
    have hmem : r.row ∈ R := by rw [← hrows]; exact List.mem_map_of_mem hr
    have hpar := hR.children hg h0 hk hmem
    -- the marks
    have e1 : ((cs.any fun c => isBelow (F.opened D) c r.row.node) || decide (r.row.parent = k)) = isBelow (F.opened D) k r.row.node := by
      rw [Bool.eq_iff_iff]
      simp only [Bool.or_eq_true, List.any_eq_true, isBelow, decide_eq_true_eq, hpar]
      constructor
      · rintro (⟨c, hc, h⟩ | h)
        · exact Forest.Desc.trans (.child ((hch c).1 ⟨c, hc, rfl⟩)) h
        · exact .child h
      · intro h
        obtain ⟨m, hm, h⟩ := h.cases_head
        rcases h with h | h
        · subst h; exact Or.inr hm
        · obtain ⟨c, hc, rfl⟩ := (hch m).2 hm
          exact Or.inl ⟨c, hc, h⟩
    have e2 : ((cs.any fun c => inBranch (F.opened D) c r.row.node) || decide (r.row.node = k)) = inBranch (F.opened D) k r.row.node := by
      rw [Bool.eq_iff_iff]
      simp only [Bool.or_eq_true, List.any_eq_true, inBranch, decide_eq_true_eq]
      constructor
      · rintro (⟨c, hc, h | h⟩ | h)
        · subst h; exact Or.inr (.child ((hch _).1 ⟨_, hc, rfl⟩))
        · exact Or.inr (Forest.Desc.trans (.child ((hch c).1 ⟨c, hc, rfl⟩)) h)
        · exact Or.inl h
      · rintro (h | h)
        · exact Or.inr h
        · obtain ⟨m, hm, h⟩ := h.cases_head
          obtain ⟨c, hc, rfl⟩ := (hch m).2 hm
          exact Or.inl ⟨c, hc, h⟩
    rw [← e1, ← e2, ← mark_mark]
    simp only [Function.comp_apply]
    rw [mark_row]
    generalize hr' : r.mark _ _ = r'
    have hrow : r'.row = r.row := by rw [← hr', mark_row]
    unfold DomRow.mark
    by_cases h1 : r.row.parent = k <;> by_cases h2 : r.row.node = k <;> simp [h1, h2, hrow, DomRow.cls]
    all_goals (cases h3 : r.row.hasChildren <;> (cases r'; simp_all))

end Verif
