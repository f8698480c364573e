/-
C73: the admin's tree page in the browser shows the tree.
-/
import Verif.PageFlags
import Verif.Props.AdminList

namespace Verif

variable {F : Forest} {ids : List Nat} {req : Nat → Nat → Except Err (List AdminRow × Nat)} {top roots : List AdminRow}

/-- The rows of the table: `D` are the nodes whose children have been loaded.  The roots and the children of the nodes in `D` are there, in tree order, every one once, each with its level
and the right parent, and exactly the nodes with children have a button. -/
structure InTreeOrder (F : Forest) (D : Nat → Bool) (rows : List DomRow) : Prop where
  order : (F.opened D).DFS (F none) (rows.map (fun r => r.row.node))
  once : (rows.map (fun r => r.row.node)).Nodup
  level : ∀ r ∈ rows, ∃ n : Nat, r.row.level = n ∧ F.Level r.row.node n
  parent : ∀ r ∈ rows, ∃ q, r.row.node ∈ F q ∧ r.row.parent = q.getD 0
  button : ∀ r ∈ rows, (r.row.hasChildren = true ↔ F (some r.row.node) ≠ [])

/-- What C73 asks of a page that is loaded with the roots `top` and a server that answers `req`. -/
structure PageWorks (F : Forest) (top : List AdminRow) (req : Nat → Nat → Except Err (List AdminRow × Nat)) : Prop where
  /-- whatever the user does, and whenever the answers come: nothing fails, and the rows are in tree order -/
  rows : ∀ es, ∃ s, (Page.load top).run req es = .ok s ∧ ∃ D, InTreeOrder F D s.rows
  /-- a user who waits for the answers sees the nodes that they opened -/
  screen : ∀ es s, Patient req (Page.load top) es → (Page.load top).run req es = .ok s → s.pending = [] → ScreenShows F (F.openAfter es) s.screen
  /-- the answers come to an end -/
  settles : ∀ es s, (Page.load top).run req es = .ok s →
    ∃ N, ∀ ks : List Nat, (∀ q ∈ s.pending, N ≤ ks.count q.node) → ∃ s', s.run req (ks.map .answer) = .ok s' ∧ s'.pending = []

theorem pageWorks_of (hF : F.IsForestOn ids) (h0 : 0 ∉ ids) (ht : ListsChildren F none top) (hs : ServesPages F ids req) : PageWorks F top req := by
  have hg := hF.good
  refine ⟨?_, ?_, ?_⟩
  · intro es
    obtain ⟨D, s, he, hI⟩ := (pageInv_load ht).run hg h0 hs es
    refine ⟨s, he, D, ?_, ?_, ?_, ?_, ?_⟩
    · have := hI.rows.dfs
      rwa [List.map_map] at this
    · have := hI.rows.nodup hg
      rwa [List.map_map] at this
    · exact fun r hr => hI.rows.level r.row (List.mem_map_of_mem hr)
    · exact fun r hr => hI.rows.parent r.row (List.mem_map_of_mem hr)
    · exact fun r hr => hI.rows.has r.row (List.mem_map_of_mem hr)
  · intro es s hp he hpend
    obtain ⟨s', he', D, hI, hc⟩ := (patientInv_load hg ht).run hg h0 hs hp
    rw [he] at he'
    injection he' with he'
    subst he'
    rcases hc with ⟨_, hS⟩ | ⟨_, q, hq, _⟩
    · exact hS.screen hg hI.rows
    · rw [hpend] at hq; cases hq
  · intro es s he
    obtain ⟨D, s', he', hI⟩ := (pageInv_load ht).run hg h0 hs es
    rw [he] at he'
    injection he' with he'
    subst he'
    exact hI.settles hg h0 hs

/-! ### A page of the roots -/

theorem dfs_sublist {cs l : List Nat} (h : F.DFS cs l) : ∀ {cs'}, cs'.Sublist cs → ∃ l', F.DFS cs' l' ∧ l'.Sublist l := by
  induction h with
  | nil =>
    intro cs' hs
    rw [List.sublist_nil] at hs
    subst hs
    exact ⟨[], .nil, .slnil⟩
  | @cons c cs l₁ l₂ h1 _ _ ih2 =>
    intro cs' hs
    cases hs with
    | cons _ hs =>
      obtain ⟨l', a, b⟩ := ih2 hs
      exact ⟨l', a, (b.trans (List.sublist_append_right l₁ l₂)).cons c⟩
    | cons_cons _ hs =>
      obtain ⟨l', a, b⟩ := ih2 hs
      exact ⟨c :: (l₁ ++ l'), .cons h1 a, (b.append_left l₁).cons_cons c⟩

theorem under_forest (hF : F.IsForestOn ids) {cs : List Nat} (hc : cs.Sublist (F none)) : ∃ l, (F.under cs).IsForestOn l ∧ (∀ k ∈ l, k ∈ ids) ∧
    ∀ k, k ∈ l ↔ ∃ c ∈ cs, k = c ∨ F.Desc c k := by
  obtain ⟨L, hd, hn, hp⟩ := hF.listing
  obtain ⟨l, h1, h2⟩ := dfs_sublist hd hc
  refine ⟨l, ⟨⟨l, ?_, h2.nodup hn, List.Perm.refl _⟩, ?_⟩, fun k hk => hp.mem_iff.1 (h2.subset hk), fun k => h1.mem k⟩
  · exact h1.congr (fun x hx => (if_pos ((h1.mem x).1 hx)).symm)
  · exact fun p hp => if_neg (fun h => hp ((h1.mem p).2 h))

theorem under_all (hF : F.IsForestOn ids) : F.under (F none) = F := by
  obtain ⟨L, hd, _, hp⟩ := hF.listing
  funext p
  cases p with
  | none => rfl
  | some p =>
    rw [Forest.under]
    split
    · rfl
    · next h => exact (hF.outside p (fun hk => h ((hd.mem p).1 (hp.mem_iff.2 hk)))).symm

theorem under_level (hF : F.IsForestOn ids) {cs : List Nat} (hc : cs.Sublist (F none)) {x n : Nat} (h : F.Level x n) (hx : ∃ c ∈ cs, x = c ∨ F.Desc c x) :
    (F.under cs).Level x n := by
  have hg := hF.good
  induction h with
  | root h =>
    obtain ⟨c, hcc, rfl | hd⟩ := hx
    · exact .root hcc
    · cases hd with
      | child h' => exact absurd (hg.one _ _ _ h h') (by simp)
      | step _ h' => exact absurd (hg.one _ _ _ h h') (by simp)
  | @child p x n _ h ih =>
    have hp : ∃ c ∈ cs, p = c ∨ F.Desc c p := by
      obtain ⟨c, hcc, rfl | hd⟩ := hx
      · exact absurd (hg.one _ _ _ (hc.subset hcc) h) (by simp)
      · cases hd with
        | child h' =>
          have := hg.one _ _ _ h h'
          injection this with this
          exact ⟨c, hcc, Or.inl this⟩
        | step hd h' =>
          have := hg.one _ _ _ h h'
          injection this with this
          exact ⟨c, hcc, Or.inr (this ▸ hd)⟩
    exact .child (ih hp) (by rw [Forest.under, if_pos hp]; exact h)

/-- **C73**: on every forest, for every page of its roots, every server that serves the children page by page, every sequence of events. -/
theorem C73_page (hF : F.IsForestOn ids) (h0 : 0 ∉ ids) (hr : ListsChildren F none roots) (ht : top.Sublist roots) (hs : ServesPages F ids req) :
    PageWorks (F.under (top.map AdminRow.node)) top req := by
  have hc : (top.map AdminRow.node).Sublist (F none) := by rw [← hr.nodes]; exact ht.map _
  obtain ⟨l, hF', hsub, hmem⟩ := under_forest hF hc
  have hin : ∀ a ∈ top, ∃ c ∈ top.map AdminRow.node, a.node = c ∨ F.Desc c a.node := fun a ha => ⟨_, List.mem_map_of_mem ha, Or.inl rfl⟩
  refine pageWorks_of hF' (fun h => h0 (hsub 0 h)) ⟨rfl, ?_, ?_, ?_⟩ ?_
  · exact fun a ha => hr.parent a (ht.subset ha)
  · intro a ha
    obtain ⟨n, h1, h2⟩ := hr.level a (ht.subset ha)
    exact ⟨n, h1, under_level hF hc h2 (hin a ha)⟩
  · intro a ha
    rw [hr.hasChildren a (ht.subset ha), Forest.under, if_pos (hin a ha)]
  · intro k hk
    obtain ⟨n, pg, h1, h2, h3⟩ := hs k (hsub k hk)
    have hkc := (hmem k).1 hk
    have hbelow : ∀ x ∈ F (some k), ∃ c ∈ top.map AdminRow.node, x = c ∨ F.Desc c x := by
      intro x hx
      obtain ⟨c, hcc, rfl | hd⟩ := hkc
      · exact ⟨_, hcc, Or.inr (.child hx)⟩
      · exact ⟨c, hcc, Or.inr (.step hd hx)⟩
    refine ⟨n, pg, h1, h2, ?_, h3.parent, ?_, ?_⟩
    · rw [h3.nodes, Forest.under, if_pos hkc]
    · intro a ha
      obtain ⟨m, h4, h5⟩ := h3.level a ha
      exact ⟨m, h4, under_level hF hc h5 (hbelow _ (by rw [← h3.nodes]; exact List.mem_map_of_mem ha))⟩
    · intro a ha
      rw [h3.hasChildren a ha, Forest.under, if_pos (hbelow _ (by rw [← h3.nodes]; exact List.mem_map_of_mem ha))]

/-- **C73** when all the roots are on the page. -/
theorem C73_whole (hF : F.IsForestOn ids) (h0 : 0 ∉ ids) (hr : ListsChildren F none roots) (hs : ServesPages F ids req) : PageWorks F roots req := by
  have := C73_page hF h0 hr (List.Sublist.refl _) hs
  rwa [hr.nodes, under_all hF] at this

/-! ### Paging -/

theorem flatMap_pages (l : List AdminRow) (P : Nat) : ∀ n, (List.range n).flatMap (fun i => (l.drop (i * P)).take P) = l.take (n * P) := by
  intro n
  induction n with
  | zero => simp
  | succ n ih =>
    rw [List.range_succ, List.flatMap_append, ih]
    simp only [List.flatMap_cons, List.flatMap_nil, List.append_nil]
    rw [Nat.succ_mul, List.take_add]

/-- The parameter `all` does harm only to lists that Django would page otherwise and shows as a whole. -/
def Paging.Fits (g : Paging) (F : Forest) : Prop := 1 ≤ g.perPage ∧ (g.showAll = true → ∀ k, (F (some k)).length ≤ g.perPage ∨ g.maxAll < (F (some k)).length)

theorem page_sublist (g : Paging) (l : List AdminRow) (i : Nat) : (g.page l i).1.Sublist l := by
  unfold Paging.page
  simp only
  split
  · exact List.Sublist.refl _
  · exact (List.take_sublist _ _).trans (List.drop_sublist _ _)

theorem servesPages {g : Paging} (hg : g.Fits F) {σ ρ : Type} {v : TreeView σ ρ} {db : σ} (h : AdminShows F ids (treeContext v db)) : ServesPages F ids (childrenView v g db) := by
  obtain ⟨hP, hall⟩ := hg
  intro k hk
  obtain ⟨l, h1, h2⟩ := h.lists (some k) (fun j e => by injection e with e; rwa [← e])
  refine ⟨max 1 ((l.length + g.perPage - 1) / g.perPage), fun i => (g.page l i).1, le_max_left _ _, fun i _ _ => by rw [childrenView, h1]; rfl, ?_⟩
  have hlen : l.length = (F (some k)).length := by rw [← h2.nodes, List.length_map]
  suffices (List.range (max 1 ((l.length + g.perPage - 1) / g.perPage))).flatMap (fun i => (g.page l (i + 1)).1) = l by
    rw [this]; exact h2
  by_cases hle : l.length ≤ g.perPage
  · have : (l.length + g.perPage - 1) / g.perPage ≤ 1 := by
      refine Nat.le_of_lt_succ (Nat.div_lt_of_lt_mul ?_)
      omega
    rw [max_eq_left this]
    simp [Paging.page, hle]
  · have hno : ¬ (l.length ≤ g.perPage || (g.showAll && decide (l.length ≤ g.maxAll))) = true := by
      simp only [Bool.or_eq_true, decide_eq_true_eq, Bool.and_eq_true, not_or, not_and]
      refine ⟨hle, fun hs => ?_⟩
      rcases hall hs k with h | h <;> omega
    have hpg : ∀ i, (g.page l (i + 1)).1 = (l.drop (i * g.perPage)).take g.perPage := by
      intro i
      simp only [Paging.page, if_neg hno, Nat.add_sub_cancel]
    simp only [hpg]
    rw [flatMap_pages]
    refine List.take_of_length_le ?_
    have h3 : l.length ≤ (l.length + g.perPage - 1) / g.perPage * g.perPage := by
      have := Nat.div_add_mod (l.length + g.perPage - 1) g.perPage
      have h4 := Nat.mod_lt (l.length + g.perPage - 1) (show 0 < g.perPage by omega)
      rw [Nat.mul_comm] at this
      omega
    exact le_trans h3 (Nat.mul_le_mul_right _ (le_max_right _ _))

/-- the page of the admin, for every manager whose list shows the tree -/
theorem pageWorks_view {g : Paging} (hg : g.Fits F) {σ ρ : Type} {v : TreeView σ ρ} {db : σ} (h : AdminShows F ids (treeContext v db)) (hF : F.IsForestOn ids) (h0 : 0 ∉ ids)
    (i : Nat) : ∃ top n, rootsView v g db i = .ok (top, n) ∧ PageWorks (F.under (top.map AdminRow.node)) top (childrenView v g db) := by
  obtain ⟨roots, h1, h2⟩ := h.lists none nofun
  exact ⟨(g.page roots i).1, (g.page roots i).2, by rw [rootsView, h1], C73_page hF h0 h2 (page_sublist g roots i) (servesPages hg h)⟩

namespace MP
variable {cfg : Cfg} {db : DB} {g : Paging}

/-- **C73 for MP**: every consistent tree, every paging, every page of the roots. -/
theorem C73_mp_partial (hok : cfg.Ok) (h : Consistent cfg db) (h0 : ∀ r ∈ db.rows, r.pk ≠ 0) (hg : g.Fits (forest cfg db)) (i : Nat) :
    ∃ top n, rootsView (treeView cfg) g db i = .ok (top, n) ∧ PageWorks ((forest cfg db).under (top.map AdminRow.node)) top (childrenView (treeView cfg) g db) := by
  refine pageWorks_view hg (C54_mp hok h) ?_ (by simpa using h0) i
  have hi := (consistent_iff hok).1 h
  rw [forest_eq hi hok]
  exact isForestOn hi.inv hok.step

end MP

namespace NS
variable {db : DB} {g : Paging}

/-- **C73 for NS** -/
theorem C73_ns_partial (h : Consistent db) (h0 : ∀ r ∈ db.rows, r.pk ≠ 0) (hg : g.Fits (forest db)) (i : Nat) :
    ∃ top n, rootsView treeView g db i = .ok (top, n) ∧ PageWorks ((forest db).under (top.map AdminRow.node)) top (childrenView treeView g db) := by
  have hF := isForestOn h
  rw [keys_eq] at hF
  exact pageWorks_view hg (C54_ns h) hF (by simpa using h0) i

end NS

namespace AL
variable {cfg : Cfg} {db : DB} {g : Paging}

/-- **C73 for AL** -/
theorem C73_al_partial (h : Wf cfg db) (h0 : ∀ r ∈ db.rows, r.pk ≠ 0) (hg : g.Fits (forest cfg db)) (i : Nat) :
    ∃ top n, rootsView (treeView cfg) g db i = .ok (top, n) ∧ PageWorks ((forest cfg db).under (top.map AdminRow.node)) top (childrenView (treeView cfg) g db) := by
  have hF := isForestOn (cfg := cfg) h.ai
  rw [data_keys] at hF
  exact pageWorks_view hg (C54_al h) hF (by simpa using h0) i

end AL

namespace LT
variable {db : DB} {g : Paging}

/-- **C73 for LT** -/
theorem C73_lt_partial (h : Consistent db) (h0 : ∀ r ∈ db.rows, r.pk ≠ 0) (hg : g.Fits (forest db)) (i : Nat) :
    ∃ top n, rootsView treeView g db i = .ok (top, n) ∧ PageWorks ((forest db).under (top.map AdminRow.node)) top (childrenView treeView g db) := by
  have hF := isForestOn h
  rw [keys_eq] at hF
  exact pageWorks_view hg (C54_lt h) hF (by simpa using h0) i

end LT

/-! ### Where the page goes wrong -/

namespace MP

/-- a page of 100 rows -/
def exPaging : Paging := ⟨100, 200, false⟩

/-- the page that is loaded for the example -/
def exTop : List AdminRow := [⟨1, 0, 1, true⟩, ⟨5, 0, 1, false⟩]

theorem exTop_eq : rootsView (treeView exCfg) exPaging exDB 1 = .ok (exTop, 1) := by decide

/-- the events on the page of the example -/
def exRun (es : List PageEvent) : Except Err Page := (Page.load exTop).run (childrenView (treeView exCfg) exPaging exDB) es

/-- A user who closes a node while the children of a node below it are being loaded: the answer puts a visible row below hidden ones.  No set of open nodes looks like that. -/
theorem C73_hidden_parent : ∃ s, exRun [.click 1, .answer 1, .click 3, .click 1, .answer 3] = .ok s ∧ s.pending = [] ∧
    s.screen.map ScreenRow.node = [1, 4, 5] ∧ ∀ O, ¬ ScreenShows (forest exCfg exDB) O s.screen := by
  refine ⟨_, rfl, rfl, rfl, fun O h => ?_⟩
  have hb := h.button ⟨1, 1, some ⟨true, false, false⟩⟩ (by decide)
  have hO : O 1 = false := by
    rcases hb with ⟨_, hb⟩ | ⟨_, hb⟩
    · cases hb
    · simpa using hb
  have hd := h.order
  rw [exDB_forest.1] at hd
  change (Forest.opened _ O).DFS [1, 5] [1, 4, 5] at hd
  generalize hl : [1, 4, 5] = l at hd
  cases hd with
  | @cons _ _ l₁ l₂ h1 h2 =>
    rw [opened_false hO] at h1
    cases h1
    cases h2 with
    | cons _ _ => simp at hl

/-- A user who clicks again while the children are being loaded: in the end the button shows a closed node and an open one at once. -/
theorem C73_both_classes : ∃ s, exRun [.click 1, .click 1, .answer 1] = .ok s ∧ s.pending = [] ∧
    ⟨1, 1, some ⟨true, true, false⟩⟩ ∈ s.screen ∧ ∀ O, ¬ ScreenShows (forest exCfg exDB) O s.screen := by
  refine ⟨_, rfl, rfl, by decide, fun O h => ?_⟩
  rcases h.button ⟨1, 1, some ⟨true, true, false⟩⟩ (by decide) with ⟨_, hb⟩ | ⟨_, hb⟩
  · cases hb
  · simp at hb

/-- a tree whose root has the primary key 0 -/
def zeroDB : DB := { rows := [⟨0, [49], 1, 1, []⟩, ⟨1, [49, 49], 2, 0, []⟩] }

theorem zeroDB_consistent : Consistent exCfg zeroDB := ⟨by decide, by decide, by intro p; cases p <;> decide, by decide, by decide⟩

/-- The parent of a root is given as 0.  So a node with the primary key 0 is taken for a child of itself: it can be opened, but closing it is a recursion without end, whatever the size of
the stack. -/
theorem C73_key_zero : ∃ top s r, rootsView (treeView exCfg) exPaging zeroDB 1 = .ok (top, 1) ∧
    (Page.load top).run (childrenView (treeView exCfg) exPaging zeroDB) [.click 0, .answer 0] = .ok s ∧ s.screen.map ScreenRow.node = [0, 1] ∧
    s.seen? 0 = some r ∧ r.isCollapsed = false ∧ (∀ n, collapse n s.rows 0 = .error .diverges) ∧ s.step (childrenView (treeView exCfg) exPaging zeroDB) (.click 0) = .error .diverges := by
  refine ⟨[⟨0, 0, 1, true⟩], ⟨[⟨⟨0, 0, 1, true⟩, true, false, true, false, false⟩, ⟨⟨1, 0, 2, false⟩, false, false, false, false, false⟩], []⟩, _, by decide, by decide, by decide, rfl, by decide,
    ?_, by decide⟩
  intro n
  induction n with
  | zero => rfl
  | succ n ih =>
    rw [collapse]
    change (match (do let rows ← collapse n _ 0; List.foldlM (fun rows c => collapse n rows c) rows [1]) with | .error e => _ | .ok rows => _) = _
    rw [ih]
    rfl

/-- With the parameter `all` in the address Django sends all the children with every page, but still counts the pages: they all appear twice. -/
theorem C73_show_all : ∃ s, (Page.load exTop).run (childrenView (treeView exCfg) ⟨1, 2, true⟩ exDB) [.click 1, .answer 1, .answer 1] = .ok s ∧
    rootsView (treeView exCfg) ⟨1, 2, true⟩ exDB 1 = .ok (exTop, 2) ∧ s.pending = [] ∧ s.screen.map ScreenRow.node = [1, 2, 3, 2, 3, 5] := by
  exact ⟨_, rfl, by decide, rfl, rfl⟩

/-! ### Examples -/

/-- The theorems apply: a tree without the key 0, a paging that fits and splits lists, and a patient user; what they see. -/
example : Consistent exCfg exDB ∧ (∀ r ∈ exDB.rows, r.pk ≠ 0) ∧ Paging.Fits ⟨1, 2, false⟩ (forest exCfg exDB) ∧
    Patient (childrenView (treeView exCfg) ⟨1, 2, false⟩ exDB) (Page.load exTop) [.click 1, .answer 1, .answer 1, .over 3, .answer 3] ∧
    ∃ s, (Page.load exTop).run (childrenView (treeView exCfg) ⟨1, 2, false⟩ exDB) [.click 1, .answer 1, .answer 1, .over 3, .answer 3] = .ok s ∧ s.pending = [] ∧
      s.screen = [⟨1, 1, some ⟨false, true, false⟩⟩, ⟨2, 2, none⟩, ⟨3, 2, some ⟨false, true, false⟩⟩, ⟨4, 3, none⟩, ⟨5, 1, none⟩] := by
  refine ⟨exDB_consistent, by decide, ⟨by decide, nofun⟩, ?_, _, rfl, rfl, rfl⟩
  refine ⟨fun _ => rfl, fun s h => ?_⟩
  cases h
  refine ⟨nofun, fun s h => ?_⟩
  cases h
  refine ⟨nofun, fun s h => ?_⟩
  cases h
  refine ⟨fun _ => rfl, fun s h => ?_⟩
  cases h
  exact ⟨nofun, fun _ _ => trivial⟩

end MP

end Verif
