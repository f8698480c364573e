/-
The invariants of the page of the admin's tree list: for every sequence of events, and for a user who waits for the answers.
-/
import Verif.PageLemmas

namespace Verif

variable {F : Forest} {D O : Nat → Bool} {ids : List Nat} {req : Nat → Nat → Except Err (List AdminRow × Nat)} {s s' : Page} {rows : List DomRow}

theorem opened_true {p : Nat} (h : D p = true) : F.opened D (some p) = F (some p) := if_pos h

theorem opened_false {p : Nat} (h : D p = false) : F.opened D (some p) = [] := if_neg (by simp [h])

/-- the nodes of the rows -/
def nodesOf (rows : List DomRow) : List Nat := (rows.map DomRow.row).map AdminRow.node

theorem mem_nodesOf {k : Nat} : k ∈ nodesOf rows ↔ ∃ r ∈ rows, r.row.node = k := by simp [nodesOf]

theorem insertRows_nodes (k : Nat) (new : List DomRow) : nodesOf (insertRows k new rows) = insertList k (nodesOf new) (nodesOf rows) := by
  unfold nodesOf
  induction rows with
  | nil => rfl
  | cons r rs ih =>
    simp only [insertRows, List.map_cons, insertList]
    split
    · simp
    · rw [List.map_cons, List.map_cons, ih]

theorem mem_insertRows {k : Nat} {new : List DomRow} (hk : k ∈ nodesOf rows) {r : DomRow} : r ∈ insertRows k new rows ↔ r ∈ rows ∨ r ∈ new := by
  induction rows with
  | nil => simp [nodesOf] at hk
  | cons a rs ih =>
    rw [insertRows]
    by_cases ha : a.row.node = k
    · rw [if_pos ha]
      simp only [List.mem_cons, List.mem_append]
      tauto
    · rw [if_neg ha]
      have : k ∈ nodesOf rs := by
        rw [mem_nodesOf] at hk ⊢
        obtain ⟨r, hr, e⟩ := hk
        rcases List.mem_cons.1 hr with rfl | hr
        · exact absurd e ha
        · exact ⟨r, hr, e⟩
      simp only [List.mem_cons, ih this]
      tauto

theorem onRow_static {k : Nat} {f : DomRow → DomRow} (hf : ∀ r, (f r).row = r.row) : (onRow k f rows).map DomRow.row = rows.map DomRow.row := by
  unfold onRow
  rw [List.map_map]
  refine List.map_congr_left (fun r _ => ?_)
  simp only [Function.comp_apply]
  split
  · exact hf r
  · rfl

theorem onChildren_static {k : Nat} {f : DomRow → DomRow} (hf : ∀ r, (f r).row = r.row) : (onChildren k f rows).map DomRow.row = rows.map DomRow.row := by
  unfold onChildren
  rw [List.map_map]
  refine List.map_congr_left (fun r _ => ?_)
  simp only [Function.comp_apply]
  split
  · exact hf r
  · rfl

/-- what `loadChildren` does to the row when it sends a request -/
def askRow (r : DomRow) : DomRow := { r with loaded := true }.cls fun r => { r with collapsed := false, loading := true }

/-- what `loadChildren` does to the row at the end -/
def doneRow (r : DomRow) : DomRow := r.cls fun r => { r with loading := false, expanded := true }

theorem ask_rows (s : Page) (k : Nat) (got : List AdminRow) (page : Nat) :
    (s.ask k got page).rows = s.rows.map (fun r => if r.row.node = k then askRow r else r) := rfl

theorem askRow_row (r : DomRow) : (askRow r).row = r.row := by unfold askRow DomRow.cls; split <;> rfl

theorem askRow_loaded (r : DomRow) : (askRow r).loaded = true := by unfold askRow DomRow.cls; split <;> rfl

theorem doneRow_row (r : DomRow) : (doneRow r).row = r.row := by unfold doneRow DomRow.cls; split <;> rfl

theorem doneRow_loaded (r : DomRow) : (doneRow r).loaded = r.loaded := by unfold doneRow DomRow.cls; split <;> rfl

/-- a child of a node that was not opened is not there -/
theorem RowsRight.new {R : List AdminRow} (h : RowsRight F D R) (hg : F.Good ids) {k c : Nat} (hD : D k = false) (hc : c ∈ F (some k)) :
    c ∉ R.map AdminRow.node ∧ D c = false := by
  have h1 : c ∉ R.map AdminRow.node := by
    intro hm
    obtain ⟨a, ha, rfl⟩ := List.mem_map.1 hm
    rw [(h.parent_open hg ha hc).1] at hD
    cases hD
  refine ⟨h1, ?_⟩
  cases hDc : D c with
  | false => rfl
  | true => exact absurd (h.sub c hDc) h1

theorem RowsRight.insert (h : RowsRight F D (rows.map DomRow.row)) (hg : F.Good ids) {k : Nat} (hk : k ∈ nodesOf rows) (hD : D k = false) {new : List AdminRow}
    (hl : ListsChildren F (some k) new) :
    RowsRight F (fun x => D x || x == k) ((insertRows k (new.map setupRow) rows).map DomRow.row) := by
  have hnew : nodesOf (new.map setupRow) = F (some k) := by
    rw [← hl.nodes]
    simp [nodesOf, setupRow, Function.comp_def]
  have hmem : ∀ a, a ∈ (insertRows k (new.map setupRow) rows).map DomRow.row → a ∈ rows.map DomRow.row ∨ a ∈ new := by
    intro a ha
    obtain ⟨r, hr, rfl⟩ := List.mem_map.1 ha
    rcases (mem_insertRows hk).1 hr with hr | hr
    · exact Or.inl (List.mem_map_of_mem hr)
    · obtain ⟨b, hb, rfl⟩ := List.mem_map.1 hr
      exact Or.inr hb
  refine ⟨?_, ?_, ?_, ?_, ?_⟩
  · have := dfs_insert hD (fun c hc => ?_) h.dfs (h.nodup hg)
    · rw [show ((insertRows k (new.map setupRow) rows).map DomRow.row).map AdminRow.node = _ from insertRows_nodes k _, hnew]
      exact this
    · obtain ⟨h1, h2⟩ := h.new hg hD hc
      exact ⟨h2, by rintro rfl; exact h1 hk⟩
  · intro a ha
    rcases hmem a ha with ha | ha
    · exact h.parent a ha
    · exact ⟨some k, by rw [← hl.nodes]; exact List.mem_map_of_mem ha, hl.parent a ha⟩
  · intro a ha
    rcases hmem a ha with ha | ha
    · exact h.level a ha
    · exact hl.level a ha
  · intro a ha
    rcases hmem a ha with ha | ha
    · exact h.has a ha
    · exact hl.hasChildren a ha
  · intro x hx
    have : x ∈ nodesOf rows := by
      rw [Bool.or_eq_true, beq_iff_eq] at hx
      rcases hx with hx | rfl
      · exact h.sub x hx
      · exact hk
    obtain ⟨r, hr, rfl⟩ := mem_nodesOf.1 this
    exact List.mem_map_of_mem (List.mem_map_of_mem ((mem_insertRows hk).2 (Or.inl hr)))

/-! ### Every sequence of events -/

/-- a request whose answer is awaited -/
def RequestRight (F : Forest) (req : Nat → Nat → Except Err (List AdminRow × Nat)) (q : Request) : Prop :=
  ∃ (n : Nat) (pg : Nat → List AdminRow), 1 ≤ q.page ∧ q.page ≤ n ∧ (∀ i, 1 ≤ i → i ≤ n → req q.node i = .ok (pg i, n)) ∧
    ListsChildren F (some q.node) ((List.range n).flatMap (fun i => pg (i + 1))) ∧ q.got = (List.range (q.page - 1)).flatMap (fun i => pg (i + 1))

structure PageInv (F : Forest) (req : Nat → Nat → Except Err (List AdminRow × Nat)) (D : Nat → Bool) (s : Page) : Prop where
  rows : RowsRight F D (s.rows.map DomRow.row)
  asked : ∀ q ∈ s.pending, q.node ∈ nodesOf s.rows ∧ D q.node = false ∧ RequestRight F req q
  once : (s.pending.map Request.node).Nodup
  loaded : ∀ r ∈ s.rows, (r.loaded = true ↔ (D r.row.node = true ∨ r.row.node ∈ s.pending.map Request.node))

/-- rows changed without changing what they stand for -/
theorem PageInv.map (h : PageInv F req D s) {f : DomRow → DomRow} (hr : ∀ r, (f r).row = r.row) (hl : ∀ r, (f r).loaded = r.loaded) :
    PageInv F req D ⟨s.rows.map f, s.pending⟩ := by
  have he : (s.rows.map f).map DomRow.row = s.rows.map DomRow.row := by simp [Function.comp_def, hr]
  refine ⟨by rw [he]; exact h.rows, fun q hq => ?_, h.once, fun r hr' => ?_⟩
  · have := h.asked q hq
    rw [nodesOf, he]
    exact this
  · obtain ⟨r₁, hr₁, rfl⟩ := List.mem_map.1 hr'
    rw [hr, hl]
    exact h.loaded r₁ hr₁

theorem PageInv.ask (h : PageInv F req D s) {k : Nat} {got : List AdminRow} {page : Nat} (hk : k ∈ nodesOf s.rows) (hD : D k = false)
    (hp : k ∉ s.pending.map Request.node) (hq : RequestRight F req ⟨k, got, page⟩) : PageInv F req D (s.ask k got page) := by
  have he : (s.ask k got page).rows.map DomRow.row = s.rows.map DomRow.row := onRow_static askRow_row
  refine ⟨by rw [he]; exact h.rows, ?_, ?_, ?_⟩
  · intro q hq'
    rw [nodesOf, he]
    rcases List.mem_append.1 hq' with hq' | hq'
    · exact h.asked q hq'
    · rw [List.mem_singleton] at hq'
      subst hq'
      exact ⟨hk, hD, hq⟩
  · simp only [Page.ask, List.map_append, List.map_cons, List.map_nil, List.nodup_append]
    refine ⟨h.once, by simp, ?_⟩
    rintro a ha b hb rfl
    rw [List.mem_singleton] at hb
    exact hp (hb ▸ ha)
  · intro r hr
    rw [ask_rows] at hr
    obtain ⟨r₁, hr₁, rfl⟩ := List.mem_map.1 hr
    have := h.loaded r₁ hr₁
    simp only [Page.ask, List.map_append, List.map_cons, List.map_nil, List.mem_append, List.mem_singleton]
    by_cases hrk : r₁.row.node = k
    · simp [askRow_row, askRow_loaded, hrk]
    · rw [if_neg hrk]
      simp only [hrk, or_false]
      exact this

theorem requestRight_first (hs : ServesPages F ids req) {k : Nat} (hk : k ∈ ids) : RequestRight F req ⟨k, [], 1⟩ := by
  obtain ⟨n, pg, h1, h2, h3⟩ := hs k hk
  exact ⟨n, pg, le_refl _, h1, h2, h3, rfl⟩

theorem PageInv.mem_ids (h : PageInv F req D s) (hg : F.Good ids) {k : Nat} (hk : k ∈ nodesOf s.rows) : k ∈ ids := by
  obtain ⟨a, ha, rfl⟩ := List.mem_map.1 hk
  obtain ⟨q, hq, _⟩ := h.rows.parent a ha
  exact hg.sub q _ hq

theorem PageInv.expand (h : PageInv F req D s) (hg : F.Good ids) (hs : ServesPages F ids req) {r : DomRow} (hr : r ∈ s.rows) : PageInv F req D (s.expand r) := by
  unfold Page.expand
  have hk : r.row.node ∈ nodesOf s.rows := mem_nodesOf.2 ⟨r, hr, rfl⟩
  split
  · have h1 := h.map (f := fun x => if x.row.parent = r.row.node then { x with hidden := false } else x) (fun x => by split <;> rfl) (fun x => by split <;> rfl)
    exact h1.map (f := fun x => if x.row.node = r.row.node then x.cls fun r => { r with collapsed := false, expanded := true } else x)
      (fun x => by unfold DomRow.cls; split <;> (try split) <;> rfl) (fun x => by unfold DomRow.cls; split <;> (try split) <;> rfl)
  · next hl =>
    have := (h.loaded r hr).not.1 hl
    rw [not_or] at this
    exact h.ask hk (by simpa using this.1) this.2 (requestRight_first hs (h.mem_ids hg hk))

theorem mark_loaded (c d : Bool) (r : DomRow) : (r.mark c d).loaded = r.loaded := by
  unfold DomRow.mark DomRow.cls
  cases c <;> simp
  split <;> rfl

/-- what a click on an open row does -/
theorem PageInv.collapse_eq (h : PageInv F req D s) (hg : F.Good ids) (h0 : 0 ∉ ids) {k : Nat} (hk : k ∈ nodesOf s.rows) :
    collapse (s.rows.length + 1) s.rows k = .ok (markAll (inBranch (F.opened D) k) (isBelow (F.opened D) k) s.rows) := by
  obtain ⟨l, hl, hlen⟩ := DFS_branch h.rows.dfs hk
  refine Verif.collapse_eq h.rows hg h0 _ _ _ l rfl hk hl ?_
  rw [List.length_map, List.length_map] at hlen
  omega

theorem seen_mem {k : Nat} {r : DomRow} (h : s.seen? k = some r) : r ∈ s.rows ∧ r.row.node = k ∧ r.hidden = false := by
  have h1 := List.mem_of_find?_eq_some h
  have h2 := List.find?_some h
  simp only [Bool.and_eq_true, beq_iff_eq, Bool.not_eq_true'] at h2
  exact ⟨h1, h2⟩

/-- the requests that are left when one is answered -/
theorem pending_rest {k : Nat} {q : Request} (hq : s.pending.find? (fun q => q.node == k) = some q) :
    q ∈ s.pending ∧ q.node = k ∧ ∀ x, x ∈ (s.pending.filter (fun q => q.node != k)).map Request.node ↔ x ∈ s.pending.map Request.node ∧ x ≠ k := by
  refine ⟨List.mem_of_find?_eq_some hq, by simpa using List.find?_some hq, fun x => ?_⟩
  simp only [List.mem_map, List.mem_filter, bne_iff_ne, ne_eq]
  constructor
  · rintro ⟨q, ⟨h1, h2⟩, rfl⟩; exact ⟨⟨q, h1, rfl⟩, h2⟩
  · rintro ⟨⟨q, h1, rfl⟩, h2⟩; exact ⟨q, ⟨h1, h2⟩, rfl⟩

theorem range_flatMap {pg : Nat → List AdminRow} {n : Nat} (hn : 1 ≤ n) :
    (List.range n).flatMap (fun i => pg (i + 1)) = (List.range (n - 1)).flatMap (fun i => pg (i + 1)) ++ pg n := by
  obtain ⟨m, rfl⟩ : ∃ m, n = m + 1 := ⟨n - 1, by omega⟩
  rw [List.range_succ]
  simp

/-- One answer: another page is asked for, or the children are there. -/
theorem PageInv.answer (h : PageInv F req D s) (hg : F.Good ids) {k : Nat} {q : Request} (hq : s.pending.find? (fun q => q.node == k) = some q) :
    ∃ n pg all, req q.node q.page = .ok (pg, n) ∧ 1 ≤ q.page ∧ q.page ≤ n ∧ ListsChildren F (some k) all ∧
      (q.page < n → PageInv F req D (Page.answer ⟨s.rows, s.pending.filter (fun q => q.node != k)⟩ q (req q.node q.page))) ∧
      (q.page = n → q.got ++ pg = all ∧ PageInv F req (fun x => D x || x == k) (Page.answer ⟨s.rows, s.pending.filter (fun q => q.node != k)⟩ q (req q.node q.page))) := by
  obtain ⟨hmem, hk, hrest⟩ := pending_rest hq
  obtain ⟨hin, hD, n, pg, h1, h2, h3, h4, h5⟩ := h.asked q hmem
  have hreq := h3 q.page h1 h2
  have hkp : k ∈ s.pending.map Request.node := by rw [← hk]; exact List.mem_map_of_mem hmem
  have hsub : ((s.pending.filter (fun q => q.node != k)).map Request.node).Nodup := (List.filter_sublist.map _).nodup h.once
  refine ⟨n, pg q.page, (List.range n).flatMap (fun i => pg (i + 1)), hreq, h1, h2, hk ▸ h4, ?_, ?_⟩
  · intro hlt
    rw [hreq, Page.answer, if_pos hlt]
    -- the row stays loaded: ask for the next page
    have he : (Page.ask ⟨s.rows, s.pending.filter (fun q => q.node != k)⟩ q.node (q.got ++ pg q.page) (q.page + 1)).rows.map DomRow.row = s.rows.map DomRow.row :=
      onRow_static askRow_row
    refine ⟨by rw [he]; exact h.rows, ?_, ?_, ?_⟩
    · intro q' hq'
      rw [nodesOf, he]
      rcases List.mem_append.1 hq' with hq' | hq'
      · exact h.asked q' (List.mem_filter.1 hq').1
      · rw [List.mem_singleton] at hq'
        subst hq'
        refine ⟨hin, hD, n, pg, by simp, Nat.succ_le_of_lt hlt, h3, h4, ?_⟩
        simp only [Nat.add_sub_cancel]
        rw [h5, range_flatMap h1]
    · simp only [Page.ask, List.map_append, List.map_cons, List.map_nil, List.nodup_append]
      refine ⟨hsub, by simp, ?_⟩
      rintro a ha b hb rfl
      rw [List.mem_singleton] at hb
      exact ((hrest a).1 ha).2 (by rw [hb, hk])
    · intro r hr
      rw [ask_rows] at hr
      obtain ⟨r₁, hr₁, rfl⟩ := List.mem_map.1 hr
      have := h.loaded r₁ hr₁
      simp only [Page.ask, List.map_append, List.map_cons, List.map_nil, List.mem_append, List.mem_singleton, hrest, hk]
      by_cases hrk : r₁.row.node = k
      · simp [askRow_row, askRow_loaded, hrk]
      · rw [if_neg hrk]
        simp only [hrk, or_false, ne_eq, not_false_eq_true, and_true]
        exact this
  · intro heq
    have hall : q.got ++ pg q.page = (List.range n).flatMap (fun i => pg (i + 1)) := by
      rw [h5, ← range_flatMap h1, heq]
    refine ⟨hall, ?_⟩
    rw [hreq, Page.answer, if_neg (by omega), hall]
    subst hk
    have hR := h.rows.insert hg hin hD h4
    have he : (onRow q.node (fun r => r.cls fun r => { r with loading := false, expanded := true })
        (insertRows q.node (((List.range n).flatMap (fun i => pg (i + 1))).map setupRow) s.rows)).map DomRow.row =
        (insertRows q.node (((List.range n).flatMap (fun i => pg (i + 1))).map setupRow) s.rows).map DomRow.row :=
      onRow_static doneRow_row
    refine ⟨by rw [he]; exact hR, ?_, hsub, ?_⟩
    · intro q' hq'
      obtain ⟨hq1, hq2⟩ := List.mem_filter.1 hq'
      obtain ⟨a1, a2, a3⟩ := h.asked q' hq1
      rw [nodesOf, he]
      obtain ⟨r, hr, e⟩ := mem_nodesOf.1 a1
      refine ⟨mem_nodesOf.2 ⟨r, (mem_insertRows hin).2 (Or.inl hr), e⟩, ?_, a3⟩
      simp only [bne_iff_ne, ne_eq] at hq2
      simp [a2, hq2]
    · intro r hr
      obtain ⟨r₁, hr₁, e₁⟩ := List.mem_map.1 hr
      have e₁ : (if r₁.row.node = q.node then doneRow r₁ else r₁) = r := e₁
      subst e₁
      have hfix : ∀ r : DomRow, (if r.row.node = q.node then doneRow r else r).loaded = r.loaded ∧ (if r.row.node = q.node then doneRow r else r).row = r.row := by
        intro r
        split
        · exact ⟨doneRow_loaded r, doneRow_row r⟩
        · exact ⟨rfl, rfl⟩
      rw [(hfix r₁).1, (hfix r₁).2, hrest]
      rcases (mem_insertRows hin).1 hr₁ with hr₁ | hr₁
      · rw [h.loaded r₁ hr₁]
        by_cases hrk : r₁.row.node = q.node
        · simp [hrk, List.mem_map_of_mem hmem]
        · simp [hrk]
      · obtain ⟨a, ha, rfl⟩ := List.mem_map.1 hr₁
        have hc : a.node ∈ F (some q.node) := by rw [← h4.nodes]; exact List.mem_map_of_mem ha
        obtain ⟨n1, n2⟩ := h.rows.new hg hD hc
        have n3 : a.node ≠ q.node := by intro e; rw [e] at n1; exact n1 hin
        have n4 : a.node ∉ s.pending.map Request.node := by
          intro hm
          obtain ⟨q', hq', e⟩ := List.mem_map.1 hm
          exact n1 (e ▸ (h.asked q' hq').1)
        simp only [setupRow, n2, n3, n4, beq_iff_eq, Bool.or_eq_true]
        simp

/-- **Every event keeps the invariant.** -/
theorem PageInv.step (h : PageInv F req D s) (hg : F.Good ids) (h0 : 0 ∉ ids) (hs : ServesPages F ids req) (e : PageEvent) :
    ∃ D' s', s.step req e = .ok s' ∧ PageInv F req D' s' ∧ ∀ x, D x = true → D' x = true := by
  cases e with
  | click k =>
    simp only [Page.step]
    cases hseen : s.seen? k with
    | none => exact ⟨D, s, rfl, h, fun _ h => h⟩
    | some r =>
      obtain ⟨hr, hk, _⟩ := seen_mem hseen
      by_cases hc : r.row.hasChildren = true
      · simp only [hc, if_true, Page.toggle]
        by_cases hcol : r.isCollapsed = true
        · rw [if_pos hcol]
          exact ⟨D, _, rfl, h.expand hg hs hr, fun _ h => h⟩
        · rw [if_neg hcol, h.collapse_eq hg h0 (mem_nodesOf.2 ⟨r, hr, rfl⟩)]
          exact ⟨D, _, rfl, h.map (fun r => mark_row _ _ r) (fun r => mark_loaded _ _ r), fun _ h => h⟩
      · rw [Bool.not_eq_true] at hc
        simp only [hc]
        exact ⟨D, s, rfl, h, fun _ h => h⟩
  | over k =>
    simp only [Page.step]
    cases hseen : s.seen? k with
    | none => exact ⟨D, s, rfl, h, fun _ h => h⟩
    | some r =>
      obtain ⟨hr, hk, _⟩ := seen_mem hseen
      refine ⟨D, _, rfl, ?_, fun _ h => h⟩
      split
      · exact h.expand hg hs hr
      · exact h
  | answer k =>
    simp only [Page.step]
    cases hq : s.pending.find? (fun q => q.node == k) with
    | none => exact ⟨D, s, rfl, h, fun _ h => h⟩
    | some q =>
      obtain ⟨n, pg, all, _, _, h2, _, h3, h4⟩ := h.answer hg hq
      rcases Nat.lt_or_ge q.page n with hlt | hge
      · exact ⟨D, _, rfl, h3 hlt, fun _ h => h⟩
      · exact ⟨_, _, rfl, (h4 (by omega)).2, fun x hx => by simp [hx]⟩

theorem PageInv.run (h : PageInv F req D s) (hg : F.Good ids) (h0 : 0 ∉ ids) (hs : ServesPages F ids req) (es : List PageEvent) :
    ∃ D' s', s.run req es = .ok s' ∧ PageInv F req D' s' := by
  induction es generalizing D s with
  | nil => exact ⟨D, s, rfl, h⟩
  | cons e es ih =>
    obtain ⟨D', s', he, h', _⟩ := h.step hg h0 hs e
    obtain ⟨D'', s'', he', h''⟩ := ih h'
    exact ⟨D'', s'', by rw [Page.run, List.foldlM_cons, he]; exact he', h''⟩

/-- the page as it is loaded -/
theorem pageInv_load {top : List AdminRow} (ht : ListsChildren F none top) : PageInv F req (fun _ => false) (Page.load top) := by
  have he : (Page.load top).rows.map DomRow.row = top := by simp [Page.load, setupRow, Function.comp_def]
  refine ⟨?_, nofun, List.nodup_nil, ?_⟩
  · rw [he]
    refine ⟨?_, ?_, ht.level, ht.hasChildren, nofun⟩
    · rw [ht.nodes]
      exact dfs_leaves (fun c _ => opened_false rfl)
    · exact fun a ha => ⟨none, by rw [← ht.nodes]; exact List.mem_map_of_mem ha, ht.parent a ha⟩
  · intro r hr
    obtain ⟨a, _, rfl⟩ := List.mem_map.1 hr
    simp [setupRow, Page.load]

end Verif
