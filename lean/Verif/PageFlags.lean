/-
What the page of the admin's tree list shows to a user who waits for the answers.
-/
import Verif.PageInv

namespace Verif

variable {F : Forest} {D O : Nat → Bool} {ids : List Nat} {req : Nat → Nat → Except Err (List AdminRow × Nat)} {s s' : Page} {rows : List DomRow} {w : Option Nat}

/-- The buttons and the visible rows are those of the open nodes `O`; `w`: the node whose children are being loaded. -/
structure PageShows (F : Forest) (D O : Nat → Bool) (w : Option Nat) (rows : List DomRow) : Prop where
  sub : ∀ x, O x = true → D x = true
  up : ∀ x p, O x = true → x ∈ F (some p) → O p = true
  flags : ∀ r ∈ rows, r.row.hasChildren = true → w ≠ some r.row.node → r.collapsed = !O r.row.node ∧ r.expanded = O r.row.node ∧ r.loading = false
  wait : ∀ r ∈ rows, w = some r.row.node → O r.row.node = false ∧ r.row.hasChildren = true ∧ r.collapsed = false ∧ r.expanded = false ∧ r.hidden = false
  hidden : ∀ r ∈ rows, (r.hidden = true ↔ ∃ p, r.row.node ∈ F (some p) ∧ O p = false)

theorem level_iff_mem {G : Forest} {l : List Nat} (h : G.DFS (G none) l) (k : Nat) : (∃ n, G.Level k n) ↔ k ∈ l := by
  rw [h.mem]
  constructor
  · rintro ⟨n, hn⟩
    induction hn with
    | root h => exact ⟨_, h, Or.inl rfl⟩
    | child _ hx ih =>
      obtain ⟨c, hc, rfl | hd⟩ := ih
      · exact ⟨_, hc, Or.inr (.child hx)⟩
      · exact ⟨c, hc, Or.inr (.step hd hx)⟩
  · rintro ⟨c, hc, rfl | hd⟩
    · exact ⟨1, .root hc⟩
    · induction hd with
      | child hx => exact ⟨2, .child (.root hc) hx⟩
      | step _ hx ih =>
        obtain ⟨n, hn⟩ := ih
        exact ⟨n + 1, .child hn hx⟩

/-- ancestors of open nodes are open -/
theorem PageShows.up_desc (h : PageShows F D O w rows) {k m : Nat} (hm : O m = true) (hd : (F.opened D).Desc k m) : O k = true := by
  have aux : ∀ m, (F.opened D).Desc k m → O m = true → O k = true := by
    intro m hd
    have hin : ∀ {p x : Nat}, x ∈ F.opened D (some p) → x ∈ F (some p) := by
      intro p x hx
      cases hD : D p with
      | true => rwa [opened_true hD] at hx
      | false => rw [opened_false hD] at hx; cases hx
    induction hd with
    | child hx => exact fun hO => h.up _ _ hO (hin hx)
    | step _ hx ih => exact fun hO => ih (h.up _ _ hO (hin hx))
  exact aux m hd hm

open Classical in
/-- the rows that are not hidden are the listing of the forest opened at `O` -/
theorem PageShows.screen_dfs (h : PageShows F D O w rows) (hg : F.Good ids) (hR : RowsRight F D (rows.map DomRow.row)) :
    (F.opened O).DFS (F none) (nodesOf (rows.filter (fun r => !r.hidden))) := by
  have hup : ∀ k y, (F.opened D).Desc k y → (!decide (∃ p, y ∈ F (some p) ∧ O p = false)) = true → (!decide (∃ p, k ∈ F (some p) ∧ O p = false)) = true := by
    intro k y hd hy
    simp only [Bool.not_eq_true', decide_eq_false_iff_not, not_exists, not_and] at hy ⊢
    have hk : O k = true := by
      have hin : ∀ {p x : Nat}, x ∈ F.opened D (some p) → x ∈ F (some p) := by
        intro p x hx
        cases hD : D p with
        | true => rwa [opened_true hD] at hx
        | false => rw [opened_false hD] at hx; cases hx
      cases hd with
      | child hx => exact by simpa using hy k (hin hx)
      | @step m _ hd hx => exact h.up_desc (by simpa using hy m (hin hx)) hd
    intro p hp
    rw [h.up k p hk hp]
    decide
  have := filter_dfs hup hR.dfs
  have e1 : (fun p => ((F.opened D) p).filter (fun y => !decide (∃ p, y ∈ F (some p) ∧ O p = false))) = F.opened O := by
    funext p
    cases p with
    | none =>
      refine List.filter_eq_self.2 (fun x hx => ?_)
      simp only [Bool.not_eq_true', decide_eq_false_iff_not, not_exists, not_and]
      intro p hp
      exact absurd (hg.one _ _ _ hx hp) (by simp)
    | some p =>
      cases hO : O p with
      | true =>
        rw [opened_true hO, opened_true (h.sub p hO)]
        refine List.filter_eq_self.2 (fun x hx => ?_)
        simp only [Bool.not_eq_true', decide_eq_false_iff_not, not_exists, not_and]
        intro p' hp'
        have := hg.one _ _ _ hx hp'
        injection this with this
        subst this
        simp [hO]
      | false =>
        rw [opened_false hO]
        refine List.filter_eq_nil_iff.2 (fun x hx => ?_)
        cases hD : D p with
        | true =>
          rw [opened_true hD] at hx
          simp only [Bool.not_eq_true', decide_eq_false_iff_not, not_not]
          exact ⟨p, hx, hO⟩
        | false => rw [opened_false hD] at hx; cases hx
  have e2 : (F none).filter (fun y => !decide (∃ p, y ∈ F (some p) ∧ O p = false)) = F none := congrFun e1 none
  rw [e1, e2] at this
  convert this using 1
  unfold nodesOf
  rw [List.map_map, List.map_map, List.filter_map]
  congr 1
  refine List.filter_congr (fun r hr => ?_)
  have := h.hidden r hr
  simp only [Function.comp_apply]
  congr 1
  rw [Bool.eq_iff_iff, this, decide_eq_true_iff]

/-- what can be clicked on -/
theorem PageShows.clickable (h : PageShows F D O w rows) (hg : F.Good ids) (hR : RowsRight F D (rows.map DomRow.row)) (k : Nat) :
    F.Clickable O k ↔ ∃ r ∈ rows, r.row.node = k ∧ r.hidden = false ∧ r.row.hasChildren = true := by
  unfold Forest.Clickable
  rw [level_iff_mem (h.screen_dfs hg hR) k, mem_nodesOf]
  constructor
  · rintro ⟨⟨r, hr, rfl⟩, hc⟩
    obtain ⟨h1, h2⟩ := List.mem_filter.1 hr
    exact ⟨r, h1, rfl, by simpa using h2, (hR.has r.row (List.mem_map_of_mem h1)).2 hc⟩
  · rintro ⟨r, hr, rfl, h1, h2⟩
    exact ⟨⟨r, List.mem_filter.2 ⟨hr, by simp [h1]⟩, rfl⟩, (hR.has r.row (List.mem_map_of_mem hr)).1 h2⟩

theorem PageShows.screen (h : PageShows F D O none s.rows) (hg : F.Good ids) (hR : RowsRight F D (s.rows.map DomRow.row)) : ScreenShows F O s.screen := by
  refine ⟨?_, ?_, ?_⟩
  · have := h.screen_dfs hg hR
    unfold nodesOf at this
    unfold Page.screen
    rw [List.map_map] at this ⊢
    exact this
  · intro x hx
    obtain ⟨r, hr, rfl⟩ := List.mem_map.1 hx
    exact hR.level r.row (List.mem_map_of_mem (List.mem_filter.1 hr).1)
  · intro x hx
    obtain ⟨r, hr, rfl⟩ := List.mem_map.1 hx
    have hr := (List.mem_filter.1 hr).1
    have hh := hR.has r.row (List.mem_map_of_mem hr)
    by_cases hc : r.row.hasChildren = true
    · right
      obtain ⟨h1, h2, h3⟩ := h.flags r hr hc (by simp)
      exact ⟨hh.1 hc, by simp [hc, h1, h2, h3]⟩
    · left
      exact ⟨by_contra fun hn => hc (hh.2 hn), by simp [hc]⟩

/-- below in the forest, and below on the page -/
theorem RowsRight.desc_iff {R : List AdminRow} (hR : RowsRight F D R) (hg : F.Good ids) {k x : Nat} (hx : x ∈ R.map AdminRow.node) :
    (F.opened D).Desc k x ↔ F.Desc k x := by
  constructor
  · intro h
    have hin : ∀ {p x : Nat}, x ∈ F.opened D (some p) → x ∈ F (some p) := by
      intro p x hx
      cases hD : D p with
      | true => rwa [opened_true hD] at hx
      | false => rw [opened_false hD] at hx; cases hx
    induction h with
    | child h => exact .child (hin h)
    | @step m d hd h ih =>
      have : m ∈ R.map AdminRow.node := by
        obtain ⟨a, ha, rfl⟩ := List.mem_map.1 hx
        exact (hR.parent_open hg ha (hin h)).2
      exact .step (ih this) (hin h)
  · intro h
    induction h with
    | child h =>
      obtain ⟨a, ha, rfl⟩ := List.mem_map.1 hx
      exact .child (by rw [opened_true (hR.parent_open hg ha h).1]; exact h)
    | @step m d hd h ih =>
      obtain ⟨a, ha, rfl⟩ := List.mem_map.1 hx
      obtain ⟨h1, h2⟩ := hR.parent_open hg ha h
      exact .step (ih h2) (by rw [opened_true h1]; exact h)

theorem mark_fields (c d : Bool) (r : DomRow) (hc : r.row.hasChildren = true) :
    (r.mark c d).collapsed = (r.collapsed || c) ∧ (r.mark c d).expanded = (r.expanded && !c) ∧ (r.mark c d).loading = r.loading := by
  unfold DomRow.mark DomRow.cls
  cases c <;> simp [hc]

theorem mark_hidden (c d : Bool) (r : DomRow) : (r.mark c d).hidden = (r.hidden || d) := by
  unfold DomRow.mark DomRow.cls
  cases c <;> simp
  split <;> rfl

open Classical in
/-- closing a node -/
theorem PageShows.collapse (h : PageShows F D O none rows) (hg : F.Good ids) (hR : RowsRight F D (rows.map DomRow.row)) (k : Nat) :
    PageShows F D (fun x => O x && !decide (x = k ∨ F.Desc k x)) none (markAll (inBranch (F.opened D) k) (isBelow (F.opened D) k) rows) := by
  have hb : ∀ r ∈ rows, inBranch (F.opened D) k r.row.node = decide (r.row.node = k ∨ F.Desc k r.row.node) ∧
      isBelow (F.opened D) k r.row.node = decide (F.Desc k r.row.node) := by
    intro r hr
    have := hR.desc_iff hg (k := k) (x := r.row.node) (List.mem_map_of_mem (List.mem_map_of_mem hr))
    unfold inBranch isBelow
    simp only [this, and_self]
  refine ⟨?_, ?_, ?_, nofun, ?_⟩
  · intro x hx
    rw [Bool.and_eq_true] at hx
    exact h.sub x hx.1
  · intro x p hx hp
    simp only [Bool.and_eq_true, Bool.not_eq_true', decide_eq_false_iff_not] at hx ⊢
    refine ⟨h.up x p hx.1 hp, ?_⟩
    rintro (rfl | hd)
    · exact hx.2 (Or.inr (.child hp))
    · exact hx.2 (Or.inr (.step hd hp))
  · intro r hr hc _
    obtain ⟨r₁, hr₁, rfl⟩ := List.mem_map.1 hr
    rw [mark_row] at hc ⊢
    obtain ⟨m1, m2, m3⟩ := mark_fields (inBranch (F.opened D) k r₁.row.node) (isBelow (F.opened D) k r₁.row.node) r₁ hc
    obtain ⟨f1, f2, f3⟩ := h.flags r₁ hr₁ hc (by simp)
    rw [m1, m2, m3, f1, f2, f3, (hb r₁ hr₁).1]
    refine ⟨?_, rfl, rfl⟩
    rw [Bool.not_and, Bool.not_not]
  · intro r hr
    obtain ⟨r₁, hr₁, rfl⟩ := List.mem_map.1 hr
    rw [mark_row, mark_hidden, (hb r₁ hr₁).2, Bool.or_eq_true, decide_eq_true_iff, h.hidden r₁ hr₁]
    constructor
    · rintro (⟨p, hp, hO⟩ | hd)
      · exact ⟨p, hp, by simp [hO]⟩
      · cases hd with
        | child hx => exact ⟨k, hx, by simp⟩
        | @step m _ hd hx => exact ⟨m, hx, by simp [hd]⟩
    · rintro ⟨p, hp, hO⟩
      rw [Bool.and_eq_false_iff] at hO
      rcases hO with hO | hO
      · exact Or.inl ⟨p, hp, hO⟩
      · simp only [Bool.not_eq_false', decide_eq_true_eq] at hO
        rcases hO with rfl | hd
        · exact Or.inr (.child hp)
        · exact Or.inr (.step hd hp)

/-- the open nodes stay closed upward -/
theorem PageShows.up_insert (h : PageShows F D O w rows) {r : DomRow} (hr : r ∈ rows) (hv : r.hidden = false) :
    ∀ x p, (O x || x == r.row.node) = true → x ∈ F (some p) → (O p || p == r.row.node) = true := by
  intro x p hx hp
  rw [Bool.or_eq_true, beq_iff_eq] at hx
  have hOp : O p = true := by
    rcases hx with hx | rfl
    · exact h.up x p hx hp
    · cases hO : O p with
      | true => rfl
      | false =>
        have := (h.hidden r hr).2 ⟨p, hp, hO⟩
        rw [hv] at this
        cases this
  simp [hOp]

/-- opening a node whose children are there -/
theorem PageShows.reopen (h : PageShows F D O none rows) (hg : F.Good ids) (h0 : 0 ∉ ids) (hR : RowsRight F D (rows.map DomRow.row)) {r : DomRow} (hr : r ∈ rows) (hv : r.hidden = false)
    (hD : D r.row.node = true) :
    PageShows F D (fun x => O x || x == r.row.node) none
      (onRow r.row.node (fun r => r.cls fun r => { r with collapsed := false, expanded := true }) (onChildren r.row.node (fun r => { r with hidden := false }) rows)) := by
  have hk : r.row.node ∈ (rows.map DomRow.row).map AdminRow.node := List.mem_map_of_mem (List.mem_map_of_mem hr)
  -- the rows afterwards, one by one
  have hf : ∀ x ∈ onRow r.row.node (fun r => r.cls fun r => { r with collapsed := false, expanded := true }) (onChildren r.row.node (fun r => { r with hidden := false }) rows),
      ∃ y ∈ rows, x.row = y.row ∧ x.hidden = (if y.row.parent = r.row.node then false else y.hidden) ∧
        (y.row.hasChildren = true → (y.row.node = r.row.node → x.collapsed = false ∧ x.expanded = true) ∧ (y.row.node ≠ r.row.node → x.collapsed = y.collapsed ∧ x.expanded = y.expanded) ∧
          x.loading = y.loading) := by
    intro x hx
    obtain ⟨x₁, hx₁, rfl⟩ := List.mem_map.1 hx
    obtain ⟨y, hy, rfl⟩ := List.mem_map.1 hx₁
    refine ⟨y, hy, ?_⟩
    by_cases h1 : y.row.parent = r.row.node <;> by_cases h2 : y.row.node = r.row.node <;> cases h3 : y.row.hasChildren <;> simp [h1, h2, h3, DomRow.cls]
  refine ⟨?_, h.up_insert hr hv, ?_, nofun, ?_⟩
  · intro x hx
    rw [Bool.or_eq_true, beq_iff_eq] at hx
    rcases hx with hx | rfl
    · exact h.sub x hx
    · exact hD
  · intro x hx hc _
    obtain ⟨y, hy, e1, _, e3⟩ := hf x hx
    rw [e1] at hc ⊢
    obtain ⟨a1, a2, a3⟩ := e3 hc
    obtain ⟨f1, f2, f3⟩ := h.flags y hy hc (by simp)
    by_cases hyk : y.row.node = r.row.node
    · obtain ⟨b1, b2⟩ := a1 hyk
      simp [b1, b2, a3, f3, hyk]
    · obtain ⟨b1, b2⟩ := a2 hyk
      simp [b1, b2, a3, f1, f2, f3, hyk]
  · intro x hx
    obtain ⟨y, hy, e1, e2, _⟩ := hf x hx
    rw [e1, e2]
    have hch := hR.children hg h0 hk (List.mem_map_of_mem hy)
    rw [opened_true hD] at hch
    split
    · next hp =>
      simp only [Bool.false_eq_true, false_iff, not_exists, not_and]
      intro p hp'
      have := hg.one _ _ _ (hch.1 hp) hp'
      injection this with this
      simp [this]
    · next hp =>
      rw [h.hidden y hy]
      refine exists_congr (fun p => and_congr_right (fun hp' => ?_))
      have : p ≠ r.row.node := by rintro rfl; exact hp (hch.2 hp')
      simp [this]

/-- asking for the children of a node -/
theorem PageShows.ask (h : PageShows F D O none rows) (hR : RowsRight F D (rows.map DomRow.row)) (hg : F.Good ids) {r : DomRow} (hr : r ∈ rows) (hv : r.hidden = false)
    (hc : r.row.hasChildren = true) (hO : O r.row.node = false) :
    PageShows F D O (some r.row.node) (rows.map (fun x => if x.row.node = r.row.node then askRow x else x)) := by
  have hinj : ∀ y ∈ rows, y.row.node = r.row.node → y = r := by
    have hnd := hR.nodup hg
    rw [List.map_map] at hnd
    exact fun y hy e => List.inj_on_of_nodup_map hnd hy hr e
  have hf : ∀ x ∈ rows.map (fun x => if x.row.node = r.row.node then askRow x else x), (x = askRow r) ∨ (x ∈ rows ∧ x.row.node ≠ r.row.node) := by
    intro x hx
    obtain ⟨y, hy, rfl⟩ := List.mem_map.1 hx
    by_cases hyk : y.row.node = r.row.node
    · rw [if_pos hyk, hinj y hy hyk]
      exact Or.inl rfl
    · rw [if_neg hyk]
      exact Or.inr ⟨hy, hyk⟩
  have hask : (askRow r).collapsed = false ∧ (askRow r).expanded = r.expanded ∧ (askRow r).hidden = r.hidden := by
    simp [askRow, DomRow.cls, hc]
  refine ⟨h.sub, h.up, ?_, ?_, ?_⟩
  · intro x hx hxc hw
    rcases hf x hx with rfl | ⟨hx, _⟩
    · rw [askRow_row] at hw
      exact absurd rfl hw
    · exact h.flags x hx hxc (by simp)
  · intro x hx hw
    rcases hf x hx with rfl | ⟨_, hne⟩
    · rw [askRow_row]
      refine ⟨hO, hc, hask.1, ?_, by rw [hask.2.2, hv]⟩
      rw [hask.2.1, (h.flags r hr hc (by simp)).2.1, hO]
    · injection hw with hw
      exact absurd hw.symm hne
  · intro x hx
    rcases hf x hx with rfl | ⟨hx, _⟩
    · rw [askRow_row, hask.2.2]
      exact h.hidden r hr
    · exact h.hidden x hx

/-- the next page is asked for -/
theorem PageShows.more {k : Nat} (h : PageShows F D O (some k) rows) : PageShows F D O (some k) (rows.map (fun x => if x.row.node = k then askRow x else x)) := by
  have hf : ∀ x ∈ rows.map (fun x => if x.row.node = k then askRow x else x), ∃ y ∈ rows, (x = askRow y ∧ y.row.node = k) ∨ (x = y ∧ y.row.node ≠ k) := by
    intro x hx
    obtain ⟨y, hy, rfl⟩ := List.mem_map.1 hx
    by_cases hyk : y.row.node = k
    · exact ⟨y, hy, Or.inl ⟨if_pos hyk, hyk⟩⟩
    · exact ⟨y, hy, Or.inr ⟨if_neg hyk, hyk⟩⟩
  refine ⟨h.sub, h.up, ?_, ?_, ?_⟩
  · intro x hx hxc hw
    obtain ⟨y, hy, ⟨rfl, e⟩ | ⟨rfl, e⟩⟩ := hf x hx
    · rw [askRow_row, e] at hw
      exact absurd rfl hw
    · exact h.flags x hy hxc hw
  · intro x hx hw
    obtain ⟨y, hy, ⟨rfl, e⟩ | ⟨rfl, e⟩⟩ := hf x hx
    · obtain ⟨a, b, c, d, f⟩ := h.wait y hy (by rw [e])
      rw [askRow_row]
      refine ⟨a, b, ?_⟩
      simp [askRow, DomRow.cls, b, d, f]
    · exact h.wait x hy hw
  · intro x hx
    obtain ⟨y, hy, ⟨rfl, e⟩ | ⟨rfl, e⟩⟩ := hf x hx
    · rw [askRow_row, show (askRow y).hidden = y.hidden from by unfold askRow DomRow.cls; split <;> rfl]
      exact h.hidden y hy
    · exact h.hidden x hy

/-- the children have come -/
theorem PageShows.done {k : Nat} (h : PageShows F D O (some k) rows) (hg : F.Good ids) (hR : RowsRight F D (rows.map DomRow.row)) (hk : k ∈ nodesOf rows) (hD : D k = false)
    {new : List AdminRow} (hl : ListsChildren F (some k) new) :
    PageShows F (fun x => D x || x == k) (fun x => O x || x == k) none (onRow k doneRow (insertRows k (new.map setupRow) rows)) := by
  obtain ⟨r, hr, hrk⟩ := mem_nodesOf.1 hk
  obtain ⟨w1, w2, w3, w4, w5⟩ := h.wait r hr (by rw [hrk])
  have hf : ∀ x ∈ onRow k doneRow (insertRows k (new.map setupRow) rows), (∃ y ∈ rows, x = doneRow y ∧ y.row.node = k) ∨ (x ∈ rows ∧ x.row.node ≠ k) ∨
      ∃ a ∈ new, x = setupRow a ∧ a.node ≠ k := by
    intro x hx
    obtain ⟨y, hy, rfl⟩ := List.mem_map.1 hx
    rcases (mem_insertRows hk).1 hy with hy | hy
    · by_cases hyk : y.row.node = k
      · exact Or.inl ⟨y, hy, if_pos hyk, hyk⟩
      · rw [if_neg hyk]
        exact Or.inr (Or.inl ⟨hy, hyk⟩)
    · obtain ⟨a, ha, rfl⟩ := List.mem_map.1 hy
      have hc : a.node ∈ F (some k) := by rw [← hl.nodes]; exact List.mem_map_of_mem ha
      have hak : a.node ≠ k := by
        intro e
        exact (hR.new hg hD hc).1 (e ▸ hk)
      exact Or.inr (Or.inr ⟨a, ha, if_neg hak, hak⟩)
  have hold : ∀ y ∈ rows, ∀ p, y.row.node ∈ F (some p) → p ≠ k := by
    rintro y hy p hp rfl
    rw [(hR.parent_open hg (List.mem_map_of_mem hy) hp).1] at hD
    cases hD
  refine ⟨?_, ?_, ?_, nofun, ?_⟩
  · intro x hx
    rw [Bool.or_eq_true] at hx ⊢
    exact hx.imp_left (h.sub x)
  · rw [← hrk]
    exact h.up_insert hr w5
  · intro x hx hxc _
    rcases hf x hx with ⟨y, hy, rfl, e⟩ | ⟨hx, hne⟩ | ⟨a, ha, rfl, hne⟩
    · obtain ⟨v1, v2, v3, v4, v5⟩ := h.wait y hy (by rw [e])
      rw [doneRow_row, e]
      simp [doneRow, DomRow.cls, v2, v3]
    · obtain ⟨f1, f2, f3⟩ := h.flags x hx hxc (by intro e; injection e with e; exact hne e.symm)
      simp [f1, f2, f3, hne]
    · have hc : a.node ∈ F (some k) := by rw [← hl.nodes]; exact List.mem_map_of_mem ha
      have hDa := (hR.new hg hD hc).2
      have hOa : O a.node = false := by
        cases hO : O a.node with
        | false => rfl
        | true => rw [h.sub _ hO] at hDa; cases hDa
      simp only [setupRow] at hxc ⊢
      simp [hxc, hOa, hne]
  · intro x hx
    rcases hf x hx with ⟨y, hy, rfl, e⟩ | ⟨hx, hne⟩ | ⟨a, ha, rfl, hne⟩
    · rw [doneRow_row, show (doneRow y).hidden = y.hidden from by unfold doneRow DomRow.cls; split <;> rfl, h.hidden y hy]
      exact exists_congr (fun p => and_congr_right (fun hp => by simp [hold y hy p hp]))
    · rw [h.hidden x hx]
      exact exists_congr (fun p => and_congr_right (fun hp => by simp [hold x hx p hp]))
    · have hc : a.node ∈ F (some k) := by rw [← hl.nodes]; exact List.mem_map_of_mem ha
      simp only [setupRow, Bool.false_eq_true, false_iff, not_exists, not_and]
      intro p hp
      have := hg.one _ _ _ hc hp
      injection this with this
      simp [this]

/-- the page of a user who waits for the answers -/
def PatientInv (F : Forest) (req : Nat → Nat → Except Err (List AdminRow × Nat)) (O : Nat → Bool) (s : Page) : Prop :=
  ∃ D, PageInv F req D s ∧ ((s.pending = [] ∧ PageShows F D O none s.rows) ∨
    ∃ O₀ q, s.pending = [q] ∧ PageShows F D O₀ (some q.node) s.rows ∧ O = fun x => O₀ x || x == q.node)

/-- opening a row that is closed -/
theorem patient_expand (hg : F.Good ids) (h0 : 0 ∉ ids) (hs : ServesPages F ids req) (hI : PageInv F req D s) (hp : s.pending = [])
    (hS : PageShows F D O none s.rows) {r : DomRow} (hr : r ∈ s.rows) (hv : r.hidden = false) (hc : r.row.hasChildren = true) (hO : O r.row.node = false) :
    PatientInv F req (fun x => O x || x == r.row.node) (s.expand r) := by
  refine ⟨D, hI.expand hg hs hr, ?_⟩
  unfold Page.expand
  by_cases hl : r.loaded = true
  · rw [if_pos hl]
    refine Or.inl ⟨hp, ?_⟩
    refine hS.reopen hg h0 hI.rows hr hv ?_
    rcases (hI.loaded r hr).1 hl with h | h
    · exact h
    · rw [hp] at h; cases h
  · rw [if_neg hl]
    refine Or.inr ⟨O, ⟨r.row.node, [], 1⟩, by simp [Page.ask, hp], ?_, rfl⟩
    exact hS.ask hI.rows hg hr hv hc hO

theorem PatientInv.step (hg : F.Good ids) (h0 : 0 ∉ ids) (hs : ServesPages F ids req) (h : PatientInv F req O s) {e : PageEvent}
    (hu : e.byUser = true → s.pending = []) : ∃ s', s.step req e = .ok s' ∧ PatientInv F req (F.openStep O e) s' := by
  obtain ⟨D, hI, hcase⟩ := h
  -- what the user does
  have huser : ∀ k, s.pending = [] → PageShows F D O none s.rows ∧
      ((s.seen? k = none ∧ ¬ F.Clickable O k) ∨ ∃ r, s.seen? k = some r ∧ (F.Clickable O k ↔ r.row.hasChildren = true)) := by
    intro k hp
    have hS : PageShows F D O none s.rows := by
      rcases hcase with ⟨_, hS⟩ | ⟨_, q, hq, _⟩
      · exact hS
      · rw [hp] at hq; cases hq
    refine ⟨hS, ?_⟩
    have hcl := hS.clickable hg hI.rows k
    cases hseen : s.seen? k with
    | none =>
      refine Or.inl ⟨rfl, fun hc => ?_⟩
      obtain ⟨r, hr, e1, e2, _⟩ := hcl.1 hc
      have := List.find?_eq_none.1 hseen r hr
      simp [e1, e2] at this
    | some r =>
      obtain ⟨hr, hk, hv⟩ := seen_mem hseen
      refine Or.inr ⟨r, rfl, ?_⟩
      rw [hcl]
      constructor
      · rintro ⟨r', hr', e1, _, e3⟩
        rwa [← hI.rows.inj hg (List.mem_map_of_mem hr') (List.mem_map_of_mem hr) (e1.trans hk.symm)]
      · exact fun hc => ⟨r, hr, hk, hv, hc⟩
  cases e with
  | click k =>
    have hp := hu rfl
    obtain ⟨hS, hc⟩ := huser k hp
    rcases hc with ⟨hseen, hc⟩ | ⟨r, hseen, hc⟩
    · refine ⟨s, by simp only [Page.step, hseen], ?_⟩
      rw [Forest.openStep, if_neg hc]
      exact ⟨D, hI, Or.inl ⟨hp, hS⟩⟩
    · obtain ⟨hr, hk, hv⟩ := seen_mem hseen
      by_cases hch : r.row.hasChildren = true
      · obtain ⟨f1, f2, f3⟩ := hS.flags r hr hch (by simp)
        rw [Forest.openStep, if_pos (hc.2 hch)]
        simp only [Page.step, hseen, if_pos hch, Page.toggle]
        cases hO : O r.row.node with
        | false =>
          have hcol : r.isCollapsed = true := by simp [DomRow.isCollapsed, hch, f1, hO]
          rw [if_pos hcol]
          refine ⟨_, rfl, ?_⟩
          rw [← hk, hO]
          exact patient_expand hg h0 hs hI hp hS hr hv hch hO
        | true =>
          have hcol : ¬ r.isCollapsed = true := by simp [DomRow.isCollapsed, hch, f1, hO]
          rw [if_neg hcol, hI.collapse_eq hg h0 (mem_nodesOf.2 ⟨r, hr, rfl⟩)]
          refine ⟨_, rfl, ?_⟩
          rw [← hk, hO, if_pos rfl]
          exact ⟨D, hI.map (fun r => mark_row _ _ r) (fun r => mark_loaded _ _ r), Or.inl ⟨hp, hS.collapse hg hI.rows r.row.node⟩⟩
      · refine ⟨s, by simp only [Page.step, hseen, if_neg hch], ?_⟩
        rw [Forest.openStep, if_neg (fun h => hch (hc.1 h))]
        exact ⟨D, hI, Or.inl ⟨hp, hS⟩⟩
  | over k =>
    have hp := hu rfl
    obtain ⟨hS, hc⟩ := huser k hp
    rcases hc with ⟨hseen, hc⟩ | ⟨r, hseen, hc⟩
    · refine ⟨s, by simp only [Page.step, hseen], ?_⟩
      rw [Forest.openStep, if_neg hc]
      exact ⟨D, hI, Or.inl ⟨hp, hS⟩⟩
    · obtain ⟨hr, hk, hv⟩ := seen_mem hseen
      simp only [Page.step, hseen]
      refine ⟨_, rfl, ?_⟩
      by_cases hch : r.row.hasChildren = true
      · obtain ⟨f1, f2, f3⟩ := hS.flags r hr hch (by simp)
        rw [Forest.openStep, if_pos (hc.2 hch)]
        cases hO : O r.row.node with
        | false =>
          have hcol : r.isCollapsed = true := by simp [DomRow.isCollapsed, hch, f1, hO]
          rw [if_pos hcol, ← hk]
          exact patient_expand hg h0 hs hI hp hS hr hv hch hO
        | true =>
          have hcol : ¬ r.isCollapsed = true := by simp [DomRow.isCollapsed, hch, f1, hO]
          rw [if_neg hcol]
          have : (fun x => O x || x == k) = O := by
            funext x
            by_cases hx : x = k
            · rw [hx, ← hk, hO]; rfl
            · simp [hx]
          rw [this]
          exact ⟨D, hI, Or.inl ⟨hp, hS⟩⟩
      · have hcol : ¬ r.isCollapsed = true := by simp [DomRow.isCollapsed, hch]
        rw [if_neg hcol, Forest.openStep, if_neg (fun h => hch (hc.1 h))]
        exact ⟨D, hI, Or.inl ⟨hp, hS⟩⟩
  | answer k =>
    simp only [Page.step, Forest.openStep]
    cases hq : s.pending.find? (fun q => q.node == k) with
    | none => exact ⟨s, rfl, D, hI, hcase⟩
    | some q =>
      refine ⟨_, rfl, ?_⟩
      obtain ⟨hmem, hk, _⟩ := pending_rest hq
      rcases hcase with ⟨hp, _⟩ | ⟨O₀, q', hp, hS, rfl⟩
      · rw [hp] at hmem; cases hmem
      · rw [hp, List.mem_singleton] at hmem
        subst hmem
        obtain ⟨hin, hD, _⟩ := hI.asked q (by rw [hp]; simp)
        obtain ⟨n, pg, all, hreq, h1, h2, hl, h3, h4⟩ := hI.answer hg hq
        subst hk
        have hrest : s.pending.filter (fun q' => q'.node != q.node) = [] := by rw [hp]; simp
        rcases Nat.lt_or_ge q.page n with hlt | hge
        · refine ⟨D, h3 hlt, Or.inr ⟨O₀, ⟨q.node, q.got ++ pg, q.page + 1⟩, ?_, ?_, rfl⟩⟩
          · rw [hreq, hrest, Page.answer, if_pos hlt]; rfl
          · rw [hreq, Page.answer, if_pos hlt, ask_rows]
            exact hS.more
        · obtain ⟨e, h5⟩ := h4 (by omega)
          refine ⟨_, h5, Or.inl ⟨?_, ?_⟩⟩
          · rw [hreq, Page.answer, if_neg (by omega)]; exact hrest
          · rw [hreq, Page.answer, if_neg (by omega), e]
            exact hS.done hg hI.rows hin hD hl

theorem PatientInv.run (hg : F.Good ids) (h0 : 0 ∉ ids) (hs : ServesPages F ids req) {es : List PageEvent} (h : PatientInv F req O s) (hp : Patient req s es) :
    ∃ s', s.run req es = .ok s' ∧ PatientInv F req (es.foldl F.openStep O) s' := by
  induction es generalizing O s with
  | nil => exact ⟨s, rfl, h⟩
  | cons e es ih =>
    obtain ⟨hp1, hp2⟩ := hp
    obtain ⟨s', he, h'⟩ := h.step hg h0 hs hp1
    obtain ⟨s'', he', h''⟩ := ih h' (hp2 s' he)
    exact ⟨s'', by rw [Page.run, List.foldlM_cons, he]; exact he', h''⟩

theorem patientInv_load {top : List AdminRow} (hg : F.Good ids) (ht : ListsChildren F none top) : PatientInv F req (fun _ => false) (Page.load top) := by
  refine ⟨_, pageInv_load ht, Or.inl ⟨rfl, nofun, nofun, ?_, nofun, ?_⟩⟩
  · intro r hr hc _
    obtain ⟨a, _, rfl⟩ := List.mem_map.1 hr
    simp only [setupRow] at hc ⊢
    simp [hc]
  · intro r hr
    obtain ⟨a, ha, rfl⟩ := List.mem_map.1 hr
    simp only [setupRow, Bool.false_eq_true, false_iff, not_exists, not_and]
    intro p hp
    have : a.node ∈ F none := by rw [← ht.nodes]; exact List.mem_map_of_mem ha
    exact absurd (hg.one _ _ _ this hp) (by simp)

/-! ### The answers come to an end -/

/-- how many answers are left -/
def Left (req : Nat → Nat → Except Err (List AdminRow × Nat)) (q : Request) (m : Nat) : Prop := ∃ pg n, req q.node q.page = .ok (pg, n) ∧ n + 1 - q.page ≤ m

theorem settles_aux (hg : F.Good ids) (h0 : 0 ∉ ids) (hs : ServesPages F ids req) : ∀ (ks : List Nat) (D : Nat → Bool) (s : Page), PageInv F req D s →
    (∀ q ∈ s.pending, Left req q (ks.count q.node)) → ∃ s', s.run req (ks.map .answer) = .ok s' ∧ s'.pending = [] := by
  intro ks
  induction ks with
  | nil =>
    intro D s hI hl
    refine ⟨s, rfl, ?_⟩
    cases hp : s.pending with
    | nil => rfl
    | cons q qs =>
      exfalso
      obtain ⟨pg, n, h1, h2⟩ := hl q (by rw [hp]; simp)
      obtain ⟨_, _, n', pg', h3, h4, h5, _⟩ := hI.asked q (by rw [hp]; simp)
      rw [h5 _ h3 h4] at h1
      injection h1 with h1
      injection h1 with _ h1
      simp at h2
      omega
  | cons k ks ih =>
    intro D s hI hl
    obtain ⟨D', s', he, hI', _⟩ := hI.step hg h0 hs (.answer k)
    have hl' : ∀ q ∈ s'.pending, Left req q (ks.count q.node) := by
      simp only [Page.step] at he
      cases hq : s.pending.find? (fun q => q.node == k) with
      | none =>
        rw [hq] at he
        injection he with he
        subst he
        intro q hq'
        have := hl q hq'
        have hne : q.node ≠ k := by simpa using List.find?_eq_none.1 hq q hq'
        rwa [List.count_cons_of_ne (Ne.symm hne)] at this
      | some q =>
        rw [hq] at he
        injection he with he
        subst he
        obtain ⟨hmem, hk, hrest⟩ := pending_rest hq
        obtain ⟨_, _, n', pg', h3, h4, h5, _⟩ := hI.asked q hmem
        have hleft : ∀ q' ∈ s.pending.filter (fun q => q.node != k), Left req q' (ks.count q'.node) := by
          intro q' hq'
          obtain ⟨a, b⟩ := List.mem_filter.1 hq'
          have := hl q' a
          rwa [List.count_cons_of_ne (by simpa using Ne.symm (bne_iff_ne.1 b))] at this
        rw [h5 _ h3 h4, Page.answer]
        by_cases hlt : q.page < n'
        · rw [if_pos hlt]
          intro q' hq'
          rcases List.mem_append.1 hq' with hq' | hq'
          · exact hleft q' hq'
          · rw [List.mem_singleton] at hq'
            subst hq'
            obtain ⟨pg, n, a, b⟩ := hl q hmem
            rw [h5 _ h3 h4] at a
            injection a with a
            injection a with _ a
            subst a
            refine ⟨pg' (q.page + 1), n', h5 (q.page + 1) (by omega) (by omega), ?_⟩
            rw [hk, List.count_cons_self] at b
            simp only [hk]
            omega
        · rw [if_neg hlt]
          exact hleft
    obtain ⟨s'', h1, h2⟩ := ih D' s' hI' hl'
    exact ⟨s'', by rw [Page.run, List.map_cons, List.foldlM_cons, he]; exact h1, h2⟩

theorem PageInv.settles (hg : F.Good ids) (h0 : 0 ∉ ids) (hs : ServesPages F ids req) (h : PageInv F req D s) :
    ∃ N, ∀ ks : List Nat, (∀ q ∈ s.pending, N ≤ ks.count q.node) → ∃ s', s.run req (ks.map .answer) = .ok s' ∧ s'.pending = [] := by
  have : ∀ l : List Request, (∀ q ∈ l, q ∈ s.pending) → ∃ N, ∀ q ∈ l, Left req q N := by
    intro l
    induction l with
    | nil => exact fun _ => ⟨0, nofun⟩
    | cons q l ih =>
      intro hsub
      obtain ⟨N, hN⟩ := ih (fun q hq => hsub q (by simp [hq]))
      obtain ⟨_, _, n, pg, h3, h4, h5, _⟩ := h.asked q (hsub q (by simp))
      refine ⟨N + (n + 1), fun q' hq' => ?_⟩
      rcases List.mem_cons.1 hq' with rfl | hq'
      · exact ⟨_, n, h5 _ h3 h4, by omega⟩
      · obtain ⟨a, b, c, d⟩ := hN q' hq'
        exact ⟨a, b, c, by omega⟩
  obtain ⟨N, hN⟩ := this s.pending (fun _ h => h)
  refine ⟨N, fun ks hks => settles_aux hg h0 hs ks D s h (fun q hq => ?_)⟩
  obtain ⟨a, b, c, d⟩ := hN q hq
  exact ⟨a, b, c, le_trans d (hks q hq)⟩

end Verif
