/-
NS: renumberings that keep the order of the endpoints keep the forest.
-/
import Verif.NS.Nest

namespace Verif.NS

variable {rows : List Row}

/-- `e` is an endpoint of an interval of the tree `t` -/
def EndP (rows : List Row) (t e : Int) : Prop := ∃ r ∈ rows, r.tree = t ∧ (r.lft = e ∨ r.rgt = e)

theorem EndP.lft {r : Row} (hr : r ∈ rows) : EndP rows r.tree r.lft := ⟨r, hr, rfl, Or.inl rfl⟩
theorem EndP.rgt {r : Row} (hr : r ∈ rows) : EndP rows r.tree r.rgt := ⟨r, hr, rfl, Or.inr rfl⟩

/-- A renumbering: trees are renumbered by `τ` and the endpoints in tree `t` by `φ t`, both keeping the order. -/
structure Relabel (rows : List Row) (f : Row → Row) (τ : Int → Int) (φ : Int → Int → Int) : Prop where
  pk : ∀ r ∈ rows, (f r).pk = r.pk
  depth : ∀ r ∈ rows, (f r).depth = r.depth
  tree : ∀ r ∈ rows, (f r).tree = τ r.tree
  lft : ∀ r ∈ rows, (f r).lft = φ r.tree r.lft
  rgt : ∀ r ∈ rows, (f r).rgt = φ r.tree r.rgt
  treeMono : ∀ a ∈ rows, ∀ b ∈ rows, a.tree < b.tree → τ a.tree < τ b.tree
  mono : ∀ t e e', EndP rows t e → EndP rows t e' → e < e' → φ t e < φ t e'
  treePos : ∀ r ∈ rows, 1 ≤ τ r.tree
  one : ∀ t, EndP rows t 1 → φ t 1 = 1
  pos : ∀ r ∈ rows, 1 ≤ φ r.tree r.lft

/-- A renumbering that keeps the field values. -/
structure Renum (rows : List Row) (f : Row → Row) (τ : Int → Int) (φ : Int → Int → Int) : Prop extends Relabel rows f τ φ where
  vals : ∀ r ∈ rows, (f r).vals = r.vals

namespace Relabel

variable {f : Row → Row} {τ : Int → Int} {φ : Int → Int → Int}

theorem tree_lt (hf : Relabel rows f τ φ) {a b : Row} (ha : a ∈ rows) (hb : b ∈ rows) :
    (f a).tree < (f b).tree ↔ a.tree < b.tree := by
  rw [hf.tree a ha, hf.tree b hb]
  have h1 := hf.treeMono a ha b hb
  have h2 := hf.treeMono b hb a ha
  constructor
  · intro h
    by_contra hc
    rcases Int.lt_or_eq_of_le (Int.not_lt.1 hc) with h' | h'
    · have := h2 h'; omega
    · rw [h'] at h; omega
  · exact h1

theorem tree_eq (hf : Relabel rows f τ φ) {a b : Row} (ha : a ∈ rows) (hb : b ∈ rows) :
    (f a).tree = (f b).tree ↔ a.tree = b.tree := by
  have h1 := hf.tree_lt ha hb
  have h2 := hf.tree_lt hb ha
  omega

theorem mono_iff (hf : Relabel rows f τ φ) {t e e' : Int} (h : EndP rows t e) (h' : EndP rows t e') :
    φ t e < φ t e' ↔ e < e' := by
  have h1 := hf.mono t e e' h h'
  have h2 := hf.mono t e' e h' h
  constructor
  · intro hh
    by_contra hc
    rcases Int.lt_or_eq_of_le (Int.not_lt.1 hc) with h3 | h3
    · have := h2 h3; omega
    · rw [h3] at hh; omega
  · exact h1

theorem eq_iff (hf : Relabel rows f τ φ) {t e e' : Int} (h : EndP rows t e) (h' : EndP rows t e') :
    φ t e = φ t e' ↔ e = e' := by
  have h1 := hf.mono_iff h h'
  have h2 := hf.mono_iff h' h
  omega

theorem encl (hf : Relabel rows f τ φ) {a b : Row} (ha : a ∈ rows) (hb : b ∈ rows) :
    encl (f a) (f b) ↔ NS.encl a b := by
  unfold NS.encl
  rw [hf.tree_eq ha hb, hf.lft a ha, hf.lft b hb, hf.rgt a ha, hf.rgt b hb]
  by_cases ht : a.tree = b.tree
  · rw [ht]
    rw [hf.mono_iff (ht ▸ EndP.lft ha) (EndP.lft hb), hf.mono_iff (EndP.rgt hb) (ht ▸ EndP.rgt ha)]
  · simp [ht]

theorem lt (hf : Relabel rows f τ φ) {a b : Row} (ha : a ∈ rows) (hb : b ∈ rows) : NS.lt (f a) (f b) ↔ NS.lt a b := by
  rw [lt_iff, lt_iff, hf.tree_lt ha hb, hf.tree_eq ha hb, hf.lft a ha, hf.lft b hb]
  by_cases ht : a.tree = b.tree
  · rw [ht, hf.mono_iff (ht ▸ EndP.lft ha) (EndP.lft hb)]
  · simp [ht]

theorem above (hf : Relabel rows f τ φ) {r : Row} (hr : r ∈ rows) : NS.above (rows.map f) (f r) = NS.above rows r := by
  unfold NS.above
  rw [List.countP_map]
  apply List.countP_congr
  intro q hq
  simp only [Function.comp, decide_eq_true_eq]
  exact hf.encl hq hr

theorem pks (hf : Relabel rows f τ φ) : (rows.map f).map Row.pk = rows.map Row.pk := by
  rw [List.map_map]
  exact List.map_congr_left (fun r hr => hf.pk r hr)

theorem ni (hf : Relabel rows f τ φ) (h : NI rows) : NI (rows.map f) where
  pks := by rw [hf.pks]; exact h.pks
  lr := by
    intro r' hr'
    obtain ⟨r, hr, rfl⟩ := List.mem_map.1 hr'
    rw [hf.lft r hr, hf.rgt r hr, hf.mono_iff (EndP.lft hr) (EndP.rgt hr)]
    exact h.lr r hr
  one := by
    intro r' hr'
    obtain ⟨r, hr, rfl⟩ := List.mem_map.1 hr'
    rw [hf.lft r hr]; exact hf.pos r hr
  tree := by
    intro r' hr'
    obtain ⟨r, hr, rfl⟩ := List.mem_map.1 hr'
    rw [hf.tree r hr]; exact hf.treePos r hr
  dist := by
    intro a' ha' b' hb' hne ht
    obtain ⟨a, ha, rfl⟩ := List.mem_map.1 ha'
    obtain ⟨b, hb, rfl⟩ := List.mem_map.1 hb'
    rw [hf.tree_eq ha hb] at ht
    have hne' : a ≠ b := by rintro rfl; exact hne rfl
    have := h.dist a ha b hb hne' ht
    rw [hf.lft a ha, hf.lft b hb, hf.rgt a ha, hf.rgt b hb, ← ht]
    simp only [ne_eq]
    rw [hf.eq_iff (EndP.lft ha) (ht ▸ EndP.lft hb), hf.eq_iff (EndP.lft ha) (ht ▸ EndP.rgt hb),
      hf.eq_iff (EndP.rgt ha) (ht ▸ EndP.rgt hb)]
    exact this
  lam := by
    intro a' ha' b' hb' ht
    obtain ⟨a, ha, rfl⟩ := List.mem_map.1 ha'
    obtain ⟨b, hb, rfl⟩ := List.mem_map.1 hb'
    rw [hf.tree_eq ha hb] at ht
    rw [hf.lft a ha, hf.lft b hb, hf.rgt a ha, hf.rgt b hb, ← ht,
      hf.mono_iff (EndP.lft ha) (ht ▸ EndP.lft hb), hf.mono_iff (ht ▸ EndP.lft hb) (EndP.rgt ha),
      hf.mono_iff (ht ▸ EndP.rgt hb) (EndP.rgt ha)]
    exact h.lam a ha b hb ht
  root := by
    intro r' hr' hl
    obtain ⟨r, hr, rfl⟩ := List.mem_map.1 hr'
    have hl' : r.lft ≠ 1 := by
      intro e
      rw [hf.lft r hr, e] at hl
      exact hl (hf.one _ ⟨r, hr, rfl, Or.inl e⟩)
    obtain ⟨q, hq, hq1, he⟩ := h.root r hr hl'
    refine ⟨f q, List.mem_map_of_mem hq, ?_, (hf.encl hq hr).2 he⟩
    rw [hf.lft q hq, hq1]
    exact hf.one _ ⟨q, hq, rfl, Or.inl hq1⟩
  depth := by
    intro r' hr'
    obtain ⟨r, hr, rfl⟩ := List.mem_map.1 hr'
    rw [hf.depth r hr, hf.above hr, h.depth r hr]

theorem inner (hf : Relabel rows f τ φ) {p r : Row} (hr : r ∈ rows) (hi : Inner rows p r) :
    Inner (rows.map f) (f p) (f r) := by
  refine ⟨List.mem_map_of_mem hi.1, (hf.encl hi.1 hr).2 hi.2.1, ?_⟩
  intro q' hq' he
  obtain ⟨q, hq, rfl⟩ := List.mem_map.1 hq'
  rcases hi.2.2 q hq ((hf.encl hq hr).1 he) with rfl | e
  · exact Or.inl rfl
  · exact Or.inr ((hf.encl hq hi.1).2 e)

theorem par (hf : Relabel rows f τ φ) (h : NI rows) {r : Row} (hr : r ∈ rows) :
    NS.par (rows.map f) (f r) = NS.par rows r := by
  rcases par_cases h hr with ⟨e, hn⟩ | ⟨p, hi, e⟩
  · rw [e]
    rcases par_cases (hf.ni h) (List.mem_map_of_mem hr) with ⟨e', _⟩ | ⟨p', hi', _⟩
    · exact e'
    · obtain ⟨q, hq, rfl⟩ := List.mem_map.1 hi'.1
      exact absurd ((hf.encl hq hr).1 hi'.2.1) (hn q hq)
  · rw [e, par_of_inner (hf.ni h) (List.mem_map_of_mem hr) (hf.inner hr hi), hf.pk p hi.1]

/-- the forest of a renumbered table, read over the old rows -/
theorem shows' (hf : Relabel rows f τ φ) (h : NI rows) : Shows (PF (rows.map f)) (· ∈ rows) Row.pk (NS.par rows) NS.lt := by
  have hs := (shows_PF (hf.ni h)).pullback (· ∈ rows) f (by intro r'; simp [List.mem_map]) (by
    intro a b ha hb e
    simp only [hf.pk a ha, hf.pk b hb] at e
    exact h.pk_inj ha hb e)
  have e : PF (rows.map f) = PF (rows.map f) := rfl
  constructor
  intro p
  obtain ⟨l, e, s, m⟩ := hs.lists p
  have hl : ∀ r ∈ l, r ∈ rows := fun r hr => ((m r).1 hr).1
  refine ⟨l, ?_, ?_, ?_⟩
  · rw [e]; exact List.map_congr_left (fun r hr => hf.pk r (hl r hr))
  · exact s.imp_of_mem (fun ha hb hab => (hf.lt (hl _ ha) (hl _ hb)).1 hab)
  · intro r
    rw [m]
    constructor
    · rintro ⟨h1, h2⟩; exact ⟨h1, by rw [← hf.par h h1]; exact h2⟩
    · rintro ⟨h1, h2⟩; exact ⟨h1, by rw [hf.par h h1]; exact h2⟩

theorem forest (hf : Relabel rows f τ φ) (h : NI rows) : PF (rows.map f) = PF rows :=
  (hf.shows' h).unique (shows_PF h) (asymOn_lt _)

end Relabel

theorem Renum.data (hf : Renum rows f τ φ) : NS.data (rows.map f) = NS.data rows := by
  unfold NS.data
  rw [List.map_map]
  apply List.map_congr_left
  intro r hr
  simp [hf.pk r hr, hf.vals r hr]


/-! ### Gaps -/

/-- the renumbering of `_alter_gap` -/
def gapPhi (T start offset : Int) (t e : Int) : Int := if t = T ∧ start ≤ e then e + offset else e

theorem gapRow_lft {T start offset : Int} {r : Row} (h : r.lft < r.rgt) :
    (gapRow T start offset r).lft = gapPhi T start offset r.tree r.lft := by
  unfold gapRow gapPhi
  by_cases h1 : start ≤ r.rgt ∧ r.tree = T
  · simp [h1]
  · rw [if_neg h1, if_neg (by omega)]

theorem gapRow_rgt {T start offset : Int} {r : Row} :
    (gapRow T start offset r).rgt = gapPhi T start offset r.tree r.rgt := by
  unfold gapRow gapPhi
  by_cases h1 : start ≤ r.rgt ∧ r.tree = T
  · simp [h1]
  · rw [if_neg h1, if_neg (by omega)]

theorem gapRow_eq {T start offset : Int} {r : Row} (h : r.lft < r.rgt) : gapRow T start offset r =
    { r with lft := gapPhi T start offset r.tree r.lft, rgt := gapPhi T start offset r.tree r.rgt } := by
  have h1 := gapRow_lft (T := T) (start := start) (offset := offset) h
  have h2 := gapRow_rgt (T := T) (start := start) (offset := offset) (r := r)
  have h3 : gapRow T start offset r = { r with lft := (gapRow T start offset r).lft, rgt := (gapRow T start offset r).rgt } := by
    unfold gapRow; split <;> rfl
  rw [h3, h1, h2]

/-- Opening a gap (`offset ≥ 0`), or closing a gap without endpoints, is a renumbering. -/
theorem gap_renum (h : NI rows) {T start offset : Int} (hs : 1 < start)
    (hfree : ∀ e, EndP rows T e → start ≤ e → start ≤ e + offset) (hempty : ∀ e, EndP rows T e → e < start → ∀ e', EndP rows T e' → start ≤ e' → e < e' + offset) :
    Renum rows (gapRow T start offset) id (gapPhi T start offset) where
  pk r _ := by unfold gapRow; split <;> rfl
  vals r _ := by unfold gapRow; split <;> rfl
  depth r _ := by unfold gapRow; split <;> rfl
  tree r _ := by unfold gapRow; split <;> rfl
  lft r hr := gapRow_lft (h.lr r hr)
  rgt r _ := gapRow_rgt
  treeMono _ _ _ _ := id
  mono := by
    intro t e e' he he' hlt
    unfold gapPhi
    by_cases ht : t = T
    · subst ht
      have := hempty e he
      have := this
      by_cases h1 : start ≤ e <;> by_cases h2 : start ≤ e'
      · simp [h1, h2]; omega
      · omega
      · simp only [h1, h2, and_false, if_false, and_true, if_true]; exact hempty e he (by omega) e' he' h2
      · simp [h1, h2]; omega
    · simp [ht, hlt]
  treePos r hr := h.tree r hr
  one t _ := by unfold gapPhi; rw [if_neg (by omega)]
  pos := by
    intro r hr
    have h1 := h.one r hr
    unfold gapPhi
    split
    · rename_i hh
      have := hfree r.lft (hh.1 ▸ EndP.lft hr) hh.2
      omega
    · exact h1

theorem gap_open (h : NI rows) {T start offset : Int} (hs : 1 < start) (ho : 0 ≤ offset) :
    Renum rows (gapRow T start offset) id (gapPhi T start offset) :=
  gap_renum h hs (fun e _ he => by omega) (fun e _ he e' _ he' => by omega)

/-- closing the free range `[a, b]`: nothing ends in it -/
theorem gap_close (h : NI rows) {T a b : Int} (ha : 1 < a)
    (hfree : ∀ e, EndP rows T e → a ≤ e → b < e) :
    Renum rows (gapRow T a (-(b - a + 1))) id (gapPhi T a (-(b - a + 1))) :=
  gap_renum h ha (fun e he h1 => by have := hfree e he h1; omega)
    (fun e _ h1 e' he' h2 => by have := hfree e' he' h2; omega)

/-- altering a gap in a tree without rows does nothing -/
theorem gap_none {T start offset : Int} (hT : ∀ r ∈ rows, r.tree ≠ T) : rows.map (gapRow T start offset) = rows := by
  conv => rhs; rw [← List.map_id rows]
  apply List.map_congr_left
  intro r hr
  unfold gapRow
  rw [if_neg (fun hh => hT r hr hh.2)]
  rfl

/-! ### Tree numbers -/

theorem treeRight_renum (h : NI rows) (T : Int) :
    Renum rows (treeRightRow T) (fun t => if T ≤ t then t + 1 else t) (fun _ e => e) where
  pk r _ := by unfold treeRightRow; split <;> rfl
  vals r _ := by unfold treeRightRow; split <;> rfl
  depth r _ := by unfold treeRightRow; split <;> rfl
  tree r _ := by unfold treeRightRow; split <;> rfl
  lft r _ := by unfold treeRightRow; split <;> rfl
  rgt r _ := by unfold treeRightRow; split <;> rfl
  treeMono a _ b _ hlt := by split <;> split <;> omega
  mono _ _ _ _ _ h := h
  treePos r hr := by have := h.tree r hr; split <;> omega
  one _ _ := rfl
  pos r hr := h.one r hr

theorem treeRight_free (T : Int) : ∀ r ∈ rows.map (treeRightRow T), r.tree ≠ T := by
  intro r' hr'
  obtain ⟨r, hr, rfl⟩ := List.mem_map.1 hr'
  unfold treeRightRow
  split
  · simp only; omega
  · omega

end Verif.NS
