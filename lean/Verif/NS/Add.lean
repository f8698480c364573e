/-
NS: `add_root`, `add_child` and `add_sibling`.
-/
import Verif.NS.Resolve

namespace Verif.NS

variable {cfg : Cfg} {db : DB}

/-- The new row stands at slot `s` below `p` and nothing else changed. -/
structure Added (db db' : DB) (obj new : Row) (p : Option Nat) (s : Slot) : Prop where
  inv : NInv db'.rows
  forest : PF db'.rows = (PF db.rows).put p s new.pk
  data : data db'.rows = data db.rows ++ [(new.pk, new.vals)]
  mem : obj ∈ db'.rows
  pk : obj.pk = new.pk

/-- The new row was put at the place `T`, `l` below `P`, after opening a gap of two numbers. -/
def PlacedAt (db db' : DB) (obj new : Row) (P : Option Nat) (T l : Int) : Prop :=
  ∃ f p, Opened db.rows f T l 2 p ∧ p.map Row.pk = P ∧ db'.rows = db.rows.map f ++ [obj] ∧
    obj = { new with tree := T, lft := l, rgt := l + 1, depth := depthIn p }

theorem PlacedAt.added (h : NInv db.rows) {db' : DB} {obj new : Row} {P : Option Nat} {T l : Int} {s : Slot}
    (hp : PlacedAt db db' obj new P T l) (hf : ∀ r ∈ db.rows, r.pk ≠ new.pk)
    (hs : PSlot db.rows (fun _ => True) P T l s) : Added db db' obj new P s := by
  obtain ⟨f, p, ho, rfl, e, rfl⟩ := hp
  obtain ⟨h1, h2, h3⟩ := add_opened h ho (x := { new with tree := T, lft := l, rgt := l + 1, depth := depthIn p }) hf rfl rfl rfl rfl hs
  exact ⟨by rw [e]; exact h1, by rw [e]; exact h2, by rw [e]; exact h3, by rw [e]; simp, rfl⟩

/-- at some slot in any case -/
theorem PlacedAt.added' (h : NInv db.rows) {db' : DB} {obj new : Row} {P : Option Nat} {T l : Int}
    (hp : PlacedAt db db' obj new P T l) (hf : ∀ r ∈ db.rows, r.pk ≠ new.pk) : ∃ s, Added db db' obj new P s := by
  obtain ⟨s, hs⟩ := exists_slot h.toNI (fun _ => True) P T l
  exact ⟨s, hp.added h hf hs⟩

theorem save_fresh {row : Row} (hf : ∀ r ∈ db.rows, r.pk ≠ row.pk) : (save db row).rows = db.rows ++ [row] := by
  unfold save
  rw [if_neg]
  simpa using hf

theorem fresh_map {rows : List Row} {f : Row → Row} {T l g : Int} {p : Option Row} (ho : Opened rows f T l g p) {k : Nat}
    (hf : ∀ r ∈ rows, r.pk ≠ k) : ∀ r ∈ rows.map f, r.pk ≠ k := by
  intro r' hr'
  obtain ⟨r, hr, rfl⟩ := List.mem_map.1 hr'
  rw [ho.pk hr]; exact hf r hr

/-! ### Siblings of inner nodes -/

theorem sib_depth (h : NI db.rows) {t p : Row} (hp : Inner db.rows p t) (ht : t ∈ db.rows) : t.depth = depthIn (some p) :=
  h.depth_inner hp ht

theorem addInner_place (h : NI db.rows) {t p : Row} (ht : t ∈ db.rows) (hp : Inner db.rows p t) {pos : Pos} (hpos : IsSibPos pos)
    {cached : Option Row} (hc : cached = none ∨ cached = some p) {new : Row} (hf : ∀ r ∈ db.rows, r.pk ≠ new.pk) :
    ∃ db' obj T l pos' t', addInnerSibling db t cached pos t.tree t.depth new = .ok (db', obj) ∧
      PlacedAt db db' obj new (par db.rows t) T l ∧ Resolved db.rows t pos pos' t' ∧
      (pos' = .lastSibling → AtEnd db.rows (par db.rows t) T l) ∧
      (pos' = .left ∨ pos' = .firstSibling → BeforeRow db.rows (par db.rows t) t' T l) := by
  obtain ⟨pos', t', e, hres⟩ := resolvePos_spec h ht hpos
  have hpar : par db.rows t = some p.pk := par_of_inner h ht hp
  have hdep := sib_depth h hp ht
  unfold addInnerSibling
  rw [e]
  simp only
  rcases hres.cases with ⟨e1, e2, _⟩ | ⟨e1, _⟩
  · subst e1 e2
    have hgp : getParent db t' (if pos = .lastSibling then cached else none) = .ok (some p) := by
      have hnone : getParent db t' none = .ok (some p) := by
        rcases getParent_spec h ht with ⟨_, h2, _⟩ | ⟨_, p', hi', _, h3⟩
        · rw [hpar] at h2; cases h2
        · rw [h3, hi'.unique hp]
      have hcached : getParent db t' (some p) = .ok (some p) := by
        unfold getParent
        rw [if_neg]
        have := (par_eq_none h ht).not.1 (by rw [hpar]; simp)
        simp [Row.isRoot, this]
      split
      · rcases hc with rfl | rfl
        · exact hnone
        · exact hcached
      · exact hnone
    rw [if_pos rfl, hgp]
    simp only
    have ho := opened_rgt h hp.1 (g := 2) (by omega)
    have htr : t'.tree = p.tree := hp.2.1.1.symm
    refine ⟨_, _, p.tree, p.rgt, .lastSibling, t', rfl, ⟨_, some p, ho, hpar.symm, ?_, ?_⟩, hres, ?_, ?_⟩
    · rw [save_fresh]
      · rw [htr]; rfl
      · simp only [alterGap, htr]; exact fresh_map ho hf
    · rw [htr, hdep]
    · intro _; rw [hpar]; exact atEnd_rgt h hp.1
    · rintro (e | e) <;> cases e
  · have hne : pos' ≠ .lastSibling := by rcases e1 with rfl | ⟨rfl, _⟩ <;> decide
    have hor : pos' = .firstSibling ∨ pos' = .left := by
      rcases e1 with h | ⟨h, _⟩
      · exact Or.inr h
      · exact Or.inl h
    rw [if_neg hne, if_pos hor]
    have hp' : Inner db.rows p t' := by
      rw [← par_row h hp.1 hres.mem, hres.par, hpar]
    have ho := opened_lft h hp' hres.mem (g := 2) (by omega)
    have htr : t.tree = t'.tree := hp.2.1.1.symm.trans hp'.2.1.1
    refine ⟨_, _, t'.tree, t'.lft, pos', t', rfl, ⟨_, some p, ho, hpar.symm, ?_, ?_⟩, hres, ?_, ?_⟩
    · rw [save_fresh]
      · rfl
      · exact fresh_map ho hf
    · rw [htr, hdep]
    · intro e; exact absurd e hne
    · intro _; exact beforeRow_lft t'

/-! ### Roots -/

theorem root_tree_le (h : NI db.rows) {z : Row} (hz : lastRootNode db = some z) : z ∈ db.rows ∧ z.lft = 1 ∧ ∀ r ∈ db.rows, r.tree ≤ z.tree := by
  unfold lastRootNode at hz
  obtain ⟨h1, h2⟩ := getLast?_max (rootNodes_sorted h) hz
  have hz' := mem_rootNodes.1 h1
  refine ⟨hz'.1, hz'.2, ?_⟩
  have key : ∀ q ∈ db.rows, q.lft = 1 → q.tree ≤ z.tree := by
    intro q hq hq1
    rcases h2 q (mem_rootNodes.2 ⟨hq, hq1⟩) with rfl | e
    · exact Int.le_refl _
    · rw [lt_iff] at e; omega
  intro r hr
  by_cases e : r.lft = 1
  · exact key r hr e
  · obtain ⟨q, hq, hq1, he⟩ := h.root r hr e
    rw [← he.1]; exact key q hq hq1

theorem lastRoot_none (h : NI db.rows) (hz : lastRootNode db = none) : db.rows = [] := by
  unfold lastRootNode at hz
  rw [List.getLast?_eq_none_iff] at hz
  rw [List.eq_nil_iff_forall_not_mem]
  have key : ∀ q ∈ db.rows, q.lft ≠ 1 := by
    intro q hq hq1
    have := mem_rootNodes.2 ⟨hq, hq1⟩
    rw [hz] at this; simp at this
  intro r hr
  obtain ⟨q, hq, hq1, _⟩ := h.root r hr (key r hr)
  exact key q hq hq1

theorem lastRoot_some {r : Row} (hr : r ∈ db.rows) (hl : r.lft = 1) : ∃ z, lastRootNode db = some z := by
  cases e : lastRootNode db with
  | some z => exact ⟨z, rfl⟩
  | none =>
    unfold lastRootNode at e
    rw [List.getLast?_eq_none_iff] at e
    have := mem_rootNodes.2 ⟨hr, hl⟩
    rw [e] at this; simp at this

theorem atEnd_root (h : NI db.rows) {z : Row} (hz : lastRootNode db = some z) : AtEnd db.rows none (z.tree + 1) 1 := by
  obtain ⟨_, _, hmax⟩ := root_tree_le h hz
  intro r hr _
  have := hmax r hr
  unfold befH
  omega

theorem opened_lastRoot (h : NI db.rows) {z : Row} (hz : lastRootNode db = some z) (g : Int) :
    Opened db.rows id (z.tree + 1) 1 g none := by
  obtain ⟨hzm, _, hmax⟩ := root_tree_le h hz
  refine opened_last h ?_ ?_ g
  · have := h.tree z hzm; omega
  · intro r hr; have := hmax r hr; omega

theorem place_end (h : NI db.rows) {z : Row} (hz : lastRootNode db = some z) {new : Row} (hf : ∀ r ∈ db.rows, r.pk ≠ new.pk) (hd : new.depth = 1) :
    PlacedAt db (save db { new with tree := z.tree + 1, lft := 1, rgt := 2 }) { new with tree := z.tree + 1, lft := 1, rgt := 2 } new none
      (z.tree + 1) 1 := by
  refine ⟨id, none, opened_lastRoot h hz 2, rfl, ?_, ?_⟩
  · rw [save_fresh (by exact hf), List.map_id]
  · simp only [depthIn, hd]; rfl

theorem place_right (h : NI db.rows) {T : Int} (hT : 1 ≤ T) {new : Row} (hf : ∀ r ∈ db.rows, r.pk ≠ new.pk) (hd : new.depth = 1) :
    PlacedAt db (save (moveTreeRight db T) { new with tree := T, lft := 1, rgt := 2 }) { new with tree := T, lft := 1, rgt := 2 } new none T 1 := by
  have ho := opened_right h hT 2
  refine ⟨treeRightRow T, none, ho, rfl, ?_, ?_⟩
  · rw [save_fresh (by exact fresh_map ho hf)]; rfl
  · simp only [depthIn, hd]; rfl

/-- adding a root next to the root `t` -/
theorem addRootSibling_place (h : NI db.rows) {t : Row} (ht : t ∈ db.rows) (hl : t.lft = 1) {pos : Pos} (hpos : IsSibPos pos) {new : Row}
    (hf : ∀ r ∈ db.rows, r.pk ≠ new.pk) (hd : new.depth = 1) :
    ∃ db' obj T, addRootSibling db t pos new = .ok (db', obj) ∧ PlacedAt db db' obj new none T 1 ∧
      PSlot db.rows (fun _ => True) none T 1 (sibAsked t.pk pos) ∧
      (pos = .left → BeforeRow db.rows none t T 1) ∧ (pos = .lastSibling → AtEnd db.rows none T 1) := by
  obtain ⟨z, hz⟩ := lastRoot_some ht hl
  have hpart : par db.rows t = none := (par_eq_none h ht).2 hl
  have hroot : ∀ r ∈ db.rows, par db.rows r = none → r.lft = 1 := fun r hr hp => (par_eq_none h hr).1 hp
  have hend := atEnd_root h hz
  unfold addRootSibling
  rw [hz]
  simp only
  rcases hpos with rfl | rfl | rfl | rfl
  · rw [if_neg (by simp)]
    refine ⟨_, _, 1, rfl, place_right h (by omega) hf hd, ?_, by rintro ⟨⟩, by rintro ⟨⟩⟩
    intro r hr _ hp
    have := h.tree r hr
    have := h.one r hr
    unfold aftP; omega
  · rw [if_neg (by simp)]
    have hb : BeforeRow db.rows none t t.tree 1 := by
      have := beforeRow_lft (rows := db.rows) (P := none) t
      rwa [hl] at this
    exact ⟨_, _, t.tree, rfl, place_right h (h.tree t ht) hf hd, pslot_before hb ht trivial hpart, fun _ => hb, by rintro ⟨⟩⟩
  · by_cases e : sameNode t (some z) = true
    · rw [if_pos (Or.inr ⟨rfl, e⟩)]
      have : t = z := h.pk_inj ht (root_tree_le h hz).1 (by simpa [sameNode] using e)
      subst this
      refine ⟨_, _, t.tree + 1, rfl, place_end h hz hf hd, ?_, by rintro ⟨⟩, by rintro ⟨⟩⟩
      refine ⟨t, ht, trivial, rfl, hpart, hend t ht hpart, ?_⟩
      intro r hr _ hp hlt
      have h1 := hend r hr hp
      have h2 := hroot r hr hp
      rw [lt_iff] at hlt
      unfold befH at h1
      unfold aftP
      omega
    · rw [if_neg (by simp [e])]
      refine ⟨_, _, t.tree + 1, rfl, place_right h (by have := h.tree t ht; omega) hf hd, ?_, by rintro ⟨⟩, by rintro ⟨⟩⟩
      refine ⟨t, ht, trivial, rfl, hpart, ?_, ?_⟩
      · unfold befH; omega
      · intro r hr _ hp hlt
        have h2 := hroot r hr hp
        rw [lt_iff] at hlt
        unfold aftP
        omega
  · rw [if_pos (Or.inl rfl)]
    exact ⟨_, _, z.tree + 1, rfl, place_end h hz hf hd, pslot_end hend _, by rintro ⟨⟩, fun _ => hend⟩

/-! ### `add_sibling` -/

/-- **`add_sibling` without `node_order_by`**: the new node stands at the slot asked for.  `cached` is the parent object
kept in the target, if any; it has to be up to date. -/
theorem addSibling_unsorted (h : NInv db.rows) (ho : cfg.ordered = false) {t : Row} (ht : t ∈ db.rows)
    {cached : Option Row} (hc : ∀ p, cached = some p → p ∈ db.rows ∧ par db.rows t = some p.pk) {posArg : Option Pos} {pos : Pos}
    (hprep : preparePosForAddSibling false posArg = .ok pos) {new : Row} (hf : ∀ r ∈ db.rows, r.pk ≠ new.pk) :
    ∃ db' obj, addSibling cfg db t cached posArg new = .ok (db', obj) ∧ Added db db' obj new (par db.rows t) (sibAsked t.pk pos) := by
  have hpos := (prepAdd_arg hprep).1
  have hns : pos ≠ .sortedSibling := by rcases hpos with rfl | rfl | rfl | rfl <;> decide
  unfold addSibling
  rw [ho, hprep]
  simp only
  unfold resolveSorted
  rw [if_neg hns]
  simp only
  by_cases hl : t.lft = 1
  · rw [if_pos (by simp [Row.isRoot, hl])]
    obtain ⟨db', obj, T, e, hpl, hsl, _⟩ := addRootSibling_place h.toNI ht hl hpos (new := { new with depth := t.depth }) hf
      (show t.depth = 1 from h.toNI.depth_root ht hl)
    refine ⟨db', obj, e, ?_⟩
    have hpar := (par_eq_none h.toNI ht).2 hl
    rw [hpar]
    have hpl' : PlacedAt db db' obj new none T 1 := hpl
    exact hpl'.added h hf hsl
  · rw [if_neg (by simp [Row.isRoot, hl]), if_neg hns]
    rcases getParent_spec h.toNI ht with ⟨h1, _⟩ | ⟨_, p, hi, hpar, _⟩
    · exact absurd h1 hl
    · have hc' : cached = none ∨ cached = some p := by
        cases cached with
        | none => exact Or.inl rfl
        | some p' =>
          obtain ⟨h1, h2⟩ := hc p' rfl
          rw [hpar] at h2
          right; rw [h.pk_inj h1 hi.1 (Option.some.inj h2).symm]
      obtain ⟨db', obj, T, l, pos', t', e, hpl, hres, hend, hbef⟩ := addInner_place h.toNI ht hi hpos hc' hf
      exact ⟨db', obj, e, hpl.added h hf (hres.slot ht (Or.inl trivial) hend hbef)⟩

/-- **`add_sibling` with `node_order_by`**: the new node goes before the first sibling that the sorted query finds, or to
the end if it finds none. -/
theorem addSibling_sorted (h : NInv db.rows) (ho : cfg.ordered = true) {t : Row} (ht : t ∈ db.rows) {cached : Option Row}
    {posArg : Option Pos} (hprep : preparePosForAddSibling true posArg = .ok .sortedSibling) {new : Row}
    (hf : ∀ r ∈ db.rows, r.pk ≠ new.pk) :
    ∃ l db' obj s, siblings db t = .ok l ∧ addSibling cfg db t cached posArg new = .ok (db', obj) ∧
      Added db db' obj new (par db.rows t) s ∧
      ((∃ z ∈ l, (sortedPosQueryset cfg.orderBy Row.vals l new.vals).head? = some z ∧ s = .before z.pk) ∨
       ((sortedPosQueryset cfg.orderBy Row.vals l new.vals).head? = none ∧ s = .last)) := by
  obtain ⟨l, hl, pos', t', e, ht', hpar', hcase⟩ := resolveSorted_spec h.toNI ht (cfg := cfg) (vals := new.vals)
  obtain ⟨l', hl', _, hm, _⟩ := siblings_spec h.toNI ht
  rw [hl] at hl'
  cases hl'
  have hpos : IsSibPos pos' := by
    unfold IsSibPos
    rcases hcase with ⟨rfl, _⟩ | ⟨rfl, _⟩ <;> simp
  have htl : t' ∈ l := (hm t').2 ⟨ht', hpar'⟩
  refine ⟨l, ?_⟩
  unfold addSibling
  rw [ho, hprep]
  simp only
  rw [e]
  simp only
  by_cases hlt : t.lft = 1
  · have hpar := (par_eq_none h.toNI ht).2 hlt
    have hlt' : t'.lft = 1 := (par_eq_none h.toNI ht').1 (hpar'.trans hpar)
    rw [if_pos (by simp [Row.isRoot, hlt])]
    obtain ⟨db', obj, T, e', hpl, hsl, _⟩ := addRootSibling_place h.toNI ht' hlt' hpos (new := { new with depth := t.depth }) hf
      (show t.depth = 1 from h.toNI.depth_root ht hlt)
    have hpl' : PlacedAt db db' obj new none T 1 := hpl
    rw [hpar]
    refine ⟨db', obj, sibAsked t'.pk pos', hl, e', hpl'.added h hf hsl, ?_⟩
    rcases hcase with ⟨rfl, hq⟩ | ⟨rfl, _, hq⟩
    · exact Or.inl ⟨t', htl, hq, rfl⟩
    · exact Or.inr ⟨hq, rfl⟩
  · rw [if_neg (by simp [Row.isRoot, hlt]), if_pos trivial]
    rcases getParent_spec h.toNI ht with ⟨h1, _⟩ | ⟨_, p, hi, hpar, _⟩
    · exact absurd h1 hlt
    · have hi' : Inner db.rows p t' := by rw [← par_row h.toNI hi.1 ht', hpar', hpar]
      have htr : t.tree = t'.tree := hi.2.1.1.symm.trans hi'.2.1.1
      have hdp : t.depth = t'.depth := (h.toNI.depth_inner hi ht).trans (h.toNI.depth_inner hi' ht').symm
      obtain ⟨db', obj, T, l2, pos2, t2, e', hpl, hres, hend, hbef⟩ := addInner_place h.toNI ht' hi' hpos (Or.inl rfl) hf
      have hsl := hres.slot (R := fun _ => True) ht' (Or.inl trivial) hend hbef
      rw [htr, hdp]
      have := hpl.added h hf hsl
      rw [hpar'] at this
      refine ⟨db', obj, sibAsked t'.pk pos', hl, e', this, ?_⟩
      rcases hcase with ⟨rfl, hq⟩ | ⟨rfl, _, hq⟩
      · exact Or.inl ⟨t', htl, hq, rfl⟩
      · exact Or.inr ⟨hq, rfl⟩

/-! ### `add_root` -/

theorem addRoot_first (h : NInv db.rows) (hz : lastRootNode db = none) {new : Row} :
    ∃ db' obj, addRoot cfg db new = .ok (db', obj) ∧ Added db db' obj new none .last := by
  have he := lastRoot_none h.toNI hz
  have ho : Opened db.rows id 1 1 2 none := opened_last h.toNI (by omega) (by rw [he]; simp) 2
  have hf : ∀ r ∈ db.rows, r.pk ≠ new.pk := by rw [he]; simp
  unfold addRoot
  rw [hz]
  refine ⟨_, _, rfl, PlacedAt.added h (T := 1) (l := 1) ⟨id, none, ho, rfl, ?_, rfl⟩ hf ?_⟩
  · rw [save_fresh (by exact hf), List.map_id]
  · intro r hr; rw [he] at hr; simp at hr

theorem addRoot_unsorted (h : NInv db.rows) (ho : cfg.ordered = false) {new : Row} (hf : ∀ r ∈ db.rows, r.pk ≠ new.pk) :
    ∃ db' obj, addRoot cfg db new = .ok (db', obj) ∧ Added db db' obj new none .last := by
  cases hz : lastRootNode db with
  | none => exact addRoot_first h hz
  | some z =>
    unfold addRoot
    rw [hz]
    simp only [ho, Bool.false_eq_true, if_false]
    have hpl := place_end h.toNI hz (new := { new with depth := 1 }) hf rfl
    have hpl' : PlacedAt db _ _ new none (z.tree + 1) 1 := hpl
    exact ⟨_, _, rfl, hpl'.added h hf (pslot_end (atEnd_root h.toNI hz) _)⟩

theorem addRoot_sorted (h : NInv db.rows) (ho : cfg.ordered = true) {new : Row} (hf : ∀ r ∈ db.rows, r.pk ≠ new.pk) :
    ∃ db' obj s, addRoot cfg db new = .ok (db', obj) ∧ Added db db' obj new none s ∧
      ((∃ z ∈ rootNodes db, (sortedPosQueryset cfg.orderBy Row.vals (rootNodes db) new.vals).head? = some z ∧ s = .before z.pk) ∨
       ((sortedPosQueryset cfg.orderBy Row.vals (rootNodes db) new.vals).head? = none ∧ s = .last)) := by
  cases hz : lastRootNode db with
  | none =>
    obtain ⟨db', obj, e, ha⟩ := addRoot_first (cfg := cfg) (new := new) h hz
    refine ⟨db', obj, .last, e, ha, Or.inr ⟨?_, rfl⟩⟩
    have : rootNodes db = [] := by
      unfold lastRootNode at hz
      rwa [List.getLast?_eq_none_iff] at hz
    have hsub := sortedPos_sublist cfg.orderBy Row.vals (rootNodes db) new.vals
    rw [this] at hsub ⊢
    rw [List.sublist_nil.1 hsub]; rfl
  | some z =>
    obtain ⟨hzm, hz1, _⟩ := root_tree_le h.toNI hz
    obtain ⟨l, db', obj, s, hl, e, ha, hc⟩ := addSibling_sorted h ho hzm (cached := none) (posArg := some .sortedSibling) (by decide) hf
    have hle : l = rootNodes db := by
      unfold siblings at hl
      rw [if_pos (by simp [hz1])] at hl
      cases hl; rfl
    subst hle
    rw [(par_eq_none h.toNI hzm).2 hz1] at ha
    refine ⟨db', obj, s, ?_, ha, hc⟩
    unfold addRoot
    rw [hz]
    simp only [ho, if_true]
    exact e

/-! ### `add_child` -/

/-- below every row there is a child towards each of its descendants -/
theorem child_towards (h : NI db.rows) {p : Row} (hp : p ∈ db.rows) : ∀ n r, r ∈ db.rows → above db.rows r = n → encl p r →
    ∃ c ∈ db.rows, par db.rows c = some p.pk ∧ InB c r := by
  intro n
  induction n with
  | zero =>
    intro r hr hn he
    unfold above at hn
    rw [List.countP_eq_zero] at hn
    exact absurd (by simpa using he) (hn p hp)
  | succ n ih =>
    intro r hr hn he
    rcases par_cases h hr with ⟨_, hno⟩ | ⟨q, hi, e⟩
    · exact absurd he (hno p hp)
    · rcases hi.2.2 p hp he with rfl | hpq
      · exact ⟨r, hr, e, Or.inl rfl⟩
      · have := above_inner h hi
        obtain ⟨c, hc, hpc, hin⟩ := ih q hi.1 (by omega) hpq
        exact ⟨c, hc, hpc, inB_down hin hi.2.1⟩

theorem exists_child (h : NInv db.rows) {p : Row} (hp : p ∈ db.rows) (hl : p.isLeaf = false) : ∃ c ∈ db.rows, par db.rows c = some p.pk := by
  have hlr := h.lr p hp
  have hne : p.rgt - p.lft ≠ 1 := by simpa [Row.isLeaf] using hl
  obtain ⟨q, hq, ht, hor⟩ := h.full p hp (p.lft + 1) (by omega) (by omega)
  have hB := h.toNI.inB_of_end hp hq ht hor (by omega) (by omega)
  rcases hB with rfl | he
  · omega
  · obtain ⟨c, hc, hpc, _⟩ := child_towards h.toNI hp _ q hq rfl he
    exact ⟨c, hc, hpc⟩

theorem lastChild_spec (h : NInv db.rows) {p : Row} (hp : p ∈ db.rows) (hl : p.isLeaf = false) :
    ∃ z, lastChild db p = some z ∧ z ∈ db.rows ∧ par db.rows z = some p.pk ∧
      ∀ r ∈ db.rows, par db.rows r = some p.pk → ¬ lt z r := by
  obtain ⟨c, hc, hpc⟩ := exists_child h hp hl
  have hcm := (mem_children h.toNI hp).2 ⟨hc, hpc⟩
  unfold lastChild
  cases e : (children db p).getLast? with
  | none =>
    rw [List.getLast?_eq_none_iff] at e
    rw [e] at hcm; simp at hcm
  | some z =>
    obtain ⟨hz, hmax⟩ := getLast?_max (children_sorted h.toNI p) e
    have hz' := (mem_children h.toNI hp).1 hz
    refine ⟨z, rfl, hz'.1, hz'.2, ?_⟩
    intro r hr hpr hlt
    rcases hmax r ((mem_children h.toNI hp).2 ⟨hr, hpr⟩) with rfl | e
    · exact lt_irrefl _ hlt
    · exact lt_asymm hlt e

theorem leaf_no_child (h : NI db.rows) {p r : Row} (hp : p ∈ db.rows) (hl : p.isLeaf = true) (hr : r ∈ db.rows) : par db.rows r ≠ some p.pk := by
  intro e
  exact leaf_no_encl h hl hr ((par_row h hp hr).1 e).2.1

theorem addChild_leaf (h : NInv db.rows) {t target : Row} (ht : t ∈ db.rows) (hk : target.pk = t.pk) (hl : t.isLeaf = true)
    {new : Row} (hf : ∀ r ∈ db.rows, r.pk ≠ new.pk) (s : Slot) (hs : s = .first ∨ s = .last) :
    ∃ db' obj, addChild cfg db target new = .ok (db', obj, { target with rgt := t.rgt + 2 }) ∧ Added db db' obj new (some t.pk) s ∧
      db'.rows = db.rows.map (gapRow t.tree t.rgt 2) ++ [obj] := by
  have hg : db.get? target.pk = some t := (get?_eq_some h.toNI).2 ⟨ht, hk.symm⟩
  have ho := opened_rgt h.toNI ht (g := 2) (by omega)
  have hrgt : t.rgt = t.lft + 1 := by simp [Row.isLeaf] at hl; omega
  unfold addChild
  rw [hg]
  simp only [hl, if_true]
  have hrows : ∀ x : Row, x.pk = new.pk → (save (alterGap db t.tree t.rgt 2) x).rows = db.rows.map (gapRow t.tree t.rgt 2) ++ [x] := by
    intro x hx
    rw [save_fresh]
    · rfl
    · rw [hx]; exact fresh_map ho hf
  refine ⟨_, _, rfl, PlacedAt.added h (T := t.tree) (l := t.rgt) ⟨_, some t, ho, rfl, ?_, ?_⟩ hf ?_, ?_⟩
  · exact hrows _ rfl
  · simp only [depthIn, hrgt]
    congr 1
    omega
  · rcases hs with rfl | rfl <;> intro r hr _ hp <;> exact absurd hp (leaf_no_child h.toNI ht hl hr)
  · exact hrows _ rfl

theorem addChild_unsorted (h : NInv db.rows) (ho : cfg.ordered = false) {t target : Row} (ht : t ∈ db.rows) (hk : target.pk = t.pk)
    {new : Row} (hf : ∀ r ∈ db.rows, r.pk ≠ new.pk) :
    ∃ db' obj target', addChild cfg db target new = .ok (db', obj, target') ∧ Added db db' obj new (some t.pk) .last := by
  have hg : db.get? target.pk = some t := (get?_eq_some h.toNI).2 ⟨ht, hk.symm⟩
  cases hl : t.isLeaf with
  | true =>
    obtain ⟨db', obj, e, ha, _⟩ := addChild_leaf (cfg := cfg) h ht hk hl hf .last (Or.inr rfl)
    exact ⟨db', obj, _, e, ha⟩
  | false =>
    obtain ⟨z, hz, hzm, hzp, _⟩ := lastChild_spec h ht hl
    obtain ⟨db', obj, e, ha⟩ := addSibling_unsorted h ho hzm (cached := some t)
      (by intro p e; cases e; exact ⟨ht, hzp⟩) (posArg := some .lastSibling) (pos := .lastSibling) (by decide) hf
    rw [hzp] at ha
    unfold addChild
    rw [hg]
    simp only [hl, Bool.false_eq_true, if_false, hz, ho]
    rw [e]
    exact ⟨db', obj, _, rfl, ha⟩

theorem addChild_sorted (h : NInv db.rows) (ho : cfg.ordered = true) {t target : Row} (ht : t ∈ db.rows) (hk : target.pk = t.pk)
    {new : Row} (hf : ∀ r ∈ db.rows, r.pk ≠ new.pk) :
    ∃ db' obj target' s, addChild cfg db target new = .ok (db', obj, target') ∧ Added db db' obj new (some t.pk) s ∧
      ((∃ z ∈ children db t, (sortedPosQueryset cfg.orderBy Row.vals (children db t) new.vals).head? = some z ∧ s = .before z.pk) ∨
       ((sortedPosQueryset cfg.orderBy Row.vals (children db t) new.vals).head? = none ∧ s = .last)) := by
  have hg : db.get? target.pk = some t := (get?_eq_some h.toNI).2 ⟨ht, hk.symm⟩
  cases hl : t.isLeaf with
  | true =>
    obtain ⟨db', obj, e, ha, _⟩ := addChild_leaf (cfg := cfg) h ht hk hl hf .last (Or.inr rfl)
    refine ⟨db', obj, _, .last, e, ha, Or.inr ⟨?_, rfl⟩⟩
    have : children db t = [] := by
      rw [List.eq_nil_iff_forall_not_mem]
      intro r hr
      have := (mem_children h.toNI ht).1 hr
      exact leaf_no_child h.toNI ht hl this.1 this.2
    have hsub := sortedPos_sublist cfg.orderBy Row.vals (children db t) new.vals
    rw [this] at hsub ⊢
    rw [List.sublist_nil.1 hsub]; rfl
  | false =>
    obtain ⟨z, hz, hzm, hzp, _⟩ := lastChild_spec h ht hl
    obtain ⟨l, db', obj, s, hsib, e, ha, hc⟩ := addSibling_sorted h ho hzm (cached := some t) (posArg := some .sortedSibling) (by decide) hf
    rw [hzp] at ha
    have hle : l = children db t := by
      unfold siblings at hsib
      rcases getParent_spec h.toNI hzm with ⟨_, h2, _⟩ | ⟨h1, p, hi, h2, h3⟩
      · rw [hzp] at h2; cases h2
      · rw [if_neg (by simp [h1]), h3] at hsib
        rw [hzp] at h2
        have : t = p := h.pk_inj ht hi.1 (Option.some.inj h2)
        subst this
        cases hsib; rfl
    subst hle
    unfold addChild
    rw [hg]
    simp only [hl, Bool.false_eq_true, if_false, hz, ho, if_true]
    rw [e]
    exact ⟨db', obj, _, s, rfl, ha, hc⟩

end Verif.NS
