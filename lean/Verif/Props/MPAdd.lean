/-
C05, C06, C47 (MP), C27 (MP), and the additions of C12 and C16.
-/
import Verif.MP.Check
import Verif.MP.SortedTree
import Verif.Props.NumConv
import Verif.MP.Example
import Verif.SpecHistory

namespace Verif

open MP

variable {cfg : Cfg} {db : DB}

/-! ### Vocabulary -/

/-- The new node stands at slot `s` below `p` and nothing else changed: `db'` is consistent, its forest is
the old one with the new key put at this place, the stored data are the old ones and the new one, and the
returned object is the stored row. -/
structure AddedAt (cfg : Cfg) (db db' : DB) (obj new : Row) (p : Option Nat) (s : Slot) : Prop where
  consistent : Consistent cfg db'
  forest : forest cfg db' = (forest cfg db).put p s new.pk
  data : data db'.rows = data db.rows ++ [(new.pk, new.vals)]
  obj : obj ∈ db'.rows ∧ obj.pk = new.pk

/-- A child of `p` (a root for `none`) has the very last position that `steplen` characters can write. -/
def LastTaken (cfg : Cfg) (db : DB) (p : Option Nat) : Prop :=
  ∃ r ∈ db.rows, r.pk ∈ forest cfg db p ∧ List.replicate cfg.steplen (cfg.alphabet.getLastD 0) <:+ r.path

/-- A new object: its primary key is not in use (the database chooses it) and it has no children yet. -/
def Fresh (db : DB) (new : Row) : Prop := (∀ r ∈ db.rows, r.pk ≠ new.pk) ∧ new.numchild = 0

theorem AddedAt.of (hok : cfg.Ok) {db' : DB} (h0 : Inv cfg db.rows) {obj new : Row} {p : Option Nat} {s : Slot}
    (h : Added cfg db db' obj new p s) : AddedAt cfg db db' obj new p s :=
  ⟨(consistent_iff hok).2 h.inv, by rw [forest_eq h.inv hok, forest_eq h0 hok]; exact h.forest, h.data, h.mem, h.pk⟩

theorem lastTaken_of (hok : cfg.Ok) (h : Inv cfg db.rows) {P : List Nat} (hP : IsPar db.rows P)
    (hu : LastUsed cfg db.rows P) : LastTaken cfg db (at? db.rows P) := by
  obtain ⟨r, hr, e⟩ := hu
  have hcap := cap_gt_one hok
  refine ⟨r, hr, ?_, ?_⟩
  · rw [forest_eq h hok, mem_PF h.toPInv]
    refine ⟨r, hr, ?_, rfl⟩
    rw [par_eq_at h.toPInv hok hr hP, e]
    exact pp_append_step (stp_length hok (by omega))
  · rw [max_eq_stp hok, e]
    exact List.suffix_append _ _

theorem isPar_pp (h : PInv cfg db.rows) {t : Row} (ht : t ∈ db.rows) :
    IsPar db.rows (pp cfg.steplen t.path) := by
  by_cases hl : t.path.length = cfg.steplen
  · left; simp [pp, hl]
  · right
    have := (h.inv.len t ht).2
    exact h.inv.closed t ht (by omega)

theorem mem_forest_par (hok : cfg.Ok) (h : Inv cfg db.rows) {t : Row} (ht : t ∈ db.rows) :
    t.pk ∈ forest cfg db (par cfg db.rows t) := by
  rw [forest_eq h hok, mem_PF h.toPInv]; exact ⟨t, ht, rfl, rfl⟩

/-- The place of a stored node is unique. -/
theorem parent_unique (hok : cfg.Ok) (h : Consistent cfg db) {p q : Option Nat} {k : Nat}
    (hp : k ∈ forest cfg db p) (hq : k ∈ forest cfg db q) : p = q := by
  have h := (consistent_iff hok).1 h
  rw [forest_eq h hok, mem_PF h.toPInv] at hp hq
  obtain ⟨r, hr, rfl, rfl⟩ := hp
  obtain ⟨r', hr', rfl, e⟩ := hq
  rw [h.inv.pk_inj hr' hr e]

/-! ### C05 -/

/-- **C05, `add_root`.** On every consistent tree, without `node_order_by`, the new node becomes the last
root and nothing else changes; otherwise PathOverflow is raised (no table is returned: nothing changes), and
then the last position is really taken. -/
theorem C05_add_root (hok : cfg.Ok) (h : Consistent cfg db) (ho : cfg.ordered = false) {new : Row} (hf : Fresh db new) :
    (∃ db' obj, addRoot cfg db new = .ok (db', obj) ∧ AddedAt cfg db db' obj new none .last) ∨
    (addRoot cfg db new = .error .pathOverflow ∧ LastTaken cfg db none) := by
  have h := (consistent_iff hok).1 h
  rcases addRoot_unsorted hok h ho hf.1 hf.2 with ⟨db', obj, e, ha⟩ | ⟨e, hu⟩
  · exact Or.inl ⟨db', obj, e, AddedAt.of hok h ha⟩
  · refine Or.inr ⟨e, ?_⟩
    have := lastTaken_of hok h (Or.inl rfl) hu
    rwa [at?_nil h.toPInv hok] at this

example : Consistent exCfg exDB ∧ Fresh exDB ⟨9, [], 0, 0, []⟩ ∧
    ∃ db' obj, addRoot exCfg exDB ⟨9, [], 0, 0, []⟩ = .ok (db', obj) ∧ forest exCfg db' none = [1, 5, 9] :=
  ⟨exDB_consistent, by unfold Fresh; decide, _, _, rfl, by decide⟩

/-- the other outcome: the root "9" is the last one that fits -/
example : Consistent exCfg { rows := [⟨1, [57], 1, 0, []⟩] } ∧
    addRoot exCfg { rows := [⟨1, [57], 1, 0, []⟩] } ⟨9, [], 0, 0, []⟩ = .error .pathOverflow :=
  ⟨⟨by decide, by decide, by intro p; cases p <;> decide, by decide, by decide⟩, rfl⟩

/-- **C05, `add_child`.** Likewise below a target; here PathOverflow is also raised below a leaf whose path
cannot be extended within `path.max_length`.  The in-memory `target` may be stale: only its key counts (C47);
afterwards its `numchild` is the stored one (C27). -/
theorem C05_add_child (hok : cfg.Ok) (h : Consistent cfg db) (ho : cfg.ordered = false) {t target : Row} (ht : t ∈ db.rows)
    (hk : target.pk = t.pk) {new : Row} (hf : Fresh db new) :
    (∃ db' obj target', addChild cfg db target new = .ok (db', obj, target') ∧
      AddedAt cfg db db' obj new (some t.pk) .last) ∨
    (addChild cfg db target new = .error .pathOverflow ∧
      (LastTaken cfg db (some t.pk) ∨ (forest cfg db (some t.pk) = [] ∧ cfg.maxLen < t.path.length + cfg.steplen))) := by
  have h := (consistent_iff hok).1 h
  rcases addChild_last hok h ht hk (Or.inl ho) hf.1 hf.2 with ⟨db', obj, e, ha⟩ | ⟨e, hu⟩
  · exact Or.inl ⟨db', obj, _, e, AddedAt.of hok h ha⟩
  · refine Or.inr ⟨e, ?_⟩
    rcases hu with hu | ⟨hl, hu⟩
    · left
      have := lastTaken_of hok h (Or.inr ⟨t, ht, rfl⟩) hu
      rwa [at?_row h.toPInv ht] at this
    · right
      refine ⟨?_, hu⟩
      rw [forest_eq h hok]
      exact (isLeaf_iff h ht).1 hl

example : (⟨1, [49], 1, 2, []⟩ : Row) ∈ exDB.rows ∧ Fresh exDB ⟨9, [], 0, 0, []⟩ ∧
    ∃ db' obj t', addChild exCfg exDB ⟨1, [], 0, 0, []⟩ ⟨9, [], 0, 0, []⟩ = .ok (db', obj, t') ∧
      forest exCfg db' (some 1) = [2, 3, 9] :=
  ⟨by decide, by unfold Fresh; decide, _, _, _, rfl, by decide⟩

/-! ### C06 -/

theorem sibSlot_of {t : Nat} {pos : Pos} (h : IsSibPos pos) : sibSlot t pos = some (sibAsked t pos) := by
  rcases h with rfl | rfl | rfl | rfl <;> rfl

theorem sibPos_of_prep {posArg : Option Pos} {pos : Pos} (hp : preparePosForAddSibling false posArg = .ok pos) : IsSibPos pos := by
  unfold preparePosForAddSibling preparePosVar at hp
  unfold IsSibPos
  rcases posArg with _ | q
  · revert hp
    simp [validPosForAddSibling, validPosForSortedAddSibling]
    rintro rfl; simp
  · revert hp
    cases q <;> simp [validPosForAddSibling, validPosForSortedAddSibling]
    all_goals rintro rfl; simp

/-- **C06.** `add_sibling(target, pos)` puts the new node at the requested place among the target's
siblings and changes nothing else; otherwise PathOverflow is raised, nothing changes, and the last position
is taken.  (`None` means last-sibling; other position arguments raise, see C38.) -/
theorem C06_add_sibling (hok : cfg.Ok) (h : Consistent cfg db) (ho : cfg.ordered = false) {t : Row} (ht : t ∈ db.rows)
    {pos : Pos} (hpos : IsSibPos pos) {posArg : Option Pos} (harg : posArg = some pos ∨ (posArg = none ∧ pos = .lastSibling))
    {new : Row} (hf : Fresh db new) :
    ∃ p, t.pk ∈ forest cfg db p ∧
    ((∃ db' obj, addSibling cfg db t posArg new = .ok (db', obj) ∧
      AddedAt cfg db db' obj new p (sibAsked t.pk pos)) ∨
    (addSibling cfg db t posArg new = .error .pathOverflow ∧ LastTaken cfg db p)) := by
  have h := (consistent_iff hok).1 h
  refine ⟨par cfg db.rows t, mem_forest_par hok h ht, ?_⟩
  have hprep : preparePosForAddSibling cfg.ordered posArg = .ok pos := by
    rw [ho]
    rcases harg with rfl | ⟨rfl, rfl⟩
    · rcases hpos with rfl | rfl | rfl | rfl <;> decide
    · decide
  rcases addSibling_unsorted hok h ht hprep (sibSlot_of hpos) hf.1 hf.2 with ⟨db', obj, e, ha⟩ | ⟨e, hu⟩
  · exact Or.inl ⟨db', obj, e, AddedAt.of hok h ha⟩
  · exact Or.inr ⟨e, lastTaken_of hok h (isPar_pp h.toPInv ht) hu⟩

/-- the new node left of node 3 fills the hole; left of node 2 it pushes the others -/
example : (⟨2, [49, 49], 2, 0, []⟩ : Row) ∈ exDB.rows ∧ IsSibPos .left ∧
    ∃ db' obj, addSibling exCfg exDB ⟨2, [49, 49], 2, 0, []⟩ (some .left) ⟨9, [], 0, 0, []⟩ = .ok (db', obj) ∧
      forest exCfg db' (some 1) = [9, 2, 3] ∧ forest exCfg db' (some 3) = [4] :=
  ⟨by decide, Or.inr (Or.inl rfl), _, _, rfl, by decide, by decide⟩

/-! ### C16 for additions -/

/-- The tree is sorted by `node_order_by`, without null values in the order fields. -/
structure SortedTree (cfg : Cfg) (db : DB) : Prop where
  nonNull : AllNonNull cfg db
  sorted : (forest cfg db).SortedBy cfg.orderBy (valsOf db)

/-- The outcome of a sorted addition below `p`. -/
def SortedAdded (cfg : Cfg) (db : DB) (p : Option Nat) (new : Row) (db' : DB) (obj : Row) : Prop :=
  (∃ s, AddedAt cfg db db' obj new p s) ∧ SortedTree cfg db' ∧
    (forest cfg db').SortedAt cfg.orderBy (valsOf db') p new.pk

theorem sortedAdded_of (hok : cfg.Ok) (h : Inv cfg db.rows) (hs : SortedTree cfg db) {P : List Nat}
    (hP : IsPar db.rows P) {new : Row} (hf : Fresh db new) (hv : NonNull cfg.orderBy new.vals) {s : Slot} {db' : DB} {obj : Row}
    (hslot : SortedSlot cfg db.rows P (fun _ => True) new.vals s)
    (ha : Added cfg db db' obj new (at? db.rows P) s) : SortedAdded cfg db (at? db.rows P) new db' obj := by
  have hfo := forest_eq h hok
  have hfo' := forest_eq ha.inv hok
  obtain ⟨hv1, hv2⟩ := valsOf_append ha.data hf.1
  have hins := sortedIns_of_slot h.toPInv hok (K := fun _ => True) hP hslot new.pk
  simp only [decide_true, List.filter_true] at hins
  have hs' := hs.sorted
  rw [hfo] at hs'
  have hmem : ∀ q, ∀ a ∈ PF cfg db.rows q, valsOf db' a = valsOf db a := by
    intro q a ha'
    obtain ⟨r, hr, _, rfl⟩ := (mem_PF h.toPInv).1 ha'
    exact hv2 r hr
  obtain ⟨k1, k2⟩ := SortedBy.put hs' hins hmem hv1
  refine ⟨⟨s, AddedAt.of hok h ha⟩, ⟨?_, ?_⟩, ?_⟩
  · rw [allNonNull_data, ha.data]
    intro e he
    rcases List.mem_append.1 he with he | he
    · exact (allNonNull_data db).1 hs.nonNull e he
    · simp only [List.mem_singleton] at he; subst he; exact hv
  · rw [hfo', ha.forest]; exact k1
  · rw [hfo', ha.forest]; exact k2

/-- **C16, `add_root` with `node_order_by`.** -/
theorem C16_add_root (hok : cfg.Ok) (h : Consistent cfg db) (ho : cfg.ordered = true) (hs : SortedTree cfg db)
    {new : Row} (hf : Fresh db new) (hv : NonNull cfg.orderBy new.vals) :
    (∃ db' obj, addRoot cfg db new = .ok (db', obj) ∧ SortedAdded cfg db none new db' obj) ∨
    (addRoot cfg db new = .error .pathOverflow ∧ LastTaken cfg db none) := by
  have h := (consistent_iff hok).1 h
  have hsib := sortedSibs_all h.toPInv hok hs.nonNull (by rw [← forest_eq h hok]; exact hs.sorted) (P := []) (Or.inl rfl)
  have hnil := at?_nil h.toPInv hok
  rcases addRoot_sorted hok h ho hf.1 hf.2 hv hsib with ⟨db', obj, s, e, hslot, ha⟩ | ⟨e, hu⟩
  · have := sortedAdded_of hok h hs (Or.inl rfl) hf hv hslot (by rw [hnil]; exact ha)
    rw [hnil] at this
    exact Or.inl ⟨db', obj, e, this⟩
  · refine Or.inr ⟨e, ?_⟩
    have := lastTaken_of hok h (Or.inl rfl) hu
    rwa [hnil] at this

/-- **C16, `add_child` with `node_order_by`.** -/
theorem C16_add_child (hok : cfg.Ok) (h : Consistent cfg db) (ho : cfg.ordered = true) (hs : SortedTree cfg db)
    {t target : Row} (ht : t ∈ db.rows) (hk : target.pk = t.pk)
    {new : Row} (hf : Fresh db new) (hv : NonNull cfg.orderBy new.vals) :
    (∃ db' obj target', addChild cfg db target new = .ok (db', obj, target') ∧
      SortedAdded cfg db (some t.pk) new db' obj) ∨
    (addChild cfg db target new = .error .pathOverflow ∧
      (LastTaken cfg db (some t.pk) ∨ (forest cfg db (some t.pk) = [] ∧ cfg.maxLen < t.path.length + cfg.steplen))) := by
  have h := (consistent_iff hok).1 h
  have hP : IsPar db.rows t.path := Or.inr ⟨t, ht, rfl⟩
  have hsib := sortedSibs_all h.toPInv hok hs.nonNull (by rw [← forest_eq h hok]; exact hs.sorted) hP
  have hat := at?_row h.toPInv ht
  rcases addChild_sorted hok h ht hk ho hf.1 hf.2 hv hsib with ⟨db', obj, t', s, e, hslot, ha⟩ | ⟨e, hu⟩
  · have := sortedAdded_of hok h hs hP hf hv hslot (by rw [hat]; exact ha)
    rw [hat] at this
    exact Or.inl ⟨db', obj, t', e, this⟩
  · refine Or.inr ⟨e, ?_⟩
    rcases hu with hu | ⟨hl, hu⟩
    · left
      have := lastTaken_of hok h hP hu
      rwa [hat] at this
    · right
      refine ⟨?_, hu⟩
      rw [forest_eq h hok]
      exact (isLeaf_iff h ht).1 hl

/-- **C16, `add_sibling` with `node_order_by`** (position `sorted-sibling` or `None`). -/
theorem C16_add_sibling (hok : cfg.Ok) (h : Consistent cfg db) (ho : cfg.ordered = true) (hs : SortedTree cfg db)
    {t : Row} (ht : t ∈ db.rows) {posArg : Option Pos} (harg : posArg = none ∨ posArg = some .sortedSibling)
    {new : Row} (hf : Fresh db new) (hv : NonNull cfg.orderBy new.vals) :
    ∃ p, t.pk ∈ forest cfg db p ∧
    ((∃ db' obj, addSibling cfg db t posArg new = .ok (db', obj) ∧ SortedAdded cfg db p new db' obj) ∨
     (addSibling cfg db t posArg new = .error .pathOverflow ∧ LastTaken cfg db p)) := by
  have h := (consistent_iff hok).1 h
  have hP := isPar_pp h.toPInv ht
  have hsib := sortedSibs_all h.toPInv hok hs.nonNull (by rw [← forest_eq h hok]; exact hs.sorted) hP
  have hprep : preparePosForAddSibling cfg.ordered posArg = .ok .sortedSibling := by
    rw [ho]; rcases harg with rfl | rfl <;> decide
  refine ⟨par cfg db.rows t, mem_forest_par hok h ht, ?_⟩
  rcases addSibling_sorted hok h ht ho hprep hf.1 hf.2 hv hsib with ⟨db', obj, s, e, hslot, ha⟩ | ⟨e, hu⟩
  · exact Or.inl ⟨db', obj, e, sortedAdded_of hok h hs hP hf hv hslot ha⟩
  · exact Or.inr ⟨e, lastTaken_of hok h hP hu⟩

/-- a new root with the values of node 2 comes right after it, and pushes node 3 -/
example : Consistent exCfgS exDBS ∧ SortedTree exCfgS exDBS ∧ NonNull exCfgS.orderBy [some 1, some 2] ∧
    (∃ db' obj, addRoot exCfgS exDBS ⟨9, [], 0, 0, [some 1, some 2]⟩ = .ok (db', obj) ∧ forest exCfgS db' none = [1, 2, 9, 3]) ∧
    (∃ db' obj t', addChild exCfgS exDBS ⟨2, [50], 1, 2, [some 1, some 2]⟩ ⟨9, [], 0, 0, [some 1, some 2]⟩ = .ok (db', obj, t') ∧
      forest exCfgS db' (some 2) = [4, 9, 5]) ∧
    (∃ db' obj, addSibling exCfgS exDBS ⟨4, [50, 49], 2, 0, [some 0, some 0]⟩ none ⟨9, [], 0, 0, [some 0, some 7]⟩ = .ok (db', obj) ∧
      forest exCfgS db' (some 2) = [9, 4, 5]) := by
  refine ⟨exDBS_consistent, ⟨exDBS_sorted.1, exDBS_sorted.2⟩, ?_, ⟨_, _, rfl, by decide⟩, ⟨_, _, _, rfl, by decide⟩, ⟨_, _, rfl, by decide⟩⟩
  intro e he
  simp only [exCfgS, List.mem_cons, List.not_mem_nil, or_false] at he
  rcases he with rfl | rfl <;> exact ⟨_, rfl⟩

/-! ### C27 and C47 for MP -/

theorem ins_length {s : Slot} {x : Nat} {l : List Nat} (hn : x ∉ l) (h : x ∈ s.ins x l) :
    (s.ins x l).length = l.length + 1 := by
  have h1 : ∀ (t : Nat) (l : List Nat), x ∉ l → x ∈ insertBefore t x l → (insertBefore t x l).length = l.length + 1 := by
    intro t l
    induction l with
    | nil => intro _ h; simp [insertBefore] at h
    | cons y l ih =>
      intro hn h
      simp only [List.mem_cons, not_or] at hn
      unfold insertBefore at h ⊢
      split
      · simp
      · rename_i hy
        rw [if_neg hy] at h
        rcases List.mem_cons.1 h with h | h
        · exact absurd h hn.1
        · simp [ih hn.2 h]
  have h2 : ∀ (t : Nat) (l : List Nat), x ∉ l → x ∈ insertAfter t x l → (insertAfter t x l).length = l.length + 1 := by
    intro t l
    induction l with
    | nil => intro _ h; simp [insertAfter] at h
    | cons y l ih =>
      intro hn h
      simp only [List.mem_cons, not_or] at hn
      unfold insertAfter at h ⊢
      split
      · simp
      · rename_i hy
        rw [if_neg hy] at h
        rcases List.mem_cons.1 h with h | h
        · exact absurd h hn.1
        · simp [ih hn.2 h]
  cases s with
  | first => simp [Slot.ins]
  | last => simp [Slot.ins]
  | before t => exact h1 t l hn h
  | after t => exact h2 t l hn h

theorem stored_parent (h' : Inv cfg db'.rows) (h : Inv cfg db.rows) {obj new t : Row} {s : Slot} (ht : t ∈ db.rows)
    (hf : ∀ r ∈ db.rows, r.pk ≠ new.pk) (ha : Added cfg db db' obj new (some t.pk) s) : ({ t with numchild := t.numchild + 1 } : Row) ∈ db'.rows := by
  obtain ⟨t', h1, h2, h3⟩ := ha.parent t ht rfl
  have hd : t'.depth = t.depth := by
    have e1 := h'.depth t' h1
    have e2 := h.depth t ht
    rw [h3, e2] at e1
    have hpos : 0 < cfg.steplen := by
      have e3 := (h.inv.len t ht)
      rcases Nat.eq_zero_or_pos cfg.steplen with h0 | h0
      · exact absurd (show t.path = [] from by
          have := e2; rw [h0] at this; simpa using this) (by
          intro e; obtain ⟨n, hn, hc, _⟩ := h.pos t ht
          unfold Cfg.cap at hc; rw [h0] at hc; simp at hc; omega)
      · exact h0
    exact (Nat.eq_of_mul_eq_mul_right hpos e1).symm
  have hn : t'.numchild = t.numchild + 1 := by
    rw [h'.num t' h1, h.num t ht, h2, ha.forest]
    unfold Forest.put
    rw [if_pos rfl]
    have : (s.ins new.pk (PF cfg db.rows (some t.pk))).length = (PF cfg db.rows (some t.pk)).length + 1 := by
      have hno : ∀ q, new.pk ∉ PF cfg db.rows q := by
        intro q hq
        obtain ⟨r, hr, _, e⟩ := (mem_PF h.toPInv).1 hq
        exact hf r hr e
      refine ins_length (hno _) ?_
      have hobj : new.pk ∈ PF cfg db'.rows (par cfg db'.rows obj) := (mem_PF h'.toPInv).2 ⟨obj, ha.mem, rfl, ha.pk⟩
      rw [ha.forest] at hobj
      unfold Forest.put at hobj
      split at hobj
      · rename_i e; rw [e] at hobj; exact hobj
      · exact absurd hobj (hno _)
    rw [this]; simp
  have hv : t'.vals = t.vals := by
    have : (t.pk, t.vals) ∈ data db'.rows := by
      rw [ha.data]; exact List.mem_append_left _ (List.mem_map.2 ⟨t, ht, rfl⟩)
    obtain ⟨q, hq, e⟩ := List.mem_map.1 this
    have := h'.inv.pk_inj hq h1 (by rw [h2]; exact congrArg Prod.fst e)
    subst this
    exact congrArg Prod.snd e
  have : t' = { t with numchild := t.numchild + 1 } := by
    cases t'; cases t; simp_all
  rw [← this]; exact h1

/-- **C27 for MP.** After `add_child` on an up-to-date target the in-memory target equals its stored row, with and without
`node_order_by`; so it can be used again, any number of times. -/
theorem C27_mp_target (hok : cfg.Ok) (h : Consistent cfg db) (hs : cfg.ordered = true → SortedTree cfg db) {t : Row} (ht : t ∈ db.rows)
    {new : Row} (hf : Fresh db new) (hv : cfg.ordered = true → NonNull cfg.orderBy new.vals) {db' : DB} {obj t' : Row}
    (e : addChild cfg db t new = .ok (db', obj, t')) : t' ∈ db'.rows ∧ t'.pk = t.pk := by
  have h := (consistent_iff hok).1 h
  cases ho : cfg.ordered with
  | false =>
    rcases addChild_last hok h ht rfl (Or.inl ho) hf.1 hf.2 with ⟨db2, obj2, e2, ha⟩ | ⟨e2, _⟩
    · rw [e2] at e
      injection e with e; injection e with e1 e; injection e with e3 e4
      subst e1 e4
      exact ⟨stored_parent ha.inv h ht hf.1 ha, rfl⟩
    · rw [e2] at e; simp at e
  | true =>
    have hs := hs ho
    have hsib := sortedSibs_all h.toPInv hok hs.nonNull (by rw [← forest_eq h hok]; exact hs.sorted)
      (P := t.path) (Or.inr ⟨t, ht, rfl⟩)
    rcases addChild_sorted hok h ht rfl ho hf.1 hf.2 (hv ho) hsib with ⟨db2, obj2, t2, s, e2, _, ha⟩ | ⟨e2, _⟩
    · have ht2 : t2 = { t with numchild := t.numchild + 1 } := by
        have e3 := e2
        unfold addChild at e3
        rw [(get?_eq_some h.inv).2 ⟨ht, rfl⟩] at e3
        simp only at e3
        split at e3
        · revert e3
          cases lastChild cfg db t with
          | none => simp
          | some last =>
            simp only
            cases addSibling cfg db last (some .sortedSibling) new with
            | error e => simp
            | ok r =>
              intro e3
              simp only [Except.ok.injEq, Prod.mk.injEq] at e3
              exact e3.2.2.symm
        · revert e3
          cases newChildPath cfg db t with
          | error e => simp
          | ok p =>
            simp only
            cases save (incNumchildPk db t.pk) { new with path := p, depth := t.depth + 1 } with
            | error e => simp
            | ok r =>
              intro e3
              simp only [Except.ok.injEq, Prod.mk.injEq] at e3
              exact e3.2.2.symm
      rw [e2] at e
      injection e with e; injection e with e1 e; injection e with e3 e4
      subst e1 e4 ht2
      exact ⟨stored_parent ha.inv h ht hf.1 ha, rfl⟩
    · rw [e2] at e; simp at e

/-- **C47.** `add_child` reads everything from the stored row: two in-memory copies with the same key give the same
table and the same new object (on any table, consistent or not, sorted or not). -/
theorem C47_stale_target (cfg : Cfg) (db : DB) (t₁ t₂ new : Row) (hk : t₁.pk = t₂.pk) :
    (addChild cfg db t₁ new).map (fun r => (r.1, r.2.1)) = (addChild cfg db t₂ new).map (fun r => (r.1, r.2.1)) := by
  unfold addChild
  rw [hk]
  cases db.get? t₂.pk with
  | none => rfl
  | some node =>
    simp only
    split
    · cases lastChild cfg db node with
      | none => rfl
      | some last =>
        simp only
        cases addSibling cfg db last (some .sortedSibling) new with
        | error e => rfl
        | ok r => rfl
    · cases newChildPath cfg db node with
      | error e => rfl
      | ok p =>
        simp only
        cases save (incNumchildPk db node.pk) { new with path := p, depth := node.depth + 1 } with
        | error e => rfl
        | ok r => rfl

end Verif
