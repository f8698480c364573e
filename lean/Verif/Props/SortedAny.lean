/-
C48: sorted additions whatever the stored values.
-/
import Verif.MP.SortedAny
import Verif.Props.MPAdd
import Verif.Props.NSTree
import Verif.Props.LTTree
import Verif.Props.ALTree

namespace Verif

/-- **C39 with null values.** `get_sorted_pos_queryset` keeps, in their order, exactly the siblings that come after the new object,
where the fields in which it is null do not count. -/
theorem C39_nulls {ρ : Type} (ob : List (Nat × Bool)) (valsOf : ρ → Vals) (sibs : List ρ) (new : Vals) :
    (sortedPosQueryset ob valsOf sibs new).Sublist sibs ∧
    ∀ r, r ∈ sortedPosQueryset ob valsOf sibs new ↔ r ∈ sibs ∧ Behind ob new (valsOf r) :=
  ⟨sortedPos_sublist ob valsOf sibs new, mem_behind⟩

example : sortedPosQueryset [(0, false), (1, true)] id [[some 1, some 5], [none, some 2], [some 7, none], [some 7, some 4]]
    [none, some 3] = [[none, some 2]] := by decide

/-! ### MP -/

namespace MP

variable {cfg : Cfg} {db : DB}

/-- What a sorted addition below `p` gives: the new node immediately before the first sibling that comes after it and nothing else
changed; or an error, PathOverflow only if there is no room, IntegrityError only if the siblings are out of order. -/
def AnyOutcome (cfg : Cfg) (db : DB) (new : Row) (p : Option Nat) (out : Except Err (DB × Row)) : Prop :=
  (∃ db' obj s, out = .ok (db', obj) ∧ AddedAt cfg db db' obj new p s ∧ FirstBehind cfg.orderBy (valsOf db) new.vals (forest cfg db p) s) ∨
  (out = .error .pathOverflow ∧ LastTaken cfg db p) ∨
  (out = .error .integrity ∧ OutOfOrder cfg.orderBy (valsOf db) new.vals (forest cfg db p))

theorem AddedAny.outcome (hok : cfg.Ok) (h : Inv cfg db.rows) {new : Row} {P : List Nat} (hP : IsPar db.rows P) {l : List Row}
    (hl : ∀ r ∈ l, r ∈ db.rows) (hm : l.map Row.pk = forest cfg db (at? db.rows P)) {out : Except Err (DB × Row)}
    (ha : AddedAny cfg db new (at? db.rows P) P l out) : AnyOutcome cfg db new (at? db.rows P) out := by
  have hv : ∀ r ∈ l, valsOf db r.pk = r.vals := fun r hr => valsOf_row h.inv (hl r hr)
  rcases ha with ⟨db', obj, s, e, ha, hs⟩ | ⟨e, hu⟩ | ⟨e, l₁, a, b, l₂, rfl, h1, h2⟩
  · refine Or.inl ⟨db', obj, s, e, .of hok h ha, ?_⟩
    rw [← hm]
    exact hs.firstBehind hv
  · exact Or.inr (Or.inl ⟨e, lastTaken_of hok h hP hu⟩)
  · refine Or.inr (Or.inr ⟨e, l₁.map Row.pk, a.pk, b.pk, l₂.map Row.pk, by rw [← hm]; simp, ?_, ?_⟩)
    · rw [hv a (by simp)]; exact h1
    · rw [hv b (by simp)]; exact h2

/-- **C48 for MP, `add_root`** (partial: IntegrityError if the siblings are out of order, see `C48_mp_edited` and `C48_mp_null`). -/
theorem C48_mp_add_root_partial (hok : cfg.Ok) (h : Consistent cfg db) (ho : cfg.ordered = true) {new : Row} (hf : Fresh db new) :
    AnyOutcome cfg db new none (addRoot cfg db new) := by
  have h := (consistent_iff hok).1 h
  have hnil := at?_nil h.toPInv hok
  have := addRoot_any hok h ho hf.1 hf.2
  rw [← hnil] at this ⊢
  exact this.outcome hok h (Or.inl rfl) (fun r hr => ((mem_rootNodes h.toPInv hok).1 hr).1) (by rw [hnil]; rfl)

/-- **C48 for MP, `add_child`** (partial likewise). -/
theorem C48_mp_add_child_partial (hok : cfg.Ok) (h : Consistent cfg db) (ho : cfg.ordered = true) {t target : Row} (ht : t ∈ db.rows)
    (hk : target.pk = t.pk) {new : Row} (hf : Fresh db new) :
    AnyOutcome cfg db new (some t.pk) ((addChild cfg db target new).map (fun x => (x.1, x.2.1))) ∨
    (addChild cfg db target new = .error .pathOverflow ∧ forest cfg db (some t.pk) = [] ∧ cfg.maxLen < t.path.length + cfg.steplen) := by
  have h := (consistent_iff hok).1 h
  have hat := at?_row h.toPInv ht
  rcases addChild_any hok h ht hk ho hf.1 hf.2 with ha | ⟨e, hl, hu⟩
  · left
    rw [← hat] at ha ⊢
    refine ha.outcome hok h (Or.inr ⟨t, ht, rfl⟩) (fun r hr => ((mem_children h hok ht).1 hr).1) ?_
    rw [hat]
    simp only [forest, (get?_eq_some h.inv).2 ⟨ht, rfl⟩]
  · refine Or.inr ⟨e, ?_, hu⟩
    rw [forest_eq h hok]
    exact (isLeaf_iff h ht).1 hl

/-- **C48 for MP, `add_sibling`** (partial likewise). -/
theorem C48_mp_add_sibling_partial (hok : cfg.Ok) (h : Consistent cfg db) (ho : cfg.ordered = true) {t : Row} (ht : t ∈ db.rows)
    {posArg : Option Pos} (harg : posArg = none ∨ posArg = some .sortedSibling) {new : Row} (hf : Fresh db new) :
    ∃ p, t.pk ∈ forest cfg db p ∧ AnyOutcome cfg db new p (addSibling cfg db t posArg new) := by
  have h := (consistent_iff hok).1 h
  have hP := isPar_pp h.toPInv ht
  refine ⟨par cfg db.rows t, mem_forest_par hok h ht, ?_⟩
  have := addSibling_any hok h ht (posArg := posArg) (by rw [ho]; rcases harg with rfl | rfl <;> decide) hf.1 hf.2
  have hpar : par cfg db.rows t = at? db.rows (pp cfg.steplen t.path) := (par_eq_at h.toPInv hok ht hP).2 rfl
  rw [hpar] at this ⊢
  refine this.outcome hok h hP (fun r hr => ((mem_siblings h.toPInv hok ht).1 hr).1) ?_
  rw [siblings_PF h.toPInv hok ht, forest_eq h hok, hpar]

/-- sorted by one field -/
def exAny : Cfg := ⟨List.range' 48 10, 1, [(0, false)], 10⟩

/-- **C48 is false for MP.** The first of two roots was edited, its value is 5 now; a new root with the value 3 cannot be added. -/
theorem C48_mp_edited : ∃ db new, exAny.Ok ∧ Consistent exAny db ∧ Fresh db new ∧ NonNull exAny.orderBy new.vals ∧ AllNonNull exAny db ∧
    ¬ LastTaken exAny db none ∧ addRoot exAny db new = .error .integrity := by
  refine ⟨{ rows := [⟨1, [49], 1, 0, [some 5]⟩, ⟨2, [50], 1, 0, [some 1]⟩] }, ⟨3, [], 0, 0, [some 3]⟩, ⟨by decide, by decide, by decide⟩,
    ⟨by decide, by decide, by intro p; cases p <;> decide, by decide, by decide⟩, by unfold Fresh; decide, ?_, ?_, ?_, rfl⟩
  · intro e he
    simp only [exAny, List.mem_cons, List.not_mem_nil, or_false] at he
    subst he; exact ⟨_, rfl⟩
  · intro r hr e he
    simp only [List.mem_cons, List.not_mem_nil, or_false] at hr
    simp only [exAny, List.mem_cons, List.not_mem_nil, or_false] at he
    rcases hr with rfl | rfl <;> subst he <;> exact ⟨_, rfl⟩
  · unfold LastTaken; decide

/-- **C48 is false for MP**, even if the API alone made the tree and nothing was edited: a null value among the fields of the new
root, where the two stored ones have none. -/
theorem C48_mp_null : ∃ db db1 db2 new o1 o2, exCfgS.Ok ∧ db = { rows := [] } ∧
    addRoot exCfgS db ⟨1, [], 0, 0, [some 1, some 2]⟩ = .ok (db1, o1) ∧ addRoot exCfgS db1 ⟨2, [], 0, 0, [some 2, some 5]⟩ = .ok (db2, o2) ∧
    Consistent exCfgS db2 ∧ (forest exCfgS db2).SortedBy exCfgS.orderBy (valsOf db2) ∧ Fresh db2 new ∧
    ¬ LastTaken exCfgS db2 none ∧ addRoot exCfgS db2 new = .error .integrity := by
  refine ⟨_, _, ⟨[⟨1, [49], 1, 0, [some 1, some 2]⟩, ⟨2, [50], 1, 0, [some 2, some 5]⟩], []⟩, ⟨3, [], 0, 0, [none, some 3]⟩, _, _, exCfgS_ok, rfl, rfl, rfl,
    ⟨by decide, by decide, by intro p; cases p <;> decide, by decide, by decide⟩, ?_, by unfold Fresh; decide, ?_, rfl⟩
  · refine sortedBy_of_keys [1, 2] ?_ (by decide)
    intro k hk
    simp only [List.mem_cons, List.not_mem_nil, or_false, not_or] at hk
    unfold forest
    have : DB.get? ({ rows := [⟨1, [49], 1, 0, [some 1, some 2]⟩, ⟨2, [50], 1, 0, [some 2, some 5]⟩] } : DB) k = none := by
      rw [get?_eq_none]
      intro r hr
      simp only [List.mem_cons, List.not_mem_nil, or_false] at hr
      rcases hr with rfl | rfl
      · exact fun e => hk.1 e.symm
      · exact fun e => hk.2 e.symm
    simp only [this]
  · unfold LastTaken; decide

end MP

/-! ### NS -/

namespace NS

variable {cfg : Cfg} {db : DB}

/-- the new node stands immediately before the first sibling that comes after it, and nothing else changed -/
def AnyAdded (cfg : Cfg) (db db' : DB) (obj new : Row) (p : Option Nat) : Prop :=
  ∃ s, AddedAt db db' obj new p s ∧ FirstBehind cfg.orderBy (valsIn (data db.rows)) new.vals (forest db p) s

theorem anyAdded_of (h : Consistent db) {new : Row} {db' : DB} {obj : Row} {p : Option Nat} {s : Slot} (ha : Added db db' obj new p s) {l : List Row}
    (hl : ∀ r ∈ l, r ∈ db.rows) (hp : l.map Row.pk = PF db.rows p)
    (hh : (∃ z ∈ l, (sortedPosQueryset cfg.orderBy Row.vals l new.vals).head? = some z ∧ s = .before z.pk) ∨
       ((sortedPosQueryset cfg.orderBy Row.vals l new.vals).head? = none ∧ s = .last)) : AnyAdded cfg db db' obj new p := by
  have hs : HeadSlot cfg.orderBy Row.vals Row.pk l new.vals s := by
    rcases hh with ⟨z, _, h1, h2⟩ | h1
    · exact Or.inl ⟨z, h1, h2⟩
    · exact Or.inr h1
  refine ⟨s, .of h ha, ?_⟩
  rw [forest_eq h.toNI, ← hp]
  exact hs.firstBehind (fun r hr => valsIn_mem (keys_nodup h) (List.mem_map.2 ⟨r, hl r hr, rfl⟩))

/-- **C48 for NS, `add_root`** -/
theorem C48_ns_add_root (h : Consistent db) (ho : cfg.ordered = true) {new : Row} (hf : Fresh db new) :
    ∃ db' obj, addRoot cfg db new = .ok (db', obj) ∧ AnyAdded cfg db db' obj new none := by
  obtain ⟨db', obj, s, e, ha, hc⟩ := addRoot_sorted h ho hf
  exact ⟨db', obj, e, anyAdded_of h ha (fun r hr => (mem_rootNodes.1 hr).1) (rootNodes_PF h.toNI) hc⟩

/-- **C48 for NS, `add_child`** -/
theorem C48_ns_add_child (h : Consistent db) (ho : cfg.ordered = true) {t target : Row} (ht : t ∈ db.rows)
    (hk : target.pk = t.pk) {new : Row} (hf : Fresh db new) :
    ∃ db' obj target', addChild cfg db target new = .ok (db', obj, target') ∧ AnyAdded cfg db db' obj new (some t.pk) := by
  obtain ⟨db', obj, t', s, e, ha, hc⟩ := addChild_sorted h ho ht hk hf
  exact ⟨db', obj, t', e, anyAdded_of h ha (fun r hr => ((mem_children h.toNI ht).1 hr).1) (children_PF h.toNI ht) hc⟩

/-- **C48 for NS, `add_sibling`** -/
theorem C48_ns_add_sibling (h : Consistent db) (ho : cfg.ordered = true) {t : Row} (ht : t ∈ db.rows)
    {cached : Option Row} {posArg : Option Pos} (hpos : posArg = none ∨ posArg = some .sortedSibling) {new : Row} (hf : Fresh db new) :
    ∃ p, t.pk ∈ forest db p ∧ ∃ db' obj, addSibling cfg db t cached posArg new = .ok (db', obj) ∧ AnyAdded cfg db db' obj new p := by
  obtain ⟨l, db', obj, s, hl, e, ha, hc⟩ := addSibling_sorted h ho ht (cached := cached) (posArg := posArg)
    (by rcases hpos with rfl | rfl <;> decide) hf
  obtain ⟨l', hl', _, hm, hp⟩ := siblings_spec h.toNI ht
  rw [hl] at hl'
  cases hl'
  exact ⟨_, (mem_forest h ht).2 rfl, db', obj, e, anyAdded_of h ha (fun r hr => ((hm r).1 hr).1) hp hc⟩

/-- the case where MP fails -/
example : let db : DB := { rows := [⟨1, 1, 1, 2, 1, [some 5]⟩, ⟨2, 2, 1, 2, 1, [some 1]⟩] }
    ((addRoot exSorted db ⟨3, 0, 0, 0, 0, [some 3]⟩).toOption.map (fun x => forest x.1 none)) = some [3, 1, 2] := by decide

end NS

/-! ### AL -/

namespace AL

variable {cfg : Cfg} {db : DB}

/-- **C48 for AL**: the order of siblings is not stored, so the new row is added below the right parent and no other row changes. -/
theorem C48_al_add_root (ho : cfg.ordered = true) (h : Wf cfg db) {new : Row} (hf : Fresh db new) (hn : new.parent = none) :
    ∃ db' obj, addRoot cfg db new = .ok (db', obj) ∧ Wf cfg db' ∧ db'.rows = db.rows ++ [obj] ∧ obj.pk = new.pk ∧ obj.vals = new.vals ∧ obj.parent = none := by
  obtain ⟨db', obj, e, ha⟩ := C16_al_add_root_partial ho h hf hn
  exact ⟨db', obj, e, ha.wf, ha.rows, ha.obj⟩

theorem C48_al_add_child (ho : cfg.ordered = true) (h : Wf cfg db) {t target : Row} (ht : t ∈ db.rows) (hk : target.pk = t.pk)
    {cached : Option Int} {new : Row} (hf : Fresh db new) :
    ∃ db' obj c, addChild cfg db target cached new = .ok (db', obj, c) ∧ Wf cfg db' ∧ db'.rows = db.rows ++ [obj] ∧ obj.pk = new.pk ∧
      obj.vals = new.vals ∧ obj.parent = some t.pk := by
  obtain ⟨db', obj, c, e, ha⟩ := C16_al_add_child_partial ho h ht hk (cached := cached) hf
  exact ⟨db', obj, c, e, ha.wf, ha.rows, ha.obj⟩

theorem C48_al_add_sibling (ho : cfg.ordered = true) (h : Wf cfg db) {t : Row} (ht : t ∈ db.rows) {posArg : Option Pos}
    (hpos : posArg = none ∨ posArg = some .sortedSibling) {new : Row} (hf : Fresh db new) :
    ∃ p, t.pk ∈ forest cfg db p ∧ ∃ db' obj, addSibling cfg db t posArg new = .ok (db', obj) ∧ Wf cfg db' ∧ db'.rows = db.rows ++ [obj] ∧
      obj.pk = new.pk ∧ obj.vals = new.vals ∧ obj.parent = p := by
  obtain ⟨p, hp, db', obj, e, ha⟩ := C16_al_add_sibling_partial ho h ht (posArg := posArg) (pos := .sortedSibling)
    (by rcases hpos with rfl | rfl <;> decide) hf
  exact ⟨p, hp, db', obj, e, ha.wf, ha.rows, ha.obj⟩

end AL

/-! ### LT -/

namespace LT

variable {cfg : Cfg} {db : DB}

/-- What a sorted addition below `p` gives: if some sibling comes after the new node, the new node immediately before the first such
one, the others perhaps in another order (not if the labels are tidy); if none does, the new node at some place (at the end if its label
is the last one), or ValueError if all the labels it tries are in use. -/
def AnyOutcome (cfg : Cfg) (db : DB) (new : Row) (p : Option Nat) (out : Except Err (DB × Row)) : Prop :=
  (∃ s db' obj, s ≠ .last ∧ FirstBehind cfg.orderBy (valsIn (data db.rows)) new.vals (forest db p) s ∧ out = .ok (db', obj) ∧
    AddedNear db db' obj new p s ∧ (TidyLabels db p → AddedAt db db' obj new p s)) ∨
  ((∀ a ∈ forest db p, ¬ Behind cfg.orderBy new.vals (valsIn (data db.rows) a)) ∧
    ((∃ db' obj s, out = .ok (db', obj) ∧ AddedAt db db' obj new p s ∧
      ((∀ r ∈ db.rows, r.pk ∈ forest db p → r.path < obj.path) → s = .last)) ∨
     (out = .error .valueError ∧ Full db p)))

theorem anyOutcome_of (h : Consistent db) {new : Row} {pre : Path} {S : List Row} (hS : Lists db.rows pre S) (hpar : IsPar db.rows pre)
    {out : Except Err (DB × Row)} (ha : SortedAddition cfg db S pre new (at? db.rows pre) out) :
    AnyOutcome cfg db new (at? db.rows pre) out := by
  have hi := h.inv
  have hm := lists_PF hi.inv hS hpar
  have hv : ∀ r ∈ S, valsIn (data db.rows) r.pk = r.vals := fun r hr =>
    valsIn_mem (by rw [keys_eq]; exact h.pks) (List.mem_map.2 ⟨r, ((hS.mem r).1 hr).1, rfl⟩)
  have key : ∀ {s}, HeadSlot cfg.orderBy Row.vals Row.pk S new.vals s →
      FirstBehind cfg.orderBy (valsIn (data db.rows)) new.vals (forest db (at? db.rows pre)) s := by
    intro s hs
    rw [← hm]
    exact hs.firstBehind hv
  have hnone : firstGreater cfg S new = none →
      ∀ a ∈ forest db (at? db.rows pre), ¬ Behind cfg.orderBy new.vals (valsIn (data db.rows) a) := by
    intro hb
    rcases key (Or.inr ⟨hb, rfl⟩) with ⟨_, _, _, _, _, _, e⟩ | h1
    · cases e
    · exact h1.1
  rcases ha with ⟨b, hb, db', obj, e, ha⟩ | ⟨hb, ⟨db', l, s, e, ha, hl⟩ | ⟨e, hu⟩⟩
  · exact Or.inl ⟨.before b.pk, db', obj, by simp, key (Or.inl ⟨b, hb, rfl⟩), e, .of hi ha,
      fun ht => .of hi ha (keepsOrder_of hi.inv hpar ht)⟩
  · refine Or.inr ⟨hnone hb, Or.inl ⟨db', _, s, e, .of hi ha trivial, ?_⟩⟩
    intro hlt
    refine hl ?_
    intro r hr hd
    have h1 := hlt r hr ((mem_forest hi.inv hr).2 ((par_iff hi.inv hpar hr).2 hd))
    rw [path_split hi.inv hr] at h1
    exact (label_lt hd).1 h1
  · exact Or.inr ⟨hnone hb, Or.inr ⟨e, full_of hi.inv hpar hu⟩⟩

/-- **C48 for LT, `add_root`** (partial: the order of the siblings, see C16_lt_fails and the C36 failures). -/
theorem C48_lt_add_root_partial (ho : cfg.ordered = true) (h : Consistent db) {new : Row} (hf : Fresh db new) :
    AnyOutcome cfg db new none (addRoot cfg db new) := by
  have := anyOutcome_of h (lists_roots h.inv.inv) (Or.inl rfl) (out := addRoot cfg db new)
    (by rw [at_nil h.inv.inv]; exact addRoot_sorted ho h.inv hf)
  rwa [at_nil h.inv.inv] at this

/-- **C48 for LT, `add_child`** (partial likewise). -/
theorem C48_lt_add_child_partial (ho : cfg.ordered = true) (h : Consistent db) {t : Row} (ht : t ∈ db.rows)
    {new : Row} (hf : Fresh db new) : AnyOutcome cfg db new (some t.pk) (addChild cfg db t new) := by
  have := anyOutcome_of h (lists_children h.inv.inv t) (Or.inr ⟨t, ht, rfl⟩) (out := addChild cfg db t new)
    (by rw [at_of h.inv.inv ht]; exact addChild_sorted ho h.inv ht hf)
  rwa [at_of h.inv.inv ht] at this

/-- **C48 for LT, `add_sibling`** (partial likewise). -/
theorem C48_lt_add_sibling_partial (ho : cfg.ordered = true) (h : Consistent db) {t : Row} (ht : t ∈ db.rows)
    {posArg : Option Pos} (hpos : posArg = none ∨ posArg = some .sortedSibling) {new : Row} (hf : Fresh db new) :
    ∃ p, t.pk ∈ forest db p ∧ AnyOutcome cfg db new p (addSibling cfg db t posArg new) := by
  have hpar := IsPar.drop h.inv.inv ht
  have hpt := (par_iff h.inv.inv hpar ht).2 rfl
  refine ⟨_, (mem_forest h.inv.inv ht).2 rfl, ?_⟩
  rw [hpt]
  refine anyOutcome_of h (lists_siblings h.inv.inv ht) hpar ?_
  rw [← hpt]
  exact addSiblingIn_sorted ho h.inv ht (by rcases hpos with rfl | rfl <;> decide) hf

/-- the case where MP fails, and a null value -/
example : let db : DB := { rows := [⟨1, [[66]], [some 5]⟩, ⟨2, [[67]], [some 1]⟩] }
    Consistent db ∧ ((addRoot exSorted db ⟨3, [], [some 3]⟩).toOption.map (fun x => forest x.1 none)) = some [3, 1, 2] ∧
    ((addRoot exSorted db ⟨3, [], [none]⟩).toOption.map (fun x => forest x.1 none)) = some [3, 1, 2] :=
  ⟨consistent_iff.2 (inv_of_check (by decide)), by decide, by decide⟩

end LT

end Verif
