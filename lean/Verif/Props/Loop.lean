/-
C55: the objects that a loop of `add_child` calls returns stay usable.
-/
import Verif.Loop
import Verif.Props.MPAdd
import Verif.Props.NSTree
import Verif.Props.ALTree
import Verif.Props.LTTree
import Verif.MP.Load
import Verif.NS.Stale

namespace Verif

/-- the keys of the new objects are not in use, and no two are equal -/
def NewKeys (pk : ν → Nat) (used : List Nat) (news : List ν) : Prop := (news.map pk).Nodup ∧ ∀ n ∈ news, pk n ∉ used

theorem NewKeys.step {pk : ν → Nat} {used used' : List Nat} {n : ν} {ns : List ν} (h : NewKeys pk used (n :: ns))
    (hu : ∀ k ∈ used', k ∈ used ∨ k = pk n) : NewKeys pk used' ns := by
  obtain ⟨h1, h2⟩ := h
  rw [List.map_cons, List.nodup_cons] at h1
  refine ⟨h1.2, ?_⟩
  intro m hm hmu
  rcases hu _ hmu with h3 | h3
  · exact h2 m (List.mem_cons_of_mem _ hm) h3
  · exact h1.1 (h3 ▸ List.mem_map_of_mem hm)

namespace MP

variable {cfg : Cfg} {db : DB}

theorem addChild_still (ho : cfg.ordered = false) {t new obj t' : Row} {db' : DB} (hf : ∀ r ∈ db.rows, r.pk ≠ new.pk)
    (e : addChild cfg db t new = .ok (db', obj, t')) : t'.pk = t.pk ∧ ∀ c ∈ db.rows, c.pk ≠ t.pk → c ∈ db'.rows := by
  unfold addChild at e
  split at e
  · cases e
  · rename_i node hn
    have hk : node.pk = t.pk := by
      unfold DB.get? at hn
      simpa using List.find?_some hn
    rw [ho] at e
    simp only [Bool.false_eq_true, false_and, if_false] at e
    split at e
    · cases e
    · rename_i p _
      split at e
      · cases e
      · rename_i db1 es
        cases e
        refine ⟨rfl, ?_⟩
        intro c hc hne
        have hc' : c ∈ (incNumchildPk db node.pk).rows := by
          unfold incNumchildPk
          refine List.mem_map.2 ⟨c, hc, ?_⟩
          rw [if_neg]
          rw [hk]
          simpa using hne
        unfold save at es
        simp only at es
        split at es
        · split at es
          · cases es
            refine List.mem_map.2 ⟨c, hc', ?_⟩
            rw [if_neg]
            simpa using hf c hc
          · cases es
        · split at es
          · cases es
            exact List.mem_append_left _ hc'
          · cases es

/-- **C55 for MP**: nodes are added below one node in a loop.  They are its last children, in this order; every object returned is the stored row, and
`add_sibling` next to it puts a further node where asked, if there is a position left. -/
theorem C55_mp (hok : cfg.Ok) (h : Consistent cfg db) (ho : cfg.ordered = false) {t target : Row} (ht : t ∈ db.rows) (hk : target.pk = t.pk)
    {news : List Row} (hn : NewKeys Row.pk (db.rows.map Row.pk) news) (h0 : ∀ n ∈ news, n.numchild = 0) {db' : DB} {objs : List Row} {target' : Row}
    (e : addAll (addChild cfg) db target news = .ok (db', objs, target')) :
    Consistent cfg db' ∧ objs.map Row.pk = news.map Row.pk ∧ forest cfg db' = (forest cfg db).putAll (some t.pk) (news.map Row.pk) ∧
    ∀ c ∈ objs, c ∈ db'.rows ∧ ∀ pos, IsSibPos pos → ∀ new, Fresh db' new →
      (∃ db₂ obj, addSibling cfg db' c (some pos) new = .ok (db₂, obj) ∧ AddedAt cfg db' db₂ obj new (some t.pk) (sibAsked c.pk pos)) ∨
      (addSibling cfg db' c (some pos) new = .error .pathOverflow ∧ LastTaken cfg db' (some t.pk)) := by
  obtain ⟨⟨hc, _⟩, hin, hks, _, hF⟩ := addAll_loop (key := Row.pk) (pk := Row.pk) (p := some t.pk) (forest := forest cfg)
    (Good := fun db tg ns => Consistent cfg db ∧ (∃ r ∈ db.rows, r.pk = t.pk) ∧ tg.pk = t.pk ∧ NewKeys Row.pk (db.rows.map Row.pk) ns ∧
      ∀ n ∈ ns, n.numchild = 0)
    (In := fun db c => c ∈ db.rows ∧ c.pk ≠ t.pk ∧ c.pk ∈ forest cfg db (some t.pk)) (by
      rintro db tg n ns db' obj t' ⟨hc, ⟨r, hr, hrk⟩, htk, hnew, hz⟩ e
      have hfr : Fresh db n := ⟨fun r hr he => hnew.2 n (by simp) (he ▸ List.mem_map_of_mem hr), hz n (by simp)⟩
      rcases C05_add_child hok hc ho hr (htk.trans hrk.symm) hfr with ⟨db₂, obj₂, t₂, e', ha⟩ | ⟨e', _⟩
      · rw [e] at e'
        cases e'
        rw [hrk] at ha
        obtain ⟨hk', hkeep⟩ := addChild_still ho hfr.1 e
        have hpk : db'.rows.map Row.pk = db.rows.map Row.pk ++ [n.pk] := by
          have := congrArg (List.map Prod.fst) ha.data
          simpa [data, Function.comp_def] using this
        have hne : n.pk ≠ t.pk := fun he => hfr.1 r hr (hrk.trans he.symm)
        refine ⟨⟨ha.consistent, ?_, hk'.trans htk, hnew.step (by rw [hpk]; simp), fun m hm => hz m (List.mem_cons_of_mem _ hm)⟩, ?_, ha.obj.2, ?_, ha.forest⟩
        · have : t.pk ∈ db'.rows.map Row.pk := by
            rw [hpk]; exact List.mem_append_left _ (hrk ▸ List.mem_map_of_mem hr)
          obtain ⟨r', hr', e'⟩ := List.mem_map.1 this
          exact ⟨r', hr', e'⟩
        · refine ⟨ha.obj.1, ha.obj.2 ▸ hne, ?_⟩
          rw [ha.forest, ha.obj.2]
          simp [Forest.put, Slot.ins]
        · rintro c ⟨h1, h2, h3⟩
          refine ⟨hkeep c h1 (htk ▸ h2), h2, ?_⟩
          rw [ha.forest]
          simp [Forest.put, Slot.ins, h3]
      · rw [e] at e'; cases e') news db target db' objs target' ⟨h, ⟨t, ht, rfl⟩, hk, hn, h0⟩ e
  refine ⟨hc, hks, hF, ?_⟩
  intro c hcm
  obtain ⟨h1, _, h3⟩ := hin c hcm
  refine ⟨h1, ?_⟩
  intro pos hpos new hf
  obtain ⟨p, hp, hout⟩ := C06_add_sibling hok hc ho h1 hpos (Or.inl rfl) hf
  rw [parent_unique hok hc hp h3] at hout
  exact hout

end MP

namespace NS

variable {cfg : Cfg} {db : DB}

/-- the rows after `add_child` without `node_order_by` -/
theorem addChild_rows (h : NInv db.rows) (ho : cfg.ordered = false) {t target new obj t' : Row} {db' : DB} (ht : t ∈ db.rows) (hk : target.pk = t.pk)
    (hf : ∀ r ∈ db.rows, r.pk ≠ new.pk) (e : addChild cfg db target new = .ok (db', obj, t')) :
    t'.pk = target.pk ∧ db'.rows = db.rows.map (gapRow t.tree t.rgt 2) ++ [obj] := by
  have hg : db.get? target.pk = some t := (get?_eq_some h.toNI).2 ⟨ht, hk.symm⟩
  cases hl : t.isLeaf with
  | true =>
    obtain ⟨_, _, e', _, hr⟩ := addChild_leaf (cfg := cfg) h ht hk hl hf .last (Or.inr rfl)
    rw [e] at e'
    cases e'
    exact ⟨rfl, hr⟩
  | false =>
    obtain ⟨z, hz, hzm, hzp, _⟩ := lastChild_spec h ht hl
    have hzr : z.isRoot = false := by
      have : z.lft ≠ 1 := fun e => by rw [(par_eq_none h.toNI hzm).2 e] at hzp; cases hzp
      simpa [Row.isRoot] using this
    have hzt : z.tree = t.tree := by
      have := ((par_row h.toNI ht hzm).1 hzp).2.1
      unfold encl at this
      exact this.1.symm
    unfold addChild at e
    rw [hg] at e
    simp only [hl, Bool.false_eq_true, if_false, hz, ho] at e
    unfold addSibling at e
    have hp : preparePosForAddSibling cfg.ordered (some .lastSibling) = .ok .lastSibling := by rw [ho]; rfl
    rw [hp] at e
    simp only [resolveSorted, reduceCtorEq, if_false, hzr, Bool.false_eq_true, addInnerSibling, resolvePos, getParent] at e
    simp only [or_self, if_false, hzr, Bool.false_eq_true, if_true] at e
    cases e
    refine ⟨rfl, ?_⟩
    rw [save_fresh, hzt]
    · rfl
    · intro r' hr'
      obtain ⟨r, hr, rfl⟩ := List.mem_map.1 hr'
      have : (gapRow z.tree t.rgt 2 r).pk = r.pk := by unfold gapRow; split <;> rfl
      rw [this]; exact hf r hr

/-- a row below `t` is not changed by `add_child(t)` -/
theorem addChild_still (h : NInv db.rows) (ho : cfg.ordered = false) {t target new obj t' : Row} {db' : DB} (ht : t ∈ db.rows) (hk : target.pk = t.pk)
    (hf : ∀ r ∈ db.rows, r.pk ≠ new.pk) (e : addChild cfg db target new = .ok (db', obj, t')) :
    t'.pk = target.pk ∧ ∀ c ∈ db.rows, c.pk ∈ forest db (some t.pk) → c ∈ db'.rows := by
  obtain ⟨h1, h2⟩ := addChild_rows h ho ht hk hf e
  refine ⟨h1, ?_⟩
  intro c hc hp
  rw [h2]
  refine List.mem_append_left _ (List.mem_map.2 ⟨c, hc, ?_⟩)
  have := ((par_row h.toNI ht hc).1 ((mem_forest h hc).1 hp)).2.1
  unfold encl at this
  unfold gapRow
  rw [if_neg]
  rintro ⟨h3, _⟩
  omega

/-- the cached parent is looked at only for "last-sibling" -/
theorem addSibling_cache {t new : Row} {pos : Pos} (hpos : IsSibPos pos) (hl : pos ≠ .lastSibling) (cached : Option Row) :
    addSibling cfg db t cached (some pos) new = addSibling cfg db t none (some pos) new := by
  unfold addSibling
  split
  · rfl
  · rename_i pos' e
    have : pos' = pos := by
      unfold preparePosForAddSibling preparePosVar at e
      revert e
      rcases hpos with rfl | rfl | rfl | rfl <;> cases cfg.ordered <;> simp [validPosForAddSibling, validPosForSortedAddSibling] <;> exact fun h => h.symm
    subst this
    have hns : pos' ≠ .sortedSibling := by rcases hpos with rfl | rfl | rfl | rfl <;> decide
    simp only [resolveSorted, hns, if_false, addInnerSibling, hl]

/-- **C55 for NS** (partial: except "last-sibling" next to an object with a cached parent, see `C55_ns_corrupts`).  The first child of a leaf is returned with the
caller's `target` as cached parent, the others without. -/
theorem C55_ns_partial (h : Consistent db) (ho : cfg.ordered = false) {t target : Row} (ht : t ∈ db.rows) (hk : target.pk = t.pk)
    {news : List Row} (hn : NewKeys Row.pk (db.rows.map Row.pk) news) {db' : DB} {objs : List Row} {target' : Row}
    (e : addAll (addChild cfg) db target news = .ok (db', objs, target')) :
    Consistent db' ∧ objs.map Row.pk = news.map Row.pk ∧ forest db' = (forest db).putAll (some t.pk) (news.map Row.pk) ∧
    ∀ c ∈ objs, c ∈ db'.rows ∧ ∀ pos, IsSibPos pos → ∀ cached, pos ≠ .lastSibling ∨ cached = none → ∀ new, Fresh db' new →
      ∃ db₂ obj, addSibling cfg db' c cached (some pos) new = .ok (db₂, obj) ∧ AddedAt db' db₂ obj new (some t.pk) (sibAsked c.pk pos) := by
  obtain ⟨⟨hc, _⟩, hin, hks, _, hF⟩ := addAll_loop (key := Row.pk) (pk := Row.pk) (p := some t.pk) (forest := forest)
    (Good := fun db tg ns => Consistent db ∧ (∃ r ∈ db.rows, r.pk = t.pk) ∧ tg.pk = t.pk ∧ NewKeys Row.pk (db.rows.map Row.pk) ns)
    (In := fun db c => c ∈ db.rows ∧ c.pk ∈ forest db (some t.pk)) (by
      rintro db tg n ns db' obj t' ⟨hc, ⟨r, hr, hrk⟩, htk, hnew⟩ e
      have hfr : Fresh db n := fun r hr he => hnew.2 n (by simp) (he ▸ List.mem_map_of_mem hr)
      obtain ⟨db₂, obj₂, t₂, e', ha⟩ := C22_add_child hc ho hr (htk.trans hrk.symm) hfr
      rw [e] at e'
      cases e'
      obtain ⟨hk', hkeep⟩ := addChild_still hc ho hr (htk.trans hrk.symm) hfr e
      rw [hrk] at ha hkeep
      have hpk : db'.rows.map Row.pk = db.rows.map Row.pk ++ [n.pk] := by
        have := congrArg (List.map Prod.fst) ha.data
        simpa [data, Function.comp_def] using this
      refine ⟨⟨ha.consistent, ?_, hk'.trans htk, hnew.step (by rw [hpk]; simp)⟩, ?_, ha.obj.2, ?_, ha.forest⟩
      · have : t.pk ∈ db'.rows.map Row.pk := by
          rw [hpk]; exact List.mem_append_left _ (hrk ▸ List.mem_map_of_mem hr)
        obtain ⟨r', hr', e'⟩ := List.mem_map.1 this
        exact ⟨r', hr', e'⟩
      · refine ⟨ha.obj.1, ?_⟩
        rw [ha.forest, ha.obj.2]
        simp [Forest.put, Slot.ins]
      · rintro c ⟨h1, h3⟩
        refine ⟨hkeep c h1 h3, ?_⟩
        rw [ha.forest]
        simp [Forest.put, Slot.ins, h3]) news db target db' objs target' ⟨h, ⟨t, ht, rfl⟩, hk, hn⟩ e
  refine ⟨hc, hks, hF, ?_⟩
  intro c hcm
  obtain ⟨h1, h3⟩ := hin c hcm
  refine ⟨h1, ?_⟩
  intro pos hpos cached hcache new hf
  have hprep : preparePosForAddSibling false (some pos) = .ok pos := by rcases hpos with rfl | rfl | rfl | rfl <;> rfl
  obtain ⟨p, hp, hout⟩ := C22_add_sibling (cfg := cfg) hc ho h1 (cached := none) (by intro p e; cases e) hprep hf
  rw [parent_unique hc hp h3] at hout
  rcases hcache with hl | rfl
  · rw [addSibling_cache hpos hl]; exact hout
  · exact hout

/-- **C55 is false for NS.**  Two children are added to a leaf; then a third next to the first one, as last sibling.  The object of the first child has the
caller's `target` as `_cached_parent_obj` (ns_tree.py:174), whose `rgt` the second `add_child` has made too large by 2 (ns_tree.py:159).  The third
child is stored outside its parent. -/
theorem C55_ns_corrupts : ∃ (db db' db₂ : DB) (t c₁ c₂ target' obj new : Row), Consistent db ∧ t ∈ db.rows ∧ forest db (some t.pk) = [] ∧
    addAll (addChild ⟨[]⟩) db t [⟨2, 0, 0, 0, 0, []⟩, ⟨3, 0, 0, 0, 0, []⟩] = .ok (db', [c₁, c₂], target') ∧ Consistent db' ∧ c₁ ∈ db'.rows ∧ Fresh db' new ∧
    addSibling ⟨[]⟩ db' c₁ (some target') (some .lastSibling) new = .ok (db₂, obj) ∧ ¬ Consistent db₂ := by
  refine ⟨{ rows := [⟨1, 1, 1, 2, 1, []⟩] }, { rows := [⟨1, 1, 1, 6, 1, []⟩, ⟨2, 1, 2, 3, 2, []⟩, ⟨3, 1, 4, 5, 2, []⟩], sigs := [.gapAltered 1 2 2, .gapAltered 1 4 2] },
    _, ⟨1, 1, 1, 2, 1, []⟩, ⟨2, 1, 2, 3, 2, []⟩, ⟨3, 1, 4, 5, 2, []⟩, ⟨1, 1, 1, 8, 1, []⟩, _, ⟨4, 0, 0, 0, 0, []⟩, ?_, by decide, by decide, rfl, ?_,
    by decide, by unfold Fresh; decide, rfl, ?_⟩
  · refine ⟨by decide, fun r hr => full_of_range 2 ?_ ?_⟩ <;> (revert r; decide)
  · refine ⟨by decide, fun r hr => full_of_range 6 ?_ ?_⟩ <;> (revert r; decide)
  · intro h
    exact absurd h.toNI (by decide)

end NS

namespace AL

variable {cfg : Cfg} {db : DB}

/-- `add_child`, with the caller's `target`, which AL does not change; `cached` is its cached depth -/
def addChildKeep (cfg : Cfg) (cached : Option Int) (db : DB) (target new : Row) : Except Err (DB × Row × Row) :=
  match addChild cfg db target cached new with
  | .error e => .error e
  | .ok (db, obj, _) => .ok (db, obj, target)

theorem addChild_still {t new obj : Row} {db' : DB} {cached c : Option Int} (hf : ∀ r ∈ db.rows, r.pk ≠ new.pk)
    (e : addChild cfg db t cached new = .ok (db', obj, c)) : ∀ r ∈ db.rows, r ∈ db'.rows := by
  intro r hr
  unfold addChild at e
  simp only at e
  split at e
  · cases e
  · rename_i db1 es
    cases e
    have hany : db.rows.any (·.pk == new.pk) = false := by
      rw [List.any_eq_false]
      intro r hr
      simpa using hf r hr
    unfold save at es
    cases ho : cfg.ordered <;> simp only [ho, Bool.false_eq_true, if_false, if_true, hany] at es <;> split at es <;> cases es <;>
      exact List.mem_append_left _ hr

/-- **C55 for AL** -/
theorem C55_al (ho : cfg.ordered = false) (h : Consistent cfg db) {t target : Row} (ht : t ∈ db.rows) (hk : target.pk = t.pk) {cached : Option Int}
    {news : List Row} (hn : NewKeys Row.pk (db.rows.map Row.pk) news) {db' : DB} {objs : List Row} {target' : Row}
    (e : addAll (addChildKeep cfg cached) db target news = .ok (db', objs, target')) :
    Consistent cfg db' ∧ objs.map Row.pk = news.map Row.pk ∧ forest cfg db' = (forest cfg db).putAll (some t.pk) (news.map Row.pk) ∧
    ∀ c ∈ objs, c ∈ db'.rows ∧ ∀ pos, IsSibPos pos → ∀ new, Fresh db' new →
      ∃ db₂ obj, addSibling cfg db' c (some pos) new = .ok (db₂, obj) ∧ AddedAt cfg db' db₂ obj new (some t.pk) (sibAsked c.pk pos) := by
  obtain ⟨⟨hc, _⟩, hin, hks, _, hF⟩ := addAll_loop (key := Row.pk) (pk := Row.pk) (p := some t.pk) (forest := forest cfg)
    (Good := fun db tg ns => Consistent cfg db ∧ (∃ r ∈ db.rows, r.pk = t.pk) ∧ tg.pk = t.pk ∧ NewKeys Row.pk (db.rows.map Row.pk) ns)
    (In := fun db c => c ∈ db.rows ∧ c.pk ∈ forest cfg db (some t.pk)) (by
      rintro db tg n ns db' obj t' ⟨hc, ⟨r, hr, hrk⟩, htk, hnew⟩ e
      have hfr : Fresh db n := fun r hr he => hnew.2 n (by simp) (he ▸ List.mem_map_of_mem hr)
      obtain ⟨db₂, obj₂, c₂, e', ha⟩ := C31_add_child ho hc hr (htk.trans hrk.symm) (cached := cached) hfr
      have hkeep := addChild_still hfr e'
      unfold addChildKeep at e
      rw [e'] at e
      cases e
      rw [hrk] at ha
      have hpk : db'.rows.map Row.pk = db.rows.map Row.pk ++ [n.pk] := by
        have := congrArg (List.map Prod.fst) ha.data
        simpa [data, Function.comp_def] using this
      refine ⟨⟨ha.consistent, ⟨r, hkeep r hr, hrk⟩, htk, hnew.step (by rw [hpk]; simp)⟩, ?_, ha.obj.2, ?_, ha.forest⟩
      · refine ⟨ha.obj.1, ?_⟩
        rw [ha.forest, ha.obj.2]
        simp [Forest.put, Slot.ins]
      · rintro c ⟨h1, h3⟩
        refine ⟨hkeep c h1, ?_⟩
        rw [ha.forest]
        simp [Forest.put, Slot.ins, h3]) news db target db' objs target' ⟨h, ⟨t, ht, rfl⟩, hk, hn⟩ e
  refine ⟨hc, hks, hF, ?_⟩
  intro c hcm
  obtain ⟨h1, h3⟩ := hin c hcm
  refine ⟨h1, ?_⟩
  intro pos hpos new hf
  have hprep : preparePosForAddSibling false (some pos) = .ok pos := by rcases hpos with rfl | rfl | rfl | rfl <;> rfl
  obtain ⟨p, hp, hout⟩ := C31_add_sibling ho hc h1 hprep hf
  have hai := (hc.inv ho).toAI
  rw [forest_eq hai] at hp h3
  rw [PF_parent_unique hai hp h3] at hout
  exact hout

end AL

namespace LT

variable {cfg : Cfg} {db : DB}

/-- `add_child`, with the caller's `target`, which LT does not change -/
def addChildKeep (cfg : Cfg) (db : DB) (target new : Row) : Except Err (DB × Row × Row) :=
  match addChild cfg db target new with
  | .error e => .error e
  | .ok (db, obj) => .ok (db, obj, target)

theorem addChild_still (ho : cfg.ordered = false) {t new obj : Row} {db' : DB} (hf : ∀ r ∈ db.rows, r.pk ≠ new.pk)
    (e : addChild cfg db t new = .ok (db', obj)) : ∀ r ∈ db.rows, r ∈ db'.rows := by
  intro r hr
  unfold addChild commit at e
  simp only [ho, Bool.false_eq_true, false_and, if_false] at e
  split at e
  · cases e
  · rename_i db1 a es
    split at e
    · cases e
      split at es
      · cases es
      · split at es
        · cases es
        · cases es
          rw [save_new (by intro r hr; exact hf r hr)]
          exact List.mem_append_left _ hr
    · cases e

/-- **C55 for LT**: as for the others up to the order of the siblings to the right of the new node; exactly for "last-sibling" and with tidy labels. -/
theorem C55_lt_partial (ho : cfg.ordered = false) (h : Consistent db) {t : Row} (ht : t ∈ db.rows)
    {news : List Row} (hn : NewKeys Row.pk (db.rows.map Row.pk) news) {db' : DB} {objs : List Row} {target' : Row}
    (e : addAll (addChildKeep cfg) db t news = .ok (db', objs, target')) :
    Consistent db' ∧ objs.map Row.pk = news.map Row.pk ∧ forest db' = (forest db).putAll (some t.pk) (news.map Row.pk) ∧
    ∀ c ∈ objs, c ∈ db'.rows ∧ ∀ pos, IsSibPos pos → ∀ new, Fresh db' new →
      ∃ db₂ obj, addSibling cfg db' c (some pos) new = .ok (db₂, obj) ∧ AddedNear db' db₂ obj new (some t.pk) (sibAsked c.pk pos) ∧
        (pos = .lastSibling ∨ TidyLabels db' (some t.pk) → AddedAt db' db₂ obj new (some t.pk) (sibAsked c.pk pos)) := by
  obtain ⟨⟨hc, _⟩, hin, hks, _, hF⟩ := addAll_loop (key := Row.pk) (pk := Row.pk) (p := some t.pk) (forest := forest)
    (Good := fun db tg ns => Consistent db ∧ tg = t ∧ t ∈ db.rows ∧ NewKeys Row.pk (db.rows.map Row.pk) ns)
    (In := fun db c => c ∈ db.rows ∧ c.pk ∈ forest db (some t.pk)) (by
      rintro db tg n ns db' obj t' ⟨hc, rfl, hr, hnew⟩ e
      have hfr : Fresh db n := fun r hr he => hnew.2 n (by simp) (he ▸ List.mem_map_of_mem hr)
      obtain ⟨db₂, obj₂, e', ha⟩ := C36_add_child (cfg := cfg) ho hc hr hfr
      have hkeep := addChild_still ho hfr e'
      unfold addChildKeep at e
      rw [e'] at e
      cases e
      have hpk : db'.rows.map Row.pk = db.rows.map Row.pk ++ [n.pk] := by
        have := congrArg (List.map Prod.fst) ha.data
        simpa [data, Function.comp_def] using this
      refine ⟨⟨ha.consistent, rfl, hkeep _ hr, hnew.step (by rw [hpk]; simp)⟩, ?_, ha.obj.2, ?_, ha.forest⟩
      · refine ⟨ha.obj.1, ?_⟩
        rw [ha.forest, ha.obj.2]
        simp [Forest.put, Slot.ins]
      · rintro c ⟨h1, h3⟩
        refine ⟨hkeep c h1, ?_⟩
        rw [ha.forest]
        simp [Forest.put, Slot.ins, h3]) news db t db' objs target' ⟨h, rfl, ht, hn⟩ e
  refine ⟨hc, hks, hF, ?_⟩
  intro c hcm
  obtain ⟨h1, h3⟩ := hin c hcm
  refine ⟨h1, ?_⟩
  intro pos hpos new hf
  have hprep : preparePosForAddSibling false (some pos) = .ok pos := by rcases hpos with rfl | rfl | rfl | rfl <;> rfl
  obtain ⟨p, hp, hout⟩ := C36_add_sibling_partial (cfg := cfg) ho hc h1 hprep hf
  have : p = some t.pk := by
    rw [← (mem_forest hc.inv.inv h1).1 hp, ← (mem_forest hc.inv.inv h1).1 h3]
  rw [this] at hout
  exact hout

end LT

/-! The hypotheses are met: two children in a loop below a node that has children. -/

example : (addAll (MP.addChild MP.exCfg) MP.exDB ⟨3, [49, 51], 2, 1, []⟩ [⟨8, [], 0, 0, []⟩, ⟨9, [], 0, 0, []⟩]).toOption.map
      (fun r => (r.2.1.map MP.Row.pk, MP.forest MP.exCfg r.1 (some 3))) = some ([8, 9], [4, 8, 9]) := by decide

end Verif
