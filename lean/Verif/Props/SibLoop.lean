/-
C64: several `add_sibling` calls with one target object.
-/
import Verif.SibLoop
import Verif.Height
import Verif.NearForest
import Verif.Props.Loop
import Verif.MP.SibObject
import Verif.NS.Objects
import Verif.LT.Objects
import Verif.AL.Example

namespace Verif

namespace MP

variable {cfg : Cfg} {db : DB}

/-- `add_sibling` (mp_tree.py:436-478, 758-835), with what it leaves in the target object: `self.node` is only read there, it is never assigned nor
refreshed (`movebranch` is false in the calls of `reorder_nodes_before_add_or_move`). -/
def addSiblingKeep (cfg : Cfg) (db : DB) (target : Row) (n : Pos × Row) : Except Err (DB × Row × Row) :=
  (addSibling cfg db target (some n.1) n.2).map (fun r => (r.1, r.2, target))

theorem addSiblingKeep_ok {target target' obj : Row} {n : Pos × Row} {db' : DB} :
    addSiblingKeep cfg db target n = .ok (db', obj, target') ↔ addSibling cfg db target (some n.1) n.2 = .ok (db', obj) ∧ target' = target := by
  unfold addSiblingKeep
  cases addSibling cfg db target (some n.1) n.2 with
  | error e => simp [Except.map]
  | ok r => rcases r with ⟨a, b⟩; simp [Except.map]; tauto

/-- what one call with a target object leaves -/
theorem addSibling_object (hok : cfg.Ok) (h : Consistent cfg db) (ho : cfg.ordered = false) {t target : Row} (ht : t ∈ db.rows) (hn : Nearby cfg target t)
    {p : Option Nat} (hp : t.pk ∈ forest cfg db p) {pos : Pos} (hpos : pos = .firstSibling ∨ pos = .lastSibling ∨ (pos = .right ∧ target.path = t.path))
    {new : Row} (hf : Fresh db new) :
    (∃ db' obj, addSibling cfg db target (some pos) new = .ok (db', obj) ∧ AddedAt cfg db db' obj new p (sibAsked t.pk pos) ∧
      ∃ t' ∈ db'.rows, t'.pk = t.pk ∧ Nearby cfg target t' ∧ (pos ≠ .firstSibling → t'.path = t.path)) ∨
    (addSibling cfg db target (some pos) new = .error .pathOverflow ∧ LastTaken cfg db p) := by
  have hi := (consistent_iff hok).1 h
  have hsib : IsSibPos pos := by rcases hpos with rfl | rfl | ⟨rfl, _⟩ <;> simp [IsSibPos]
  have hprep : preparePosForAddSibling cfg.ordered (some pos) = .ok pos := by
    rw [ho]; rcases hsib with rfl | rfl | rfl | rfl <;> decide
  have hpe : p = par cfg db.rows t := parent_unique hok h hp (mem_forest_par hok hi ht)
  subst hpe
  rw [hn.addSibling hok hi.toPInv ht hpos]
  rcases addSibling_unsorted hok hi ht hprep (sibSlot_of hsib) hf.1 hf.2 with ⟨db', obj, e, ha⟩ | ⟨e, hu⟩
  · refine Or.inl ⟨db', obj, e, AddedAt.of hok hi ha, ?_⟩
    have hi' := ha.inv
    have hin : t.pk ∈ PF cfg db'.rows (par cfg db.rows t) := by
      rw [ha.forest]
      exact Forest.subset_put ((mem_PF hi.toPInv).2 ⟨t, ht, rfl, rfl⟩)
    obtain ⟨t', ht', hpar, hk⟩ := (mem_PF hi'.toPInv).1 hin
    have hpp : pp cfg.steplen t'.path = pp cfg.steplen t.path := by
      have hP := hi.toPInv.isPar ht
      have he := (par_eq_at hi.toPInv hok ht hP).2 rfl
      rcases hP with hP | ⟨q, hq, hP⟩
      · rw [hP] at he ⊢
        rw [he, at?_nil hi.toPInv hok] at hpar
        exact (par_eq_at hi'.toPInv hok ht' (Or.inl rfl)).1 (by rw [hpar, at?_nil hi'.toPInv hok])
      · rw [← hP] at he ⊢
        rw [at?_row hi.toPInv hq] at he
        obtain ⟨q', hq', hk', hpath⟩ := ha.parent q hq he
        rw [← hpath]
        exact (par_eq_at hi'.toPInv hok ht' (Or.inr ⟨q', hq', rfl⟩)).1 (by rw [hpar, he, at?_row hi'.toPInv hq', hk'])
    have hdep : t'.depth = t.depth := by
      have h1 := depth_mul hi.toPInv ht
      have h2 := depth_mul hi'.toPInv ht'
      rw [hpp, ← h1] at h2
      exact Nat.eq_of_mul_eq_mul_right hok.step h2
    refine ⟨t', ht', hk, ⟨hn.pk.trans hk.symm, hn.depth.trans hdep.symm, ?_⟩, ?_⟩
    · rw [hpp]; exact hn.path
    · intro hne
      obtain ⟨t₂, ht₂, hk₂, hp₂⟩ := addSibling_right_still hok hi.toPInv ht hf.1 (by
        rcases hpos with rfl | rfl | ⟨rfl, _⟩
        · exact absurd rfl hne
        · exact Or.inr rfl
        · exact Or.inl rfl) e
      rw [hi'.inv.pk_inj ht' ht₂ (hk.trans hk₂.symm), hp₂]
  · exact Or.inr ⟨e, lastTaken_of hok hi (isPar_pp hi.toPInv ht) hu⟩

/-- **C64 for MP (partial: not `left`, and `first-sibling` not together with `right`)**: several nodes are added with one target object.  Each goes
where asked relative to the target node, and so does a further one, if there is a position left. -/
theorem C64_mp_partial (hok : cfg.Ok) (h : Consistent cfg db) (ho : cfg.ordered = false) {t : Row} (ht : t ∈ db.rows) {p : Option Nat}
    (hp : t.pk ∈ forest cfg db p) {ns : List (Pos × Row)} {n : Pos × Row} (hs : OneSided ((ns ++ [n]).map Prod.fst))
    (hnew : NewKeys (Row.pk ∘ Prod.snd) (db.rows.map Row.pk) (ns ++ [n])) (h0 : ∀ m ∈ ns ++ [n], m.2.numchild = 0) {db' : DB} {objs : List Row} {target : Row}
    (e : addAll (addSiblingKeep cfg) db t ns = .ok (db', objs, target)) :
    Consistent cfg db' ∧ objs.map Row.pk = ns.map (Row.pk ∘ Prod.snd) ∧
    forest cfg db' = (forest cfg db).putEach p (ns.map (fun m => (sibAsked t.pk m.1, m.2.pk))) ∧
    ((∃ db₂ obj, addSiblingKeep cfg db' target n = .ok (db₂, obj, target) ∧ AddedAt cfg db' db₂ obj n.2 p (sibAsked t.pk n.1)) ∨
     (addSiblingKeep cfg db' target n = .error .pathOverflow ∧ LastTaken cfg db' p)) := by
  obtain ⟨b, hb⟩ := hs.side
  have fresh : ∀ {db : DB} {n : Pos × Row} {ns}, NewKeys (Row.pk ∘ Prod.snd) (db.rows.map Row.pk) (n :: ns) → n.2.numchild = 0 → Fresh db n.2 :=
    fun hnew hz => ⟨fun r hr he => hnew.2 _ (List.mem_cons_self ..) (by simp only [Function.comp]; exact he ▸ List.mem_map_of_mem hr), hz⟩
  have one : ∀ {db : DB} {tg t₁ : Row} {q : Pos}, (if b then q = .right ∨ q = .lastSibling else q = .firstSibling ∨ q = .lastSibling) →
      (b = true → tg.path = t₁.path) → (q = .firstSibling ∨ q = .lastSibling ∨ (q = .right ∧ tg.path = t₁.path)) := by
    intro db tg t₁ q h1 h2
    cases b <;> simp at h1 h2 <;> tauto
  obtain ⟨⟨hc, ⟨t₁, ht₁, hk₁, hn₁, hb₁⟩, hp₁, hnew₁, hz₁, hq₁⟩, hks, hF⟩ := addAll_each (key := Row.pk ∘ Prod.snd) (pk := Row.pk) (p := p) (forest := forest cfg)
    (slot := fun n => sibAsked t.pk n.1)
    (Good := fun db tg ns => Consistent cfg db ∧ (∃ t₁ ∈ db.rows, t₁.pk = t.pk ∧ Nearby cfg tg t₁ ∧ (b = true → tg.path = t₁.path)) ∧
      t.pk ∈ forest cfg db p ∧ NewKeys (Row.pk ∘ Prod.snd) (db.rows.map Row.pk) ns ∧ (∀ m ∈ ns, m.2.numchild = 0) ∧
      ∀ q ∈ ns.map Prod.fst, if b then q = .right ∨ q = .lastSibling else q = .firstSibling ∨ q = .lastSibling) (by
      rintro db tg n ns db' obj tg' ⟨hc, ⟨t₁, ht₁, hk₁, hn₁, hb₁⟩, hp₁, hnew, hz, hq⟩ e
      obtain ⟨e, rfl⟩ := addSiblingKeep_ok.1 e
      have hfr := fresh hnew (hz n (by simp))
      rcases addSibling_object hok hc ho ht₁ hn₁ (hk₁.symm ▸ hp₁) (one (db := db) (hq n.1 (by simp)) hb₁) hfr with ⟨db₂, obj₂, e', ha, t', ht', hk', hn', hr'⟩ | ⟨e', _⟩
      · rw [e] at e'
        cases e'
        rw [hk₁] at ha hk'
        have hpk : db'.rows.map Row.pk = db.rows.map Row.pk ++ [n.2.pk] := by
          have := congrArg (List.map Prod.fst) ha.data
          simpa [data, Function.comp_def] using this
        refine ⟨⟨ha.consistent, ⟨t', ht', hk', hn', ?_⟩, ?_, hnew.step (by rw [hpk]; simp), fun m hm => hz m (List.mem_cons_of_mem _ hm),
          fun q hq' => hq q (List.mem_cons_of_mem _ hq')⟩, ha.obj.2, ha.forest⟩
        · intro hbt
          rw [hb₁ hbt, hr']
          intro hfst
          have := hq n.1 (by simp)
          rw [hfst, hbt] at this
          simp at this
        · rw [ha.forest]; exact Forest.subset_put hp₁
      · rw [e] at e'; cases e') ns [n] db t db' objs target
      ⟨h, ⟨t, ht, rfl, Nearby.refl ((consistent_iff hok).1 h).toPInv ht, fun _ => rfl⟩, hp, hnew, h0, hb⟩ e
  refine ⟨hc, hks, hF, ?_⟩
  have hfr := fresh hnew₁ (hz₁ n (by simp))
  rcases addSibling_object hok hc ho ht₁ hn₁ (hk₁.symm ▸ hp₁) (one (db := db) (hq₁ n.1 (by simp)) hb₁) hfr with ⟨db₂, obj₂, e', ha, _⟩ | ⟨e', hl⟩
  · left
    rw [hk₁] at ha
    exact ⟨db₂, obj₂, addSiblingKeep_ok.2 ⟨e', rfl⟩, ha⟩
  · right
    refine ⟨?_, hl⟩
    unfold addSiblingKeep
    rw [e']; rfl

end MP

namespace AL

variable {cfg : Cfg} {db : DB}

/-- `add_sibling` (al_tree.py:95-106, 265-287), with what it leaves in the target object, which is only read there -/
def addSiblingKeep (cfg : Cfg) (db : DB) (target : Row) (n : Pos × Row) : Except Err (DB × Row × Row) :=
  (addSibling cfg db target (some n.1) n.2).map (fun r => (r.1, r.2, target))

theorem addSiblingKeep_ok {target target' obj : Row} {n : Pos × Row} {db' : DB} :
    addSiblingKeep cfg db target n = .ok (db', obj, target') ↔ addSibling cfg db target (some n.1) n.2 = .ok (db', obj) ∧ target' = target := by
  unfold addSiblingKeep
  cases addSibling cfg db target (some n.1) n.2 with
  | error e => simp [Except.map]
  | ok r => rcases r with ⟨a, b⟩; simp [Except.map]; tauto

/-- For the ends of the group only the key and the parent of the target matter; for `right` also its order. -/
theorem addSibling_congr {a t : Row} (hk : a.pk = t.pk) (hp : a.parent = t.parent) {pos : Pos}
    (hpos : pos = .firstSibling ∨ pos = .lastSibling ∨ (pos = .right ∧ a.sib = t.sib)) (new : Row) :
    addSibling cfg db a (some pos) new = addSibling cfg db t (some pos) new := by
  have hs : siblings cfg db a = siblings cfg db t := by unfold siblings; rw [hp]
  have hl : lastSibling cfg db a = lastSibling cfg db t := by unfold lastSibling; rw [hs]
  have hi : isLastPos cfg db pos a = isLastPos cfg db pos t := by unfold isLastPos; rw [hl, hk]
  have hm : pos ≠ .lastSibling → makeHole db pos a = makeHole db pos t := by
    intro hne
    unfold makeHole
    rw [hp]
    rcases hpos with rfl | rfl | ⟨rfl, h⟩
    · rfl
    · exact absurd rfl hne
    · rw [h]
  have hsib : IsSibPos pos := by rcases hpos with rfl | rfl | ⟨rfl, _⟩ <;> simp [IsSibPos]
  unfold addSibling
  split
  · rfl
  · rename_i pos' e
    have : pos' = pos := by
      unfold preparePosForAddSibling preparePosVar at e
      revert e
      rcases hsib with rfl | rfl | rfl | rfl <;> cases cfg.ordered <;> simp [validPosForAddSibling, validPosForSortedAddSibling] <;> exact fun h => h.symm
    subst this
    have ho : addOrder cfg db pos' a new = addOrder cfg db pos' t new := by
      unfold addOrder newSibOrder
      rw [hi, hl]
      by_cases hlp : pos' = .lastSibling
      · subst hlp; simp [isLastPos]
      · rw [hm hlp]
    rw [ho, hp]

/-- what one call with a target object leaves -/
theorem addSibling_object (ho : cfg.ordered = false) (h : Consistent cfg db) {t target : Row} (ht : t ∈ db.rows) (hk : target.pk = t.pk)
    (hpt : target.parent = t.parent) {p : Option Nat} (hp : t.pk ∈ forest cfg db p) {pos : Pos}
    (hpos : pos = .firstSibling ∨ pos = .lastSibling ∨ (pos = .right ∧ target.sib = t.sib)) {new : Row} (hf : Fresh db new) :
    ∃ db' obj, addSibling cfg db target (some pos) new = .ok (db', obj) ∧ AddedAt cfg db db' obj new p (sibAsked t.pk pos) ∧
      ∃ t' ∈ db'.rows, t'.pk = t.pk ∧ t'.parent = t.parent ∧ (pos ≠ .firstSibling → t'.sib = t.sib) := by
  have hi := h.inv ho
  have hsib : IsSibPos pos := by rcases hpos with rfl | rfl | ⟨rfl, _⟩ <;> simp [IsSibPos]
  have hprep : preparePosForAddSibling false (some pos) = .ok pos := by rcases hsib with rfl | rfl | rfl | rfl <;> rfl
  have hpe := (mem_forest hi.toAI ht).1 hp
  subst hpe
  rw [addSibling_congr hk hpt hpos]
  obtain ⟨db', obj, e, ha⟩ := addSibling_unsorted ho hi ht hprep hf
  refine ⟨db', obj, e, .of ho hi.toAI ha, ?_⟩
  obtain ⟨o, en, ho1, hr, hl, hfst, hlst⟩ := newSibOrder_spec ho hi ht hsib
  unfold addSibling addOrder at e
  rw [ho, hprep] at e
  simp only [Bool.false_eq_true, if_false] at e
  rw [en] at e
  simp only at e
  rw [save_new (by
    intro r hr
    obtain ⟨r0, h0, rfl⟩ := List.mem_map.1 hr
    rw [shift_pk]; exact hf r0 h0) (by
    intro p ep
    obtain ⟨q, hq, eq⟩ := hi.exist t ht p ep
    exact ⟨_, List.mem_map_of_mem hq, by rw [shift_pk, eq]⟩)] at e
  cases e
  refine ⟨shift t.parent o t, List.mem_append_left _ (List.mem_map_of_mem ht), shift_pk .., shift_parent .., ?_⟩
  intro hne
  unfold shift
  rw [if_neg]
  rintro ⟨_, hle⟩
  rcases hpos with rfl | rfl | ⟨rfl, _⟩
  · exact hne rfl
  · have := hlst rfl t ht rfl; omega
  · have := hr rfl; omega

/-- **C64 for AL (partial: not `left`, and `first-sibling` not together with `right`)** -/
theorem C64_al_partial (ho : cfg.ordered = false) (h : Consistent cfg db) {t : Row} (ht : t ∈ db.rows) {p : Option Nat}
    (hp : t.pk ∈ forest cfg db p) {ns : List (Pos × Row)} {n : Pos × Row} (hs : OneSided ((ns ++ [n]).map Prod.fst))
    (hnew : NewKeys (Row.pk ∘ Prod.snd) (db.rows.map Row.pk) (ns ++ [n])) {db' : DB} {objs : List Row} {target : Row}
    (e : addAll (addSiblingKeep cfg) db t ns = .ok (db', objs, target)) :
    Consistent cfg db' ∧ objs.map Row.pk = ns.map (Row.pk ∘ Prod.snd) ∧
    forest cfg db' = (forest cfg db).putEach p (ns.map (fun m => (sibAsked t.pk m.1, m.2.pk))) ∧
    ∃ db₂ obj, addSiblingKeep cfg db' target n = .ok (db₂, obj, target) ∧ AddedAt cfg db' db₂ obj n.2 p (sibAsked t.pk n.1) := by
  obtain ⟨b, hb⟩ := hs.side
  have fresh : ∀ {db : DB} {n : Pos × Row} {ns}, NewKeys (Row.pk ∘ Prod.snd) (db.rows.map Row.pk) (n :: ns) → Fresh db n.2 :=
    fun hnew r hr he => hnew.2 _ (List.mem_cons_self ..) (by simp only [Function.comp]; exact he ▸ List.mem_map_of_mem hr)
  have one : ∀ {tg t₁ : Row} {q : Pos}, (if b then q = .right ∨ q = .lastSibling else q = .firstSibling ∨ q = .lastSibling) →
      (b = true → tg.sib = t₁.sib) → (q = .firstSibling ∨ q = .lastSibling ∨ (q = .right ∧ tg.sib = t₁.sib)) := by
    intro tg t₁ q h1 h2
    cases b <;> simp at h1 h2 <;> tauto
  obtain ⟨⟨hc, ⟨t₁, ht₁, hk₁, hkt₁, hn₁, hb₁⟩, hp₁, hnew₁, hq₁⟩, hks, hF⟩ := addAll_each (key := Row.pk ∘ Prod.snd) (pk := Row.pk) (p := p) (forest := forest cfg)
    (slot := fun n => sibAsked t.pk n.1)
    (Good := fun db tg ns => Consistent cfg db ∧ (∃ t₁ ∈ db.rows, t₁.pk = t.pk ∧ tg.pk = t₁.pk ∧ tg.parent = t₁.parent ∧ (b = true → tg.sib = t₁.sib)) ∧
      t.pk ∈ forest cfg db p ∧ NewKeys (Row.pk ∘ Prod.snd) (db.rows.map Row.pk) ns ∧
      ∀ q ∈ ns.map Prod.fst, if b then q = .right ∨ q = .lastSibling else q = .firstSibling ∨ q = .lastSibling) (by
      rintro db tg n ns db' obj tg' ⟨hc, ⟨t₁, ht₁, hk₁, hkt₁, hn₁, hb₁⟩, hp₁, hnew, hq⟩ e
      obtain ⟨e, rfl⟩ := addSiblingKeep_ok.1 e
      obtain ⟨db₂, obj₂, e', ha, t', ht', hk', hpt', hr'⟩ := addSibling_object ho hc ht₁ hkt₁ hn₁ (hk₁.symm ▸ hp₁) (one (hq n.1 (by simp)) hb₁) (fresh hnew)
      rw [e] at e'
      cases e'
      rw [hk₁] at ha
      have hpk : db'.rows.map Row.pk = db.rows.map Row.pk ++ [n.2.pk] := by
        have := congrArg (List.map Prod.fst) ha.data
        simpa [data, Function.comp_def] using this
      refine ⟨⟨ha.consistent, ⟨t', ht', hk'.trans hk₁, hkt₁.trans hk'.symm, hn₁.trans hpt'.symm, ?_⟩, ?_, hnew.step (by rw [hpk]; simp),
        fun q hq' => hq q (List.mem_cons_of_mem _ hq')⟩, ha.obj.2, ha.forest⟩
      · intro hbt
        rw [hb₁ hbt, hr']
        intro hfst
        have := hq n.1 (by simp)
        rw [hfst, hbt] at this
        simp at this
      · rw [ha.forest]; exact Forest.subset_put hp₁) ns [n] db t db' objs target ⟨h, ⟨t, ht, rfl, rfl, rfl, fun _ => rfl⟩, hp, hnew, hb⟩ e
  refine ⟨hc, hks, hF, ?_⟩
  obtain ⟨db₂, obj₂, e', ha, _⟩ := addSibling_object ho hc ht₁ hkt₁ hn₁ (hk₁.symm ▸ hp₁) (one (hq₁ n.1 (by simp)) hb₁) (fresh hnew₁)
  rw [hk₁] at ha
  exact ⟨db₂, obj₂, addSiblingKeep_ok.2 ⟨e', rfl⟩, ha⟩

end AL

namespace NS

variable {cfg : Cfg} {db : DB}

/-- what is known of the target object between the calls: for a root that it is one (and its tree, if it is to be current), else that it is current -/
def Held (cur : Bool) (p : Option Nat) (db : DB) (target t : Row) : Prop :=
  t ∈ db.rows ∧ target.pk = t.pk ∧ match p with
    | none => target.lft = 1 ∧ t.lft = 1 ∧ target.depth = t.depth ∧ (cur = true → target.tree = t.tree)
    | some _ => target = t

/-- what one call with a target object leaves -/
theorem addSibling_object (h : Consistent db) (ho : cfg.ordered = false) {cur : Bool} {p : Option Nat} {t target : Row} (hh : Held cur p db target t)
    (hp : t.pk ∈ forest db p) {cached : Option Row} {pos : Pos}
    (hpos : (p = none ∧ if cur then pos = .right ∨ pos = .lastSibling else pos = .firstSibling ∨ pos = .lastSibling) ∨ pos = .right)
    (hcur : pos = .right → cur = true) {new : Row} (hf : Fresh db new) :
    ∃ db' obj, addSibling cfg db target cached (some pos) new = .ok (db', obj) ∧ AddedAt db db' obj new p (sibAsked t.pk pos) ∧
      ∃ t', t'.pk = t.pk ∧ Held cur p db' target t' := by
  obtain ⟨ht, hk, hm⟩ := hh
  have hsib : IsSibPos pos := by
    unfold IsSibPos
    rcases hpos with ⟨_, hpos⟩ | rfl
    · split at hpos <;> rcases hpos with rfl | rfl <;> simp
    · simp
  have hprep : preparePosForAddSibling false (some pos) = .ok pos := by rcases hsib with rfl | rfl | rfl | rfl <;> rfl
  have hpar := (mem_forest h ht).1 hp
  obtain ⟨p', hp', db', obj, e, ha⟩ := C22_add_sibling h ho ht (cached := none) (by intro q hq; cases hq) hprep hf
  have := parent_unique h hp' hp
  subst this
  obtain ⟨hroot, hright⟩ := addSibling_target h.toNI ht hf hsib e
  cases p' with
  | none =>
    obtain ⟨h1, h2, h3, h4⟩ := hm
    obtain ⟨t', ht', hk', hl', hd', hs'⟩ := hroot h2
    refine ⟨db', obj, ?_, ha, t', hk', ht', hk.trans hk'.symm, h1, hl', h3.trans hd'.symm, ?_⟩
    · rw [← e]
      refine addSibling_root_congr hk h1 h2 h3 ?_ _ _ _
      rcases hpos with ⟨_, hpos⟩ | rfl
      · cases hc : cur with
        | false => rw [hc] at hpos; simp at hpos; tauto
        | true => rw [hc] at hpos; simp at hpos; have := h4 hc; tauto
      · exact Or.inr (Or.inr ⟨rfl, h4 (hcur rfl)⟩)
    · intro hc
      rw [hs', h4 hc]
      rcases hpos with ⟨_, hpos⟩ | rfl
      · rw [hc] at hpos; simpa using hpos
      · exact Or.inl rfl
  | some q =>
    have hr : pos = .right := hpos.resolve_left (by rintro ⟨h, _⟩; cases h)
    have hm' : target = t := hm
    subst hm'
    refine ⟨db', obj, ?_, ha, target, rfl, hright hr, rfl, rfl⟩
    rw [← e, addSibling_cache hsib (by rw [hr]; decide)]

/-- **C64 for NS (partial: `right` for an inner target; for a root also `last-sibling`, or the ends of the group)**.  The target object is followed with its
cached parent. -/
theorem C64_ns_partial (h : Consistent db) (ho : cfg.ordered = false) {t : Row} (ht : t ∈ db.rows) {cached : Option Row} {p : Option Nat}
    (hp : t.pk ∈ forest db p) {ns : List (Pos × Row)} {n : Pos × Row}
    (hs : (p = none ∧ OneSided ((ns ++ [n]).map Prod.fst)) ∨ ∀ m ∈ ns ++ [n], m.1 = .right)
    (hnew : NewKeys (Row.pk ∘ Prod.snd) (db.rows.map Row.pk) (ns ++ [n])) {db' : DB} {objs : List Obj} {target : Obj}
    (e : addAll (addSiblingObj cfg) db (t, cached) ns = .ok (db', objs, target)) :
    Consistent db' ∧ objs.map (Row.pk ∘ Prod.fst) = ns.map (Row.pk ∘ Prod.snd) ∧
    forest db' = (forest db).putEach p (ns.map (fun m => (sibAsked t.pk m.1, m.2.pk))) ∧
    ∃ db₂ obj target', addSiblingObj cfg db' target n = .ok (db₂, obj, target') ∧ AddedAt db' db₂ obj.1 n.2 p (sibAsked t.pk n.1) := by
  obtain ⟨b, hb⟩ : ∃ b : Bool, ∀ q ∈ (ns ++ [n]).map Prod.fst, ((p = none ∧ if b then q = .right ∨ q = .lastSibling else q = .firstSibling ∨ q = .lastSibling) ∨
      q = .right) ∧ (q = .right → b = true) := by
    rcases hs with ⟨rfl, hs⟩ | hs
    · obtain ⟨b, hb⟩ := hs.side
      refine ⟨b, fun q hq => ⟨Or.inl ⟨rfl, hb q hq⟩, ?_⟩⟩
      rintro rfl
      have := hb _ hq
      cases b with
      | true => rfl
      | false => simp at this
    · refine ⟨true, ?_⟩
      intro q hq
      obtain ⟨m, hm, rfl⟩ := List.mem_map.1 hq
      exact ⟨Or.inr (hs m hm), fun _ => rfl⟩
  have fresh : ∀ {db : DB} {n : Pos × Row} {ns}, NewKeys (Row.pk ∘ Prod.snd) (db.rows.map Row.pk) (n :: ns) → Fresh db n.2 :=
    fun hnew r hr he => hnew.2 _ (List.mem_cons_self ..) (by simp only [Function.comp]; exact he ▸ List.mem_map_of_mem hr)
  obtain ⟨⟨hc, ⟨t₁, hk₁, hh₁⟩, hp₁, hnew₁, hq₁⟩, hks, hF⟩ := addAll_each (key := Row.pk ∘ Prod.snd) (pk := Row.pk ∘ Prod.fst) (p := p) (forest := forest)
    (slot := fun n => sibAsked t.pk n.1)
    (Good := fun db (tg : Obj) ns => Consistent db ∧ (∃ t₁, t₁.pk = t.pk ∧ Held b p db tg.1 t₁) ∧
      t.pk ∈ forest db p ∧ NewKeys (Row.pk ∘ Prod.snd) (db.rows.map Row.pk) ns ∧
      ∀ q ∈ ns.map Prod.fst, ((p = none ∧ if b then q = .right ∨ q = .lastSibling else q = .firstSibling ∨ q = .lastSibling) ∨ q = .right) ∧
        (q = .right → b = true)) (by
      rintro db tg n ns db' obj tg' ⟨hc, ⟨t₁, hk₁, hh₁⟩, hp₁, hnew, hq⟩ e
      obtain ⟨es, _, rfl⟩ := addSiblingObj_ok.1 e
      obtain ⟨db₂, obj₂, e', ha, t', hk', hh'⟩ := addSibling_object hc ho hh₁ (hk₁.symm ▸ hp₁) (cached := tg.2) (hq n.1 (by simp)).1 (hq n.1 (by simp)).2 (fresh hnew)
      rw [es] at e'
      cases e'
      rw [hk₁] at ha
      have hpk : db'.rows.map Row.pk = db.rows.map Row.pk ++ [n.2.pk] := by
        have := congrArg (List.map Prod.fst) ha.data
        simpa [data, Function.comp_def] using this
      refine ⟨⟨ha.consistent, ⟨t', hk'.trans hk₁, hh'⟩, ?_, hnew.step (by rw [hpk]; simp),
        fun q hq' => hq q (List.mem_cons_of_mem _ hq')⟩, ha.obj.2, ha.forest⟩
      rw [ha.forest]; exact Forest.subset_put hp₁) ns [n] db (t, cached) db' objs target ⟨h, ⟨t, rfl, ht, rfl, by
        cases p with
        | none =>
          have := (par_eq_none h.toNI ht).1 ((mem_forest h ht).1 hp)
          exact ⟨this, this, rfl, fun _ => rfl⟩
        | some q => rfl⟩, hp, hnew, hb⟩ e
  refine ⟨hc, hks, hF, ?_⟩
  obtain ⟨db₂, obj₂, e', ha, _⟩ := addSibling_object hc ho hh₁ (hk₁.symm ▸ hp₁) (cached := target.2) (hq₁ n.1 (by simp)).1 (hq₁ n.1 (by simp)).2 (fresh hnew₁)
  rw [hk₁] at ha
  exact ⟨db₂, (obj₂, none), _, addSiblingObj_ok.2 ⟨e', rfl, rfl⟩, ha⟩

end NS

namespace LT

variable {cfg : Cfg} {db : DB}

/-- what is known of the target object between the calls: its group of siblings, and, if it is to be current, everything -/
structure Held (cur : Bool) (db : DB) (target t : Row) : Prop where
  mem : t ∈ db.rows
  pk : target.pk = t.pk
  drop : target.path.dropLast = t.path.dropLast
  length : target.path.length = t.path.length
  cur : cur = true → target = t

/-- what one call with a target object leaves -/
theorem addSibling_object (ho : cfg.ordered = false) (h : Consistent db) {cur : Bool} {t target : Row} (hh : Held cur db target t) {p : Option Nat}
    (hp : t.pk ∈ forest db p) {pos : Pos} (hpos : if cur then pos = .left ∨ pos = .right ∨ pos = .lastSibling else pos = .firstSibling ∨ pos = .lastSibling)
    {new : Row} (hf : Fresh db new) :
    ∃ db' obj target', addSiblingObj cfg db target (some pos) new = .ok (db', obj, target') ∧ AddedNear db db' obj new p (sibAsked t.pk pos) ∧
      (pos = .lastSibling ∨ TidyLabels db p → AddedAt db db' obj new p (sibAsked t.pk pos)) ∧ ∃ t', t'.pk = t.pk ∧ Held cur db' target' t' := by
  have hsib : IsSibPos pos := by
    unfold IsSibPos
    cases cur <;> simp at hpos
    · rcases hpos with rfl | rfl <;> simp
    · rcases hpos with rfl | rfl | rfl <;> simp
  have hprep : preparePosForAddSibling false (some pos) = .ok pos := by rcases hsib with rfl | rfl | rfl | rfl <;> rfl
  obtain ⟨db', obj, t', s, e, hs, hk, hd, hl, hfirst, hleft⟩ := addSiblingObj_target (cfg := cfg) ho h.inv hh.mem hsib hf
  obtain ⟨p', hp', db₂, obj₂, e₂, ha, hx⟩ := C36_add_sibling_partial (cfg := cfg) ho h hh.mem hprep hf
  have hpe : p' = p := by rw [← (mem_forest h.inv.inv hh.mem).1 hp', ← (mem_forest h.inv.inv hh.mem).1 hp]
  subst hpe
  rw [← addSiblingObj_addSibling, e] at e₂
  cases e₂
  cases cur with
  | true =>
    have := hh.cur rfl
    subst this
    have hne : pos ≠ .firstSibling := by simp at hpos; rcases hpos with rfl | rfl | rfl <;> decide
    refine ⟨db', obj, t', e, ha, hx, s, hk, hs, ?_, ?_, ?_, fun _ => hfirst hne⟩ <;> rw [hfirst hne]
  | false =>
    simp at hpos
    have hne : pos ≠ .left := by rcases hpos with rfl | rfl <;> decide
    refine ⟨db', obj, target, ?_, ha, hx, s, hk, hs, hh.pk.trans hk.symm, hh.drop.trans hd.symm, hh.length.trans hl.symm, by simp⟩
    rw [addSiblingObj_congr hh.drop hh.length hpos, e]
    rfl

/-- `add_sibling` in a loop -/
def addSiblingKeep (cfg : Cfg) (db : DB) (target : Row) (n : Pos × Row) : Except Err (DB × Row × Row) := addSiblingObj cfg db target (some n.1) n.2

/-- **C64 for LT (partial: `first-sibling` not together with `left` or `right`; up to the order of the siblings, which LT itself may change)**: each new node
becomes a sibling of the target and a further one goes where asked.  For "last-sibling" the order is exact too. -/
theorem C64_lt_partial (ho : cfg.ordered = false) (h : Consistent db) {t : Row} (ht : t ∈ db.rows) {p : Option Nat}
    (hp : t.pk ∈ forest db p) {ns : List (Pos × Row)} {n : Pos × Row}
    (hs : (∀ m ∈ ns ++ [n], m.1 = .firstSibling ∨ m.1 = .lastSibling) ∨ ∀ m ∈ ns ++ [n], m.1 = .left ∨ m.1 = .right ∨ m.1 = .lastSibling)
    (hnew : NewKeys (Row.pk ∘ Prod.snd) (db.rows.map Row.pk) (ns ++ [n])) {db' : DB} {objs : List Row} {target : Row}
    (e : addAll (addSiblingKeep cfg) db t ns = .ok (db', objs, target)) :
    Consistent db' ∧ objs.map Row.pk = ns.map (Row.pk ∘ Prod.snd) ∧
    ((forest db).putEach p (ns.map (fun m => (sibAsked t.pk m.1, m.2.pk)))).Near (forest db') ∧
    ((∀ m ∈ ns, m.1 = .lastSibling) → forest db' = (forest db).putEach p (ns.map (fun m => (sibAsked t.pk m.1, m.2.pk)))) ∧
    ∃ db₂ obj target', addSiblingKeep cfg db' target n = .ok (db₂, obj, target') ∧ AddedNear db' db₂ obj n.2 p (sibAsked t.pk n.1) ∧
      (n.1 = .lastSibling ∨ TidyLabels db' p → AddedAt db' db₂ obj n.2 p (sibAsked t.pk n.1)) := by
  obtain ⟨b, hb⟩ : ∃ b : Bool, ∀ m ∈ ns ++ [n], if b then m.1 = .left ∨ m.1 = .right ∨ m.1 = .lastSibling else m.1 = .firstSibling ∨ m.1 = .lastSibling := by
    rcases hs with hs | hs
    · exact ⟨false, by simpa using hs⟩
    · exact ⟨true, by simpa using hs⟩
  have fresh : ∀ {db : DB} {n : Pos × Row} {ns}, NewKeys (Row.pk ∘ Prod.snd) (db.rows.map Row.pk) (n :: ns) → Fresh db n.2 :=
    fun hnew r hr he => hnew.2 _ (List.mem_cons_self ..) (by simp only [Function.comp]; exact he ▸ List.mem_map_of_mem hr)
  have slotIn : ∀ {F : Forest} {q : Pos}, t.pk ∈ F p → (sibAsked t.pk q).In (F p) := by
    intro F q hF
    cases q <;> first | exact hF | trivial
  have keys : ∀ {db db' : DB} {n : Pos × Row}, data db'.rows = data db.rows ++ [(n.2.pk, n.2.vals)] → db'.rows.map Row.pk = db.rows.map Row.pk ++ [n.2.pk] := by
    intro db db' n hd
    have := congrArg (List.map Prod.fst) hd
    simpa [data, Function.comp_def] using this
  have hrun := e
  obtain ⟨⟨hc, ⟨t₁, hk₁, hh₁⟩, hF, hp₁, hnew₁, hq₁⟩, hks⟩ := addAll_track (key := Row.pk ∘ Prod.snd) (pk := Row.pk) (p := p) (slot := fun n => sibAsked t.pk n.1)
    (Good := fun db tg ms F => Consistent db ∧ (∃ t₁, t₁.pk = t.pk ∧ Held b db tg t₁) ∧ F.Near (forest db) ∧ t.pk ∈ F p ∧
      NewKeys (Row.pk ∘ Prod.snd) (db.rows.map Row.pk) ms ∧
      ∀ m ∈ ms, if b then m.1 = .left ∨ m.1 = .right ∨ m.1 = .lastSibling else m.1 = .firstSibling ∨ m.1 = .lastSibling) (by
      rintro db tg n ms F db' obj tg' ⟨hc, ⟨t₁, hk₁, hh₁⟩, hF, hp₁, hnew, hq⟩ e
      obtain ⟨db₂, obj₂, tg₂, e', ha, _, t', hk', hh'⟩ := addSibling_object ho hc hh₁ (p := p) (by rw [hk₁]; exact hF.mem.2 hp₁) (hq n (by simp)) (fresh hnew)
      unfold addSiblingKeep at e
      rw [e] at e'
      cases e'
      rw [hk₁] at ha
      refine ⟨⟨ha.consistent, ⟨t', hk'.trans hk₁, hh'⟩, ?_, Forest.subset_put hp₁, hnew.step (by rw [keys ha.data]; simp),
        fun m hm => hq m (List.mem_cons_of_mem _ hm)⟩, ha.obj.2⟩
      refine hF.added ?_ ha.near (slotIn hp₁)
      intro hx
      rw [forest_eq hc.inv.inv, mem_PF hc.inv.inv] at hx
      obtain ⟨r, hr, _, hk⟩ := hx
      exact fresh hnew r hr hk) ns [n] (forest db) db t db' objs target
      ⟨h, ⟨t, rfl, ht, rfl, rfl, rfl, fun _ => rfl⟩, .refl _, hp, hnew, hb⟩ e
  refine ⟨hc, hks, hF, ?_, ?_⟩
  · intro hlast
    have hnew' : NewKeys (Row.pk ∘ Prod.snd) (db.rows.map Row.pk) ns := by
      obtain ⟨h1, h2⟩ := hnew
      rw [List.map_append, List.nodup_append] at h1
      exact ⟨h1.1, fun m hm => h2 m (List.mem_append_left _ hm)⟩
    exact (addAll_each (key := Row.pk ∘ Prod.snd) (pk := Row.pk) (p := p) (forest := forest) (slot := fun n => sibAsked t.pk n.1)
      (Good := fun db tg ms => Consistent db ∧ (∃ t₁, t₁.pk = t.pk ∧ Held false db tg t₁) ∧ t.pk ∈ forest db p ∧
        NewKeys (Row.pk ∘ Prod.snd) (db.rows.map Row.pk) ms ∧ ∀ m ∈ ms, m.1 = .lastSibling) (by
        rintro db tg n ms db' obj tg' ⟨hc, ⟨t₁, hk₁, hh₁⟩, hp₁, hnew, hq⟩ e
        obtain ⟨db₂, obj₂, tg₂, e', _, hx, t', hk', hh'⟩ := addSibling_object ho hc hh₁ (p := p) (hk₁.symm ▸ hp₁) (pos := n.1) (by simp [hq n]) (fresh hnew)
        unfold addSiblingKeep at e
        rw [e] at e'
        cases e'
        have ha := hx (Or.inl (hq n (by simp)))
        rw [hk₁] at ha
        refine ⟨⟨ha.consistent, ⟨t', hk'.trans hk₁, hh'⟩, ?_, hnew.step (by rw [keys ha.data]; simp), fun m hm => hq m (List.mem_cons_of_mem _ hm)⟩,
          ha.obj.2, ha.forest⟩
        rw [ha.forest]; exact Forest.subset_put hp₁) ns [] db t db' objs target
        ⟨h, ⟨t, rfl, ht, rfl, rfl, rfl, fun _ => rfl⟩, hp, by simpa using hnew', by simpa using hlast⟩ hrun).2.2
  · obtain ⟨db₂, obj₂, tg₂, e', ha, hx, _⟩ := addSibling_object ho hc hh₁ (p := p) (by rw [hk₁]; exact hF.mem.2 hp₁) (hq₁ n (by simp)) (fresh hnew₁)
    rw [hk₁] at ha hx
    exact ⟨db₂, obj₂, tg₂, e', ha, hx⟩

end LT

/-! Witnesses: what the partial theorems leave out is false. -/

/-- MP, `left` twice with one target object: the path in the object is stale after the first call, and the second node goes left of the first one
instead of left of the target. -/
theorem MP.C64_mp_left : ∃ r, addAll (MP.addSiblingKeep MP.exCfg) MP.exDB ⟨3, [49, 51], 2, 1, []⟩
      [(.left, ⟨8, [], 0, 0, []⟩), (.left, ⟨9, [], 0, 0, []⟩)] = .ok r ∧
    ⟨3, [49, 51], 2, 1, []⟩ ∈ MP.exDB.rows ∧ MP.forest MP.exCfg r.1 (some 1) = [2, 9, 8, 3] ∧
    (MP.forest MP.exCfg MP.exDB).putEach (some 1) [(.before 3, 8), (.before 3, 9)] (some 1) = [2, 8, 9, 3] :=
  ⟨_, rfl, by decide, by decide, by decide⟩

/-- MP, `first-sibling` and then `right`: the second node goes left of the target. -/
theorem MP.C64_mp_first_right : ∃ r, addAll (MP.addSiblingKeep MP.exCfg) MP.exDB ⟨2, [49, 49], 2, 0, []⟩
      [(.firstSibling, ⟨8, [], 0, 0, []⟩), (.right, ⟨9, [], 0, 0, []⟩)] = .ok r ∧
    ⟨2, [49, 49], 2, 0, []⟩ ∈ MP.exDB.rows ∧ MP.forest MP.exCfg r.1 (some 1) = [8, 9, 2, 3] ∧
    (MP.forest MP.exCfg MP.exDB).putEach (some 1) [(.first, 8), (.after 2, 9)] (some 1) = [8, 2, 9, 3] :=
  ⟨_, rfl, by decide, by decide, by decide⟩

/-- AL, `left` twice -/
theorem AL.C64_al_left : ∃ r, addAll (AL.addSiblingKeep AL.exPlain) AL.exDB ⟨3, some 1, 4, []⟩
      [(.left, ⟨8, none, 0, []⟩), (.left, ⟨9, none, 0, []⟩)] = .ok r ∧
    ⟨3, some 1, 4, []⟩ ∈ AL.exDB.rows ∧ AL.forest AL.exPlain r.1 (some 1) = [2, 9, 8, 3] ∧
    (AL.forest AL.exPlain AL.exDB).putEach (some 1) [(.before 3, 8), (.before 3, 9)] (some 1) = [2, 8, 9, 3] :=
  ⟨_, rfl, by decide, by decide, by decide⟩

/-- AL, `first-sibling` and then `right` -/
theorem AL.C64_al_first_right : ∃ r, addAll (AL.addSiblingKeep AL.exPlain) AL.exDB ⟨2, some 1, 1, []⟩
      [(.firstSibling, ⟨8, none, 0, []⟩), (.right, ⟨9, none, 0, []⟩)] = .ok r ∧
    ⟨2, some 1, 1, []⟩ ∈ AL.exDB.rows ∧ AL.forest AL.exPlain r.1 (some 1) = [8, 9, 2, 3] ∧
    (AL.forest AL.exPlain AL.exDB).putEach (some 1) [(.first, 8), (.after 2, 9)] (some 1) = [8, 2, 9, 3] :=
  ⟨_, rfl, by decide, by decide, by decide⟩

/-- NS, `left` twice -/
theorem NS.C64_ns_left : ∃ r, addAll (NS.addSiblingObj ⟨[]⟩) NS.exDB (⟨3, 1, 4, 7, 2, []⟩, none)
      [(.left, ⟨8, 0, 0, 0, 0, []⟩), (.left, ⟨9, 0, 0, 0, 0, []⟩)] = .ok r ∧
    ⟨3, 1, 4, 7, 2, []⟩ ∈ NS.exDB.rows ∧ NS.forest r.1 (some 1) = [2, 9, 8, 3] ∧
    (NS.forest NS.exDB).putEach (some 1) [(.before 3, 8), (.before 3, 9)] (some 1) = [2, 8, 9, 3] :=
  ⟨_, rfl, by decide, by decide, by decide⟩

/-- NS, `last-sibling` twice: the parent that the target object has cached in the first call is stale in the second one, and the second node goes left of
the first one. -/
theorem NS.C64_ns_last : ∃ r, addAll (NS.addSiblingObj ⟨[]⟩) NS.exDB (⟨3, 1, 4, 7, 2, []⟩, none)
      [(.lastSibling, ⟨8, 0, 0, 0, 0, []⟩), (.lastSibling, ⟨9, 0, 0, 0, 0, []⟩)] = .ok r ∧
    ⟨3, 1, 4, 7, 2, []⟩ ∈ NS.exDB.rows ∧ NS.forest r.1 (some 1) = [2, 3, 9, 8] ∧
    (NS.forest NS.exDB).putEach (some 1) [(.last, 8), (.last, 9)] (some 1) = [2, 3, 8, 9] :=
  ⟨_, rfl, by decide, by decide, by decide⟩

/-- a tree with the children 2, 5 and 6 below 1, and 3 and 4 below 2 -/
def NS.sibDB : NS.DB :=
  { rows := [⟨1, 1, 1, 12, 1, []⟩, ⟨2, 1, 2, 7, 2, []⟩, ⟨3, 1, 3, 4, 3, []⟩, ⟨4, 1, 5, 6, 3, []⟩, ⟨5, 1, 8, 9, 2, []⟩, ⟨6, 1, 10, 11, 2, []⟩] }

/-- NS, `first-sibling` three times, on a consistent tree: the table is corrupt afterwards. -/
theorem NS.C64_ns_corrupts : NS.Consistent NS.sibDB ∧ ⟨5, 1, 8, 9, 2, []⟩ ∈ NS.sibDB.rows ∧
    ∃ r, addAll (NS.addSiblingObj ⟨[]⟩) NS.sibDB (⟨5, 1, 8, 9, 2, []⟩, none)
      [(.firstSibling, ⟨8, 0, 0, 0, 0, []⟩), (.firstSibling, ⟨9, 0, 0, 0, 0, []⟩), (.firstSibling, ⟨10, 0, 0, 0, 0, []⟩)] = .ok r ∧ ¬ NS.Consistent r.1 :=
  ⟨(by decide : NS.NI _) |> fun h => ⟨h, fun r hr => NS.full_of_range 12 (by revert r; decide) (by revert r; decide)⟩, by decide,
    _, rfl, fun h => absurd h.toNI (by decide)⟩

/-- roots with the labels "0", "B" and "C": nothing fits left of "0" -/
def LT.sibDB : LT.DB := { rows := [⟨1, [[48]], []⟩, ⟨2, [[66]], []⟩, ⟨3, [[67]], []⟩] }

/-- LT, `first-sibling` and then `right`: the first call gives the target a longer label, and with the old one in the target object the second call takes the
target itself for its next sibling. -/
theorem LT.C64_lt_first_right : LT.Consistent LT.sibDB ∧ ⟨2, [[66]], []⟩ ∈ LT.sibDB.rows ∧
    ∃ r, addAll (LT.addSiblingKeep ⟨[]⟩) LT.sibDB ⟨2, [[66]], []⟩ [(.firstSibling, ⟨8, [], []⟩), (.right, ⟨9, [], []⟩)] = .ok r ∧
    LT.forest r.1 none = [8, 1, 9, 2, 3] ∧
    (LT.forest LT.sibDB).putEach none [(.first, 8), (.after 2, 9)] none = [8, 1, 2, 9, 3] :=
  ⟨LT.consistent_iff.2 (LT.inv_of_check (by decide)), by decide, _, rfl, by decide, by decide⟩

/-! Cases that meet the hypotheses of the theorems -/

example : MP.Consistent MP.exCfg MP.exDB := ⟨by decide, by decide, by intro p; cases p <;> decide, by decide, by decide⟩

example : OneSided [.right, .lastSibling, .right] ∧ OneSided [.firstSibling, .lastSibling] := by unfold OneSided; decide

example : NewKeys (MP.Row.pk ∘ Prod.snd) (MP.exDB.rows.map MP.Row.pk) [(Pos.right, ⟨8, [], 0, 0, []⟩), (.lastSibling, ⟨9, [], 0, 0, []⟩)] := by
  unfold NewKeys; decide

example : (addAll (MP.addSiblingKeep MP.exCfg) MP.exDB ⟨2, [49, 49], 2, 0, []⟩
      [(.right, ⟨8, [], 0, 0, []⟩), (.lastSibling, ⟨9, [], 0, 0, []⟩), (.right, ⟨10, [], 0, 0, []⟩)]).toOption.map
      (fun r => (r.2.1.map MP.Row.pk, MP.forest MP.exCfg r.1 (some 1))) = some ([8, 9, 10], [2, 10, 8, 3, 9]) := by decide

example : (addAll (AL.addSiblingKeep AL.exPlain) AL.exDB ⟨2, some 1, 1, []⟩
      [(.right, ⟨8, none, 0, []⟩), (.lastSibling, ⟨9, none, 0, []⟩), (.right, ⟨10, none, 0, []⟩)]).toOption.map
      (fun r => (r.2.1.map AL.Row.pk, AL.forest AL.exPlain r.1 (some 1))) = some ([8, 9, 10], [2, 10, 8, 3, 9]) := by decide

example : (addAll (NS.addSiblingObj ⟨[]⟩) NS.sibDB (⟨5, 1, 8, 9, 2, []⟩, none) [(.right, ⟨8, 0, 0, 0, 0, []⟩), (.right, ⟨9, 0, 0, 0, 0, []⟩)]).toOption.map
      (fun r => (r.2.1.map (NS.Row.pk ∘ Prod.fst), NS.forest r.1 (some 1))) = some ([8, 9], [2, 5, 9, 8, 6]) := by decide

example : (addAll (LT.addSiblingKeep ⟨[]⟩) LT.sibDB ⟨2, [[66]], []⟩ [(.left, ⟨8, [], []⟩), (.right, ⟨9, [], []⟩), (.left, ⟨10, [], []⟩)]).toOption.map
      (fun r => (r.2.1.map LT.Row.pk, LT.forest r.1 none)) = some ([8, 9, 10], [1, 8, 10, 2, 9, 3]) := by decide

end Verif
