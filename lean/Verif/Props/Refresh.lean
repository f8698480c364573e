/-
C98: an object is up to date after `refresh_from_db()`, whatever it has cached.
-/
import Verif.SpecRefresh
import Verif.Props.Cached
import Verif.Props.LTTree

namespace Verif

section
variable {ρ : Type}

theorem lookup_filter {α : Type} (p : String → Bool) (n : String) (l : List (String × α)) :
    (l.filter (fun e => p e.1)).lookup n = if p n then l.lookup n else none := by
  induction l with
  | nil => simp
  | cons e l ih =>
    obtain ⟨a, v⟩ := e
    by_cases ha : n = a
    · subst ha
      cases hp : p n with
      | true => simp [hp]
      | false => simp only [List.filter_cons, hp, Bool.false_eq_true, if_false, ih]
    · have hb : (n == a) = false := by simpa using ha
      cases hp : p a with
      | true =>
        simp only [List.filter_cons, hp, if_true, List.lookup_cons, hb, ih]
      | false =>
        simp only [List.filter_cons, hp, Bool.false_eq_true, if_false, List.lookup_cons, hb, ih]

theorem delattr_filter (n : String) (attrs : List (String × PyVal ρ)) (h : delattr n attrs = .error e) : attrs = attrs.filter (fun e => e.1 != n) := by
  unfold delattr at h
  split at h
  · cases h
  · rename_i hn
    refine (List.filter_eq_self.2 ?_).symm
    intro e he
    simp only [List.any_eq_true, not_exists, not_and] at hn
    have := hn e he
    simpa using this

theorem clearCached_cons (n : String) (names : List String) (o : PyObj ρ) :
    clearCached (n :: names) o = clearCached names { o with attrs := o.attrs.filter (fun e => e.1 != n) } := by
  cases h : delattr n o.attrs with
  | error e =>
    simp only [clearCached, h]
    rw [← delattr_filter n o.attrs h]
  | ok l =>
    simp only [clearCached, h]
    unfold delattr at h
    split at h
    · cases h; rfl
    · cases h

theorem clearCached_spec : ∀ (names : List String) (o : PyObj ρ), (clearCached names o).row = o.row ∧ (clearCached names o).rels = o.rels ∧
    ∀ n, (clearCached names o).attrs.lookup n = if n ∈ names then none else o.attrs.lookup n
  | [], o => ⟨rfl, rfl, fun n => by simp [clearCached]⟩
  | m :: names, o => by
    rw [clearCached_cons]
    obtain ⟨h1, h2, h3⟩ := clearCached_spec names { o with attrs := o.attrs.filter (fun e => e.1 != m) }
    refine ⟨h1, h2, fun n => ?_⟩
    rw [h3, lookup_filter (fun a => a != m)]
    by_cases hm : n = m
    · subst hm; simp
    · by_cases hn : n ∈ names
      · simp [hn]
      · simp [hn, hm]

theorem loadFields_attrs (r : ρ) : ∀ (l : List (Field ρ)) (o : PyObj ρ), (loadFields r l o).attrs = o.attrs
  | [], _ => rfl
  | f :: l, o => by rw [loadFields, loadFields_attrs r l]

theorem loadFields_rels (r : ρ) (n : String) : ∀ (l : List (Field ρ)) (o : PyObj ρ),
    (loadFields r l o).rels.lookup n = if ∃ f ∈ l, f.relation = true ∧ f.name = n then none else o.rels.lookup n
  | [], o => by simp [loadFields]
  | f :: l, o => by
    rw [loadFields, loadFields_rels r n l]
    by_cases hl : ∃ f ∈ l, f.relation = true ∧ f.name = n
    · rw [if_pos hl, if_pos]
      obtain ⟨g, hg, h⟩ := hl
      exact ⟨g, by simp [hg], h⟩
    · rw [if_neg hl]
      have key : (∃ g ∈ f :: l, g.relation = true ∧ g.name = n) ↔ f.relation = true ∧ f.name = n := by
        constructor
        · rintro ⟨g, hg, h⟩
          rcases List.mem_cons.1 hg with rfl | hg
          · exact h
          · exact absurd ⟨g, hg, h⟩ hl
        · exact fun h => ⟨f, by simp, h⟩
      simp only [key]
      cases hf : f.relation with
      | false => simp
      | true =>
        simp only [if_true, true_and]
        rw [lookup_filter (fun a => a != f.name)]
        by_cases hn : f.name = n
        · simp [hn]
        · simp [hn, Ne.symm hn]

/-- a value that the fields copy or leave -/
theorem loadFields_proj {β : Type} {π : ρ → β} {r : ρ} : ∀ {l : List (Field ρ)} {o : PyObj ρ}, (∀ f ∈ l, ∀ x, π (f.copy r x) = π x ∨ π (f.copy r x) = π r) →
    (π o.row = π r ∨ ∃ f ∈ l, ∀ x, π (f.copy r x) = π r) → π (loadFields r l o).row = π r
  | [], o, _, h => by
    rcases h with h | ⟨f, hf, _⟩
    · exact h
    · cases hf
  | f :: l, o, hc, h => by
    rw [loadFields]
    refine loadFields_proj (fun g hg => hc g (by simp [hg])) ?_
    rcases h with h | ⟨g, hg, h⟩
    · rcases hc f (by simp) o.row with h1 | h1
      · exact Or.inl (h1.trans h)
      · exact Or.inl h1
    · rcases List.mem_cons.1 hg with rfl | hg
      · exact Or.inl (h o.row)
      · exact Or.inr ⟨g, hg, h⟩

theorem loadFields_keep {β : Type} {π : ρ → β} {r : ρ} : ∀ {l : List (Field ρ)} {o : PyObj ρ}, (∀ f ∈ l, ∀ x, π (f.copy r x) = π x) → π (loadFields r l o).row = π o.row
  | [], _, _ => rfl
  | f :: l, o, hc => by
    rw [loadFields, loadFields_keep (fun g hg => hc g (by simp [hg]))]
    exact hc f (by simp) _

/-- the fields that are read again -/
def loaded (all : List (Field ρ)) : Option (List String) → List (Field ρ)
  | none => all
  | some l => all.filter (fun f => l.contains f.name)

theorem mem_loaded {all : List (Field ρ)} {fs : Option (List String)} {f : Field ρ} (h : f ∈ loaded all fs) : f ∈ all := by
  cases fs with
  | none => exact h
  | some l => exact List.mem_of_mem_filter h

theorem loaded_of {all : List (Field ρ)} {fs : Option (List String)} {f : Field ρ} (h : f ∈ all) (hn : ∀ l, fs = some l → f.name ∈ l) : f ∈ loaded all fs := by
  cases fs with
  | none => exact h
  | some l => exact List.mem_filter.2 ⟨h, by simpa using hn l rfl⟩

theorem refreshFromDb_eq {names : List String} {all : List (Field ρ)} (r : ρ) (fs : Option (List String)) (o : PyObj ρ) :
    ∃ o', refreshFromDb names all (some r) fs o = .ok o' ∧ o'.row = (loadFields r (loaded all fs) o).row ∧
      (∀ n, o'.attrs.lookup n = if n ∈ names then none else o.attrs.lookup n) ∧
      ∀ n, o'.rels.lookup n = if ∃ f ∈ loaded all fs, f.relation = true ∧ f.name = n then none else o.rels.lookup n := by
  refine ⟨clearCached names (loadFields r (loaded all fs) o), ?_, ?_, ?_, ?_⟩
  · cases fs <;> rfl
  · exact (clearCached_spec _ _).1
  · intro n
    rw [(clearCached_spec _ _).2.2, loadFields_attrs]
  · intro n
    rw [(clearCached_spec _ _).2.1, loadFields_rels]

theorem refreshed_of {names rels : List String} {o o' : PyObj ρ} {r : ρ} {P : String → Prop} [DecidablePred P] (h1 : o'.row = r)
    (h2 : ∀ n, o'.attrs.lookup n = if n ∈ names then none else o.attrs.lookup n) (h3 : ∀ n, o'.rels.lookup n = if P n then none else o.rels.lookup n)
    (hP : ∀ n, P n ↔ n ∈ rels) : Refreshed names rels o o' r := by
  refine ⟨h1, fun n hn => by rw [h2, if_pos hn], fun n hn => by rw [h2, if_neg hn], fun n hn => by rw [h3, if_pos ((hP n).2 hn)], fun n hn => by rw [h3, if_neg (fun h => hn ((hP n).1 h))]⟩

end

namespace MP

variable {cfg : Cfg} {db : DB} {extra : List String}

/-- only the path is read -/
theorem getParentObj_path {x y : Row} (h : x.path = y.path) (cached : Option Row) (update : Bool) : getParentObj cfg db x cached update = getParentObj cfg db y cached update := by
  simp only [getParentObj, getParent, h]

/-- what the object says about its parent is what is stored -/
def ParentRight (cfg : Cfg) (db : DB) (o : PyObj Row) : Prop := ∀ update, ∃ p, (getParentObj cfg db o.row (cachedParent o) update).1 = .ok p ∧
  o.row.pk ∈ forest cfg db (p.map Row.pk) ∧ ∀ q ∈ p, q ∈ db.rows

theorem parentRight_of (hok : cfg.Ok) (h : Consistent cfg db) {o : PyObj Row} {r : Row} (hr : r ∈ db.rows) (hk : o.row.pk = r.pk) (hp : o.row.path = r.path)
    (hc : o.attrs.lookup "_cached_parent_obj" = none) : ParentRight cfg db o := by
  intro update
  have hc : cachedParent o = none := by unfold cachedParent; rw [hc]
  obtain ⟨p, e, hm, _, hst⟩ := C65_mp_partial hok h hr (cached := none) (update := update) (Or.inr (by intro k hk; cases hk))
  exact ⟨p, by rw [hc, getParentObj_path hp]; exact e, by rw [hk]; exact hm, hst (Or.inr rfl)⟩

/-- **C98 for MP** -/
theorem C98_mp (hok : cfg.Ok) (h : Consistent cfg db) {r : Row} (hr : r ∈ db.rows) {o : PyObj Row} (hk : o.row.pk = r.pk) :
    ∃ o', refresh extra db none o = .ok o' ∧ Refreshed ("_cached_parent_obj" :: extra) [] o o' r ∧ ParentRight cfg db o' := by
  have hg : db.get? o.row.pk = some r := (get?_eq_some ((consistent_iff hok).1 h).inv).2 ⟨hr, hk.symm⟩
  unfold refresh
  rw [hg]
  obtain ⟨o', e, h1, h2, h3⟩ := refreshFromDb_eq (names := cachedNames extra) (all := fields) r none o
  have hrow : o'.row = r := by
    rw [h1]
    show { r with pk := o.row.pk } = r
    rw [hk]
  refine ⟨o', e, refreshed_of hrow h2 (P := fun _ => False) (fun n => ?_) (by simp), parentRight_of hok h hr (by rw [hrow]) (by rw [hrow]) (by rw [h2]; simp [cachedNames])⟩
  rw [h3, if_neg]
  · simp
  · rintro ⟨f, hf, h, _⟩
    simp only [loaded, fields, List.mem_cons, List.not_mem_nil, or_false] at hf
    rcases hf with rfl | rfl | rfl | rfl <;> cases h

/-- **C98 for MP, some fields only**: the path is enough for the parent. -/
theorem C98_mp_fields (hok : cfg.Ok) (h : Consistent cfg db) {r : Row} (hr : r ∈ db.rows) {o : PyObj Row} (hk : o.row.pk = r.pk) {fs : List String} (hf : "path" ∈ fs) :
    ∃ o', refresh extra db (some fs) o = .ok o' ∧ ParentRight cfg db o' := by
  have hg : db.get? o.row.pk = some r := (get?_eq_some ((consistent_iff hok).1 h).inv).2 ⟨hr, hk.symm⟩
  unfold refresh
  rw [hg]
  obtain ⟨o', e, h1, h2, _⟩ := refreshFromDb_eq (names := cachedNames extra) (all := fields) r (some fs) o
  refine ⟨o', e, parentRight_of hok h hr ?_ ?_ (by rw [h2]; simp [cachedNames])⟩
  · rw [h1, ← hk]
    refine loadFields_keep (π := Row.pk) (fun f hf x => ?_)
    have := mem_loaded hf
    simp only [fields, List.mem_cons, List.not_mem_nil, or_false] at this
    rcases this with rfl | rfl | rfl | rfl <;> rfl
  · rw [h1]
    refine loadFields_proj (π := Row.path) (fun f hf x => ?_) (Or.inr ⟨_, loaded_of (f := ⟨"path", fun r o => { o with path := r.path }, false⟩) (by simp [fields])
      (fun l e => by cases e; exact hf), fun _ => rfl⟩)
    have := mem_loaded hf
    simp only [fields, List.mem_cons, List.not_mem_nil, or_false] at this
    rcases this with rfl | rfl | rfl | rfl
    · exact Or.inr rfl
    all_goals exact Or.inl rfl

/-- a node that is gone: the object stays as it was -/
theorem C98_mp_missing {o : PyObj Row} (h : ∀ r ∈ db.rows, r.pk ≠ o.row.pk) (fs : Option (List String)) : refresh extra db fs o = .error .doesNotExist := by
  unfold refresh
  rw [get?_eq_none.2 h]
  rfl

end MP

namespace NS

variable {db : DB} {extra : List String}

theorem getParentObj_fields {x y : Row} (h1 : x.tree = y.tree) (h2 : x.lft = y.lft) (h3 : x.rgt = y.rgt) (cached : Option Row) (update : Bool) :
    getParentObj db x cached update = getParentObj db y cached update := by
  obtain ⟨k, t, l, r, d, v⟩ := x
  obtain ⟨k', t', l', r', d', v'⟩ := y
  cases h1
  cases h2
  cases h3
  rfl

/-- what the object says about its parent is what is stored -/
def ParentRight (db : DB) (o : PyObj Row) : Prop := ∀ update, ∃ p, (getParentObj db o.row (cachedParent o) update).1 = .ok p ∧
  o.row.pk ∈ forest db (p.map Row.pk) ∧ ∀ q ∈ p, q ∈ db.rows

theorem parentRight_of (h : Consistent db) {o : PyObj Row} {r : Row} (hr : r ∈ db.rows) (hk : o.row.pk = r.pk) (h1 : o.row.tree = r.tree) (h2 : o.row.lft = r.lft)
    (h3 : o.row.rgt = r.rgt) (hc : o.attrs.lookup "_cached_parent_obj" = none) : ParentRight db o := by
  intro update
  have hc : cachedParent o = none := by unfold cachedParent; rw [hc]
  obtain ⟨p, e, hm, _, hst⟩ := C65_ns_partial h hr (cached := none) (update := update) (Or.inr (by intro k hk; cases hk))
  exact ⟨p, by rw [hc, getParentObj_fields h1 h2 h3]; exact e, by rw [hk]; exact hm, hst (Or.inr rfl)⟩

/-- **C98 for NS** -/
theorem C98_ns (h : Consistent db) {r : Row} (hr : r ∈ db.rows) {o : PyObj Row} (hk : o.row.pk = r.pk) :
    ∃ o', refresh extra db none o = .ok o' ∧ Refreshed ("_cached_parent_obj" :: extra) [] o o' r ∧ ParentRight db o' := by
  have hg : db.get? o.row.pk = some r := (get?_eq_some h.toNI).2 ⟨hr, hk.symm⟩
  unfold refresh
  rw [hg]
  obtain ⟨o', e, h1, h2, h3⟩ := refreshFromDb_eq (names := cachedNames extra) (all := fields) r none o
  have hrow : o'.row = r := by
    rw [h1]
    show { r with pk := o.row.pk } = r
    rw [hk]
  refine ⟨o', e, refreshed_of hrow h2 (P := fun _ => False) (fun n => ?_) (by simp),
    parentRight_of h hr (by rw [hrow]) (by rw [hrow]) (by rw [hrow]) (by rw [hrow]) (by rw [h2]; simp [cachedNames])⟩
  rw [h3, if_neg]
  · simp
  · rintro ⟨f, hf, h, _⟩
    simp only [loaded, fields, List.mem_cons, List.not_mem_nil, or_false] at hf
    rcases hf with rfl | rfl | rfl | rfl | rfl <;> cases h

/-- **C98 for NS, some fields only**: the tree and the numbers are enough for the parent. -/
theorem C98_ns_fields (h : Consistent db) {r : Row} (hr : r ∈ db.rows) {o : PyObj Row} (hk : o.row.pk = r.pk) {fs : List String} (hf1 : "tree_id" ∈ fs)
    (hf2 : "lft" ∈ fs) (hf3 : "rgt" ∈ fs) : ∃ o', refresh extra db (some fs) o = .ok o' ∧ ParentRight db o' := by
  have hg : db.get? o.row.pk = some r := (get?_eq_some h.toNI).2 ⟨hr, hk.symm⟩
  unfold refresh
  rw [hg]
  obtain ⟨o', e, h1, h2, _⟩ := refreshFromDb_eq (names := cachedNames extra) (all := fields) r (some fs) o
  refine ⟨o', e, parentRight_of h hr ?_ ?_ ?_ ?_ (by rw [h2]; simp [cachedNames])⟩
  · rw [h1, ← hk]
    refine loadFields_keep (π := Row.pk) (fun f hf x => ?_)
    have := mem_loaded hf
    simp only [fields, List.mem_cons, List.not_mem_nil, or_false] at this
    rcases this with rfl | rfl | rfl | rfl | rfl <;> rfl
  · rw [h1]
    refine loadFields_proj (π := Row.tree) (fun f hf x => ?_) (Or.inr ⟨_, loaded_of (f := ⟨"tree_id", fun r o => { o with tree := r.tree }, false⟩) (by simp [fields])
      (fun l e => by cases e; exact hf1), fun _ => rfl⟩)
    have := mem_loaded hf
    simp only [fields, List.mem_cons, List.not_mem_nil, or_false] at this
    rcases this with rfl | rfl | rfl | rfl | rfl
    all_goals first | exact Or.inl rfl | exact Or.inr rfl
  · rw [h1]
    refine loadFields_proj (π := Row.lft) (fun f hf x => ?_) (Or.inr ⟨_, loaded_of (f := ⟨"lft", fun r o => { o with lft := r.lft }, false⟩) (by simp [fields])
      (fun l e => by cases e; exact hf2), fun _ => rfl⟩)
    have := mem_loaded hf
    simp only [fields, List.mem_cons, List.not_mem_nil, or_false] at this
    rcases this with rfl | rfl | rfl | rfl | rfl
    all_goals first | exact Or.inl rfl | exact Or.inr rfl
  · rw [h1]
    refine loadFields_proj (π := Row.rgt) (fun f hf x => ?_) (Or.inr ⟨_, loaded_of (f := ⟨"rgt", fun r o => { o with rgt := r.rgt }, false⟩) (by simp [fields])
      (fun l e => by cases e; exact hf3), fun _ => rfl⟩)
    have := mem_loaded hf
    simp only [fields, List.mem_cons, List.not_mem_nil, or_false] at this
    rcases this with rfl | rfl | rfl | rfl | rfl
    all_goals first | exact Or.inl rfl | exact Or.inr rfl

/-- a node that is gone -/
theorem C98_ns_missing {o : PyObj Row} (h : ∀ r ∈ db.rows, r.pk ≠ o.row.pk) (fs : Option (List String)) : refresh extra db fs o = .error .doesNotExist := by
  unfold refresh
  rw [get?_eq_none.2 h]
  rfl

end NS

namespace AL

variable {cfg : Cfg} {db : DB} {extra : List String}

/-- what the object says about the nodes above it is what the tree implies -/
def AboveRight (cfg : Cfg) (db : DB) (o : PyObj Row) : Prop := ∀ proxy,
  (∃ p, getParentObj proxy db o.row (cachedUp o) = .ok p ∧ o.row.pk ∈ forest cfg db (p.map Row.pk)) ∧
  (∃ l up', ancestorsObj proxy db o.row (cachedUp o) = .ok (l, up') ∧ (forest cfg db).Anc o.row.pk (l.map Row.pk) ∧
    (getRootObj proxy db o.row (cachedUp o)).map Row.pk = .ok ((l.map Row.pk ++ [o.row.pk]).headD o.row.pk)) ∧
  ∃ n : Nat, (forest cfg db).Level o.row.pk n ∧ ∀ update, getDepthObj db o.row (cachedUp o) (cachedDepth o) update = .ok n

/-- the queries read the key and the foreign key of the object only -/
theorem obj_congr {a b : Row} (hk : a.pk = b.pk) (hp : a.parent = b.parent) (proxy : Bool) :
    getParentObj proxy db a [] = getParentObj proxy db b [] ∧ ancestorsObj proxy db a [] = ancestorsObj proxy db b [] ∧
    (getRootObj proxy db a []).map Row.pk = (getRootObj proxy db b []).map Row.pk ∧
    ∀ cached update, getDepthObj db a [] cached update = getDepthObj db b [] cached update := by
  have h1 : getParentObj proxy db a [] = getParentObj proxy db b [] := by
    unfold getParentObj parentObj
    rw [getParent_congr hp]
  have h2 : ancestorsObj proxy db a [] = ancestorsObj proxy db b [] := by
    unfold ancestorsObj ancestors
    rw [ancestorsObjLoop_nil, ancestorsObjLoop_nil, ancestorsLoop_congr hp, ancestorsLoop_congr hp]
  refine ⟨h1, h2, ?_, fun cached update => ?_⟩
  · unfold getRootObj
    rw [h2]
    cases ancestorsObj proxy db b [] with
    | error e => rfl
    | ok l =>
      obtain ⟨l, up⟩ := l
      cases l with
      | nil => exact congrArg Except.ok hk
      | cons x l => rfl
  · unfold getDepthObj
    rw [depthObjLoop_nil, depthObjLoop_nil, depthLoop_congr hp, hp]

/-- **C98 for AL** -/
theorem C98_al (h : Wf cfg db) {r : Row} (hr : r ∈ db.rows) {o : PyObj Row} (hk : o.row.pk = r.pk) :
    ∃ o', refresh extra db none o = .ok o' ∧ Refreshed ("_cached_depth" :: extra) ["parent"] o o' r ∧ AboveRight cfg db o' := by
  have hg : db.get? o.row.pk = some r := (get?_eq_some h.ai).2 ⟨hr, hk.symm⟩
  unfold refresh
  rw [hg]
  obtain ⟨o', e, h1, h2, h3⟩ := refreshFromDb_eq (names := cachedNames extra) (all := fields) r none o
  have hrow : o'.row = r := by
    rw [h1]
    show { r with pk := o.row.pk } = r
    rw [hk]
  have hrel : ∀ n, o'.rels.lookup n = if n = "parent" then none else o.rels.lookup n := by
    intro n
    rw [h3]
    by_cases hn : n = "parent"
    · subst hn
      rw [if_pos rfl, if_pos]
      exact ⟨⟨"parent", fun r o => { o with parent := r.parent }, true⟩, by simp [loaded, fields], rfl, rfl⟩
    · rw [if_neg hn, if_neg]
      rintro ⟨f, hf, h, h'⟩
      simp only [loaded, fields, List.mem_cons, List.not_mem_nil, or_false] at hf
      rcases hf with rfl | rfl | rfl
      · exact hn h'.symm
      · cases h
      · cases h
  refine ⟨o', e, refreshed_of hrow h2 (P := fun n => n = "parent") hrel (by simp), ?_⟩
  have hup : cachedUp o' = [] := by unfold cachedUp; rw [hrel, if_pos rfl]; rfl
  have hdep : cachedDepth o' = none := by unfold cachedDepth; rw [h2, if_pos (by simp [cachedNames])]
  intro proxy
  obtain ⟨a, ⟨l, up', b1, b2, b3, _⟩, n, c1, c2⟩ := C65_al_partial h hr (up := []) trivial proxy
  rw [hrow, hup, hdep]
  exact ⟨a, ⟨l, up', b1, b2, b3⟩, n, c1, fun update => c2 none update (Or.inr (Or.inl rfl))⟩

/-- **C98 for AL, some fields only**: the foreign key is enough, since loading it drops the cached parent. -/
theorem C98_al_fields (h : Wf cfg db) {r : Row} (hr : r ∈ db.rows) {o : PyObj Row} (hk : o.row.pk = r.pk) {fs : List String} (hf1 : "parent" ∈ fs) :
    ∃ o', refresh extra db (some fs) o = .ok o' ∧ AboveRight cfg db o' := by
  have hg : db.get? o.row.pk = some r := (get?_eq_some h.ai).2 ⟨hr, hk.symm⟩
  unfold refresh
  rw [hg]
  obtain ⟨o', e, h1, h2, h3⟩ := refreshFromDb_eq (names := cachedNames extra) (all := fields) r (some fs) o
  have hpf : (⟨"parent", fun r o => { o with parent := r.parent }, true⟩ : Field Row) ∈ loaded fields (some fs) :=
    loaded_of (by simp [fields]) (fun l e => by cases e; exact hf1)
  have hpk : o'.row.pk = r.pk := by
    rw [h1, ← hk]
    refine loadFields_keep (π := Row.pk) (fun f hf x => ?_)
    have := mem_loaded hf
    simp only [fields, List.mem_cons, List.not_mem_nil, or_false] at this
    rcases this with rfl | rfl | rfl <;> rfl
  have hpar : o'.row.parent = r.parent := by
    rw [h1]
    refine loadFields_proj (π := Row.parent) (fun f hf x => ?_) (Or.inr ⟨_, hpf, fun _ => rfl⟩)
    have := mem_loaded hf
    simp only [fields, List.mem_cons, List.not_mem_nil, or_false] at this
    rcases this with rfl | rfl | rfl
    all_goals first | exact Or.inl rfl | exact Or.inr rfl
  refine ⟨o', e, ?_⟩
  have hup : cachedUp o' = [] := by
    unfold cachedUp
    rw [h3, if_pos ⟨_, hpf, rfl, rfl⟩]
    rfl
  have hdep : cachedDepth o' = none := by unfold cachedDepth; rw [h2, if_pos (by simp [cachedNames])]
  intro proxy
  obtain ⟨a, ⟨l, up', b1, b2, b3, _⟩, n, c1, c2⟩ := C65_al_partial h hr (up := []) trivial proxy
  obtain ⟨ca, cb, cc, cd⟩ := obj_congr (db := db) hpk hpar proxy
  rw [hup, hdep, ca, cb, cc, hpk]
  exact ⟨a, ⟨l, up', b1, b2, b3⟩, n, c1, fun update => by rw [cd]; exact c2 none update (Or.inr (Or.inl rfl))⟩

/-- **With some fields only it fails**: the parent that the foreign key has cached stays, if `parent` is not among them.  The object of node 4 has cached its ancestors, then node 3
above it becomes a root; `refresh_from_db(fields=["data"])` drops the cached depth, and yet the depth that is found then is the old one. -/
theorem C98_al_fails : ∃ (db : DB) (o o' : PyObj Row), Wf exPlain db ∧ o.row ∈ db.rows ∧ refresh [] db (some ["data"]) o = .ok o' ∧ cachedDepth o' = none ∧
    (forest exPlain db).Level 4 2 ∧ o'.row.pk = 4 ∧ getDepthObj db o'.row (cachedUp o') (cachedDepth o') true = .ok 3 := by
  refine ⟨⟨[⟨1, none, 2, []⟩, ⟨3, none, 4, []⟩, ⟨2, some 1, 1, []⟩, ⟨4, some 3, 1, []⟩, ⟨5, none, 3, []⟩]⟩,
    ⟨⟨4, some 3, 1, []⟩, [("_cached_depth", .int 3)], [("parent", [⟨3, some 1, 4, []⟩, ⟨1, none, 2, []⟩])]⟩, _,
    wf_of_ai (cfg := exPlain) (ai_example (fun k => if k = 3 then 0 else k) (by decide) (by decide)), by decide, rfl, by decide, ?_, rfl, by decide⟩
  exact .child (p := 3) (.root (by decide)) (by decide)

/-- a node that is gone -/
theorem C98_al_missing {o : PyObj Row} (h : ∀ r ∈ db.rows, r.pk ≠ o.row.pk) (fs : Option (List String)) : refresh extra db fs o = .error .doesNotExist := by
  unfold refresh
  rw [get?_eq_none.2 h]
  rfl

end AL

namespace LT

variable {db : DB} {extra : List String}

/-- **C98 for LT**, which caches nothing itself -/
theorem C98_lt (h : Consistent db) {r : Row} (hr : r ∈ db.rows) {o : PyObj Row} (hk : o.row.pk = r.pk) :
    ∃ o', refresh extra db none o = .ok o' ∧ Refreshed extra [] o o' r := by
  have hg : db.get? o.row.pk = some r := (get?_eq_some (consistent_iff.1 h).inv).2 ⟨hr, hk.symm⟩
  unfold refresh
  rw [hg]
  obtain ⟨o', e, h1, h2, h3⟩ := refreshFromDb_eq (names := cachedNames extra) (all := fields) r none o
  have hrow : o'.row = r := by
    rw [h1]
    show { r with pk := o.row.pk } = r
    rw [hk]
  refine ⟨o', e, refreshed_of hrow h2 (P := fun _ => False) (fun n => ?_) (by simp)⟩
  rw [h3, if_neg]
  · simp
  · rintro ⟨f, hf, h, _⟩
    simp only [loaded, fields, List.mem_cons, List.not_mem_nil, or_false] at hf
    rcases hf with rfl | rfl <;> cases h

/-- a node that is gone -/
theorem C98_lt_missing {o : PyObj Row} (h : ∀ r ∈ db.rows, r.pk ≠ o.row.pk) (fs : Option (List String)) : refresh extra db fs o = .error .doesNotExist := by
  unfold refresh
  rw [get?_eq_none.2 h]
  rfl

end LT

/-! ### Examples -/

/-- an object of node 4 with the path and the parent that it had elsewhere, and an attribute of the author's -/
example : MP.refresh [] MP.exDB none ⟨⟨4, [51, 49], 2, 0, [some 1]⟩, [("colour", .other "red"), ("_cached_parent_obj", .obj ⟨5, [51], 1, 1, []⟩)], []⟩ =
    .ok ⟨⟨4, [49, 51, 49], 3, 0, []⟩, [("colour", .other "red")], []⟩ := by decide

/-- Without the path the parent is that of the old path. -/
theorem MP.C98_mp_fails : ∃ o o' : PyObj MP.Row, MP.refresh [] MP.exDB (some ["depth", "numchild", "data"]) o = .ok o' ∧ o'.row.pk = 4 ∧ 4 ∈ MP.forest MP.exCfg MP.exDB (some 3) ∧
    ((MP.getParentObj MP.exCfg MP.exDB o'.row (MP.cachedParent o') true).1.map (fun p => p.map MP.Row.pk)) = .ok (some 5) :=
  ⟨⟨⟨4, [51, 49], 2, 0, []⟩, [], []⟩, _, rfl, rfl, by decide, by decide⟩

/-- NS: the same -/
example : NS.refresh [] NS.exDB none ⟨⟨4, 2, 2, 3, 2, []⟩, [("_cached_parent_obj", .obj ⟨5, 2, 1, 4, 1, []⟩)], []⟩ = .ok ⟨⟨4, 1, 5, 6, 3, []⟩, [], []⟩ := by decide

/-- AL: the cached parent and the cached depth are dropped -/
example : AL.refresh ["_x"] AL.exDB none ⟨⟨4, some 5, 1, []⟩, [("_cached_depth", .int 2), ("_x", .int 0)], [("parent", [⟨5, none, 3, []⟩]), ("owner", [])]⟩ =
    .ok ⟨⟨4, some 3, 1, []⟩, [], [("owner", [])]⟩ := by decide

end Verif
