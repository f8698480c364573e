/-
C45: `load_bulk(keep_ids=True)` with missing and with used primary keys.
-/
import Verif.Props.MPDump
import Verif.Props.NSDump
import Verif.Props.ALDump
import Verif.Props.LTDump

namespace Verif

/-! ### Missing keys -/

/-- C45: an item without primary key, at any level, raises KeyError before anything is stored. -/
theorem C45_missing_key (keys : Nat → Nat) {d : Nest Item} (h : ∃ a ∈ d.labels, a.1 = none) (i : Nat) : prepare true keys i d = .error .keyError := by
  induction d generalizing i with
  | nil => obtain ⟨a, ha, _⟩ := h; cases ha
  | cons x c r ih1 ih2 =>
    obtain ⟨pk, v⟩ := x
    cases pk with
    | none => rfl
    | some k =>
      have hok : ∀ (d : Nest Item) i, (∃ a ∈ d.labels, a.1 = none) ∨ ∃ m j, prepare true keys i d = .ok (m, j) := by
        intro d
        induction d with
        | nil => exact fun i => Or.inr ⟨_, _, rfl⟩
        | cons x c r h1 h2 =>
          obtain ⟨pk, v⟩ := x
          intro i
          cases pk with
          | none => exact Or.inl ⟨(none, v), by simp [Nest.labels], rfl⟩
          | some k =>
            rcases h1 i with ⟨a, ha, e⟩ | ⟨m, j, e⟩
            · exact Or.inl ⟨a, by simp [Nest.labels, ha], e⟩
            · rcases h2 j with ⟨a, ha, e'⟩ | ⟨m', j', e'⟩
              · exact Or.inl ⟨a, by simp [Nest.labels, ha], e'⟩
              · right
                refine ⟨.cons (k, v) m m', j', ?_⟩
                simp only [prepare, itemKey, if_true, e, e']
      obtain ⟨a, ha, hn⟩ := h
      simp only [Nest.labels, List.mem_cons, List.mem_append] at ha
      simp only [prepare, itemKey, if_true]
      rcases ha with rfl | ha | ha
      · cases hn
      · rw [ih1 ⟨a, ha, hn⟩]
      · rcases hok c i with hc | ⟨m, j, e⟩
        · rw [ih1 hc]
        · rw [e]
          simp only
          rw [ih2 ⟨a, ha, hn⟩]

example : prepare true id 0 (.cons (some 1, []) (.cons (none, []) .nil .nil) .nil) = .error .keyError := C45_missing_key id ⟨(none, []), by decide, rfl⟩ 0

/-! ### Used keys: `save()` updates the row with the key

The model classes of the examples have an automatic primary key; with a key that has a default, Django's `save()` of a new object inserts only. -/

/-- **C45 fails for MP**: the stored node with the key is overwritten, and its children lose their parent. -/
theorem C45_mp_overwrites : ∃ db', MP.Consistent MP.exCfg MP.exDB ∧ 1 ∈ MP.exDB.rows.map MP.Row.pk ∧
    MP.load MP.exCfg MP.exDB none (.cons (1, [some 7]) .nil .nil) = .ok (db', [1]) ∧ db'.rows.length = MP.exDB.rows.length ∧ ¬ MP.Consistent MP.exCfg db' := by
  refine ⟨⟨[⟨4, [49, 51, 49], 3, 0, []⟩, ⟨1, [52], 1, 0, [some 7]⟩, ⟨5, [51], 1, 0, []⟩, ⟨2, [49, 49], 2, 0, []⟩, ⟨3, [49, 51], 2, 1, []⟩], []⟩,
    MP.exDB_consistent, by decide, ?_, by decide, ?_⟩
  · rw [MP.load, loadBulk_eq]; decide
  · intro h
    exact absurd (h.problems .orphan) (by decide)

/-- **C45 fails for NS**: the stored node with the key is overwritten, and its children lose their parent. -/
theorem C45_ns_overwrites : ∃ db', NS.Consistent NS.exDB ∧ 1 ∈ NS.exDB.rows.map NS.Row.pk ∧
    NS.load ⟨[]⟩ NS.exDB none (.cons (1, [some 7]) .nil .nil) = .ok (db', [1]) ∧ db'.rows.length = NS.exDB.rows.length ∧ ¬ NS.Consistent db' := by
  refine ⟨⟨[⟨4, 1, 5, 6, 3, []⟩, ⟨1, 3, 1, 2, 1, [some 7]⟩, ⟨5, 2, 1, 2, 1, []⟩, ⟨2, 1, 2, 3, 2, []⟩, ⟨3, 1, 4, 7, 2, []⟩], []⟩,
    NS.exDB_inv, by decide, ?_, by decide, ?_⟩
  · rw [NS.load, loadBulk_eq]; decide
  · intro h
    exact absurd (h.depth ⟨2, 1, 2, 3, 2, []⟩ (by decide)) (by decide)

/-- **C45 fails for LT**: the stored node with the key is overwritten, and its children lose their parent. -/
theorem C45_lt_overwrites : ∃ db', LT.Consistent LT.exDB ∧ 1 ∈ LT.exDB.rows.map LT.Row.pk ∧
    LT.load ⟨[]⟩ LT.exDB none (.cons (1, [some 7]) .nil .nil) = .ok (db', [1]) ∧ db'.rows.length = LT.exDB.rows.length ∧ ¬ LT.Consistent db' := by
  refine ⟨⟨[⟨5, [[66]], []⟩, ⟨1, [[67]], [some 7]⟩, ⟨2, [[65], [65]], []⟩, ⟨3, [[65], [66]], []⟩, ⟨4, [[65], [66], [65]], []⟩], []⟩,
    LT.consistent_iff.2 LT.exDB_inv, by decide, ?_, by decide, ?_⟩
  · rw [LT.load, loadBulk_eq]; decide
  · intro h
    obtain ⟨q, hq, l, e⟩ := h.parents ⟨2, [[65], [65]], []⟩ (by decide) (by decide)
    simp only [List.mem_cons, List.not_mem_nil, or_false] at hq
    rcases hq with rfl | rfl | rfl | rfl | rfl <;> simp at e

/-- the row 1 has become a child of the row 4, its own descendant -/
def exCycle : AL.DB := ⟨[⟨1, some 4, 1, [some 7]⟩, ⟨3, some 1, 4, []⟩, ⟨2, some 1, 1, []⟩, ⟨4, some 3, 1, []⟩, ⟨5, none, 3, []⟩]⟩

/-- **C45 fails for AL**: the stored node with the key is overwritten; loading it below its own descendant makes a cycle. -/
theorem C45_al_overwrites : ∃ db', AL.Consistent AL.exPlain AL.exDB ∧ 1 ∈ AL.exDB.rows.map AL.Row.pk ∧
    AL.load AL.exPlain AL.exDB (some (⟨4, some 3, 1, []⟩, none)) (.cons (1, [some 7]) .nil .nil) = .ok (db', [1]) ∧
    db'.rows.length = AL.exDB.rows.length ∧ ¬ AL.Wf AL.exPlain db' := by
  refine ⟨exCycle, AL.consistent_of_inv rfl AL.exDB_inv, by decide, ?_, by decide, ?_⟩
  · rw [AL.load, loadBulk_eq]; decide
  · intro h
    obtain ⟨n, hn⟩ := h.ends ⟨1, some 4, 1, [some 7]⟩ (by decide)
    have key : ∀ x n, (AL.forest AL.exPlain exCycle).Level x n → x = 5 := by
      intro x n hl
      induction hl with
      | root hx =>
        have e : AL.forest AL.exPlain exCycle none = [5] := by decide
        rw [e] at hx; simpa using hx
      | child _ hx ih =>
        subst ih
        have e : AL.forest AL.exPlain exCycle (some 5) = [] := by decide
        rw [e] at hx; cases hx
    exact absurd (key 1 n hn) (by decide)

/-! ### `bulk_create` -/

namespace MP

variable {cfg : Cfg}

/-- no key is lost -/
def KeepsKeys (db db' : DB) : Prop := ∀ k ∈ db.rows.map Row.pk, k ∈ db'.rows.map Row.pk

theorem KeepsKeys.trans {a b c : DB} (h1 : KeepsKeys a b) (h2 : KeepsKeys b c) : KeepsKeys a c := fun k hk => h2 k (h1 k hk)

theorem keeps_map {db : DB} {f : Row → Row} (hf : ∀ r, (f r).pk = r.pk) {sigs : List Sig} : KeepsKeys db ⟨db.rows.map f, sigs⟩ := by
  intro k hk
  rw [List.map_map]
  simpa [Function.comp, hf] using hk

theorem keeps_save {db db' : DB} {row : Row} (h : save db row = .ok db') : KeepsKeys db db' := by
  unfold save at h
  simp only at h
  split at h
  · split at h
    · injection h with h
      subst h
      refine keeps_map (fun r => ?_)
      by_cases e : (r.pk == row.pk) = true
      · rw [if_pos e]; exact (beq_iff_eq.1 e).symm
      · rw [if_neg e]
    · cases h
  · split at h
    · injection h with h
      subst h
      intro k hk
      simp only [List.map_append, List.mem_append]
      exact Or.inl hk
    · cases h

theorem keeps_setNewpath {db db' : DB} {o n : List Nat} (h : setNewpath cfg db o n = .ok db') : KeepsKeys db db' := by
  unfold setNewpath at h
  simp only at h
  split at h
  · injection h with h
    subst h
    refine keeps_map (fun r => ?_)
    unfold newpathRow
    split <;> rfl
  · cases h

theorem keeps_shiftLoop {ns : List Row} : ∀ {db : DB} {o : Option (List Nat)} {r : DB × Option (List Nat)}, shiftLoop cfg ns db o = .ok r → KeepsKeys db r.1 := by
  induction ns with
  | nil => intro db o r h; injection h with h; subst h; exact fun k hk => hk
  | cons n ns ih =>
    intro db o r h
    unfold shiftLoop at h
    split at h
    · cases h
    · split at h
      · cases h
      · rename_i e
        exact (keeps_setNewpath e).trans (ih h)

/-- additions only (`oldpath` is none) -/
theorem keeps_reorder {db : DB} {pos : Pos} {newpos : Option Int} {newdepth : Nat} {target : Row} {sibs : List Row}
    {r : DB × Option (List Nat) × List Nat} (h : reorder cfg db pos newpos newdepth target sibs none = .ok r) : KeepsKeys db r.1 := by
  unfold reorder at h
  split at h
  · split at h
    · cases h
    · split at h
      · cases h
      · injection h with h; subst h; exact fun k hk => hk
  · split at h
    · cases h
    · split at h
      · cases h
      · simp only at h
        split at h
        · cases h
        · split at h
          · cases h
          · rename_i e
            have hk := keeps_shiftLoop e
            split at h
            · injection h with h; subst h; exact hk
            · split at h
              · cases h
              · rename_i e'
                injection h with h; subst h
                exact hk.trans (keeps_setNewpath e')

theorem keeps_addSibling {db : DB} {t : Row} {pos : Option Pos} {new : Row} {r : DB × Row} (h : addSibling cfg db t pos new = .ok r) :
    KeepsKeys db r.1 := by
  unfold addSibling at h
  split at h
  · cases h
  · split at h
    · cases h
    · split at h
      · cases h
      · rename_i e
        refine (keeps_reorder e).trans ?_
        unfold finishAddSibling at h
        simp only at h
        split at h
        · cases h
        · rename_i e'
          injection h with h; subst h
          refine KeepsKeys.trans ?_ (keeps_save e')
          split
          · refine keeps_map (fun r => ?_)
            split <;> rfl
          · exact fun k hk => hk

theorem keeps_addTo {db : DB} {p : Option Row} {new : Row} {r : DB × Row} (h : addTo cfg db p new = .ok r) : KeepsKeys db r.1 := by
  cases p with
  | none =>
    have h : addRoot cfg db new = .ok r := h
    unfold addRoot at h
    split at h
    · split at h
      · exact keeps_addSibling h
      · split at h
        · cases h
        · simp only at h
          split at h
          · cases h
          · rename_i e
            injection h with h; subst h
            exact keeps_save e
    · split at h
      · cases h
      · simp only at h
        split at h
        · cases h
        · rename_i e
          injection h with h; subst h
          exact keeps_save e
  | some t =>
    unfold addTo at h
    simp only at h
    cases he : addChild cfg db t new with
    | error e => rw [he] at h; cases h
    | ok r' =>
      rw [he] at h
      injection h with h
      subst h
      unfold addChild at he
      split at he
      · cases he
      · split at he
        · split at he
          · cases he
          · split at he
            · cases he
            · rename_i e
              injection he with he; subst he
              exact keeps_addSibling e
        · split at he
          · cases he
          · simp only at he
            split at he
            · cases he
            · rename_i e
              injection he with he; subst he
              refine KeepsKeys.trans ?_ (keeps_save e)
              refine keeps_map (fun r => ?_)
              split <;> rfl

theorem buildChildren_pks {n : Nest (Nat × Vals)} : ∀ {P : List Nat} {d i : Nat} {l : List Row}, buildChildren cfg P d i n = .ok l →
    l.map Row.pk = n.labels.map Prod.fst := by
  induction n with
  | nil => intro P d i l h; injection h with h; subst h; rfl
  | cons a c r ih1 ih2 =>
    intro P d i l h
    obtain ⟨k, v⟩ := a
    unfold buildChildren at h
    split at h
    · cases h
    · split at h
      · cases h
      · rename_i e1
        split at h
        · cases h
        · rename_i e2
          injection h with h; subst h
          simp only [List.map_cons, List.map_append, ih1 e1, ih2 e2, Nest.labels]

/-- the items below the first level -/
def lower : Nest α → List α
  | .nil => []
  | .cons _ c r => c.labels ++ lower r

theorem firstLevel_spec {n : Nest (Nat × Vals)} : ∀ {db : DB} {p : Option Row} {r : DB × List Row × List Nat}, firstLevel cfg db p n = .ok r →
    KeepsKeys db r.1 ∧ r.2.1.map Row.pk = (lower n).map Prod.fst := by
  induction n with
  | nil => intro db p r h; injection h with h; subst h; exact ⟨fun k hk => hk, rfl⟩
  | cons a c rest _ ih =>
    intro db p r h
    obtain ⟨k, v⟩ := a
    unfold firstLevel at h
    split at h
    · cases h
    · rename_i e1
      split at h
      · cases h
      · rename_i e2
        split at h
        · cases h
        · rename_i e3
          injection h with h; subst h
          obtain ⟨h1, h2⟩ := ih e3
          refine ⟨(keeps_addTo e1).trans h1, ?_⟩
          simp only [List.map_append, buildChildren_pks e2, lower]
          rw [h2]

/-- C45 for `load_bulk(bulk_create=True)` (partial: not for the first level, which is added node by node): a used primary key below the first level, or
the same key twice, is never overwritten; the call fails and nothing is stored.  For every table and structure. -/
theorem C45_mp_bulk_create_partial {db : DB} {parent : Option Row} {data : Nest (Nat × Vals)}
    (h : (∃ a ∈ lower data, a.1 ∈ db.rows.map Row.pk) ∨ ¬ ((lower data).map Prod.fst).Nodup) : ∃ e, loadCreate cfg db parent data = .error e := by
  cases he : loadCreate cfg db parent data with
  | error e => exact ⟨e, rfl⟩
  | ok r =>
    exfalso
    unfold loadCreate at he
    split at he
    · cases he
    · rename_i e1
      obtain ⟨h1, h2⟩ := firstLevel_spec e1
      split at he
      · cases he
      · rename_i e2
        unfold bulkCreate at e2
        simp only at e2
        split at e2
        · rename_i hc
          rw [Bool.and_eq_true, decide_eq_true_eq, List.map_append, List.nodup_append] at hc
          obtain ⟨⟨_, hn, hd⟩, _⟩ := hc
          simp only at h2
          rw [h2] at hn hd
          rcases h with ⟨a, ha, hk⟩ | hno
          · exact hd a.1 (h1 a.1 hk) a.1 (List.mem_map_of_mem ha) rfl
          · exact hno hn
        · cases e2

/-- the key 2 is used -/
example : ∃ e, loadCreate exCfg exDB none (.cons (10, []) (.cons (2, []) .nil .nil) .nil) = .error e :=
  C45_mp_bulk_create_partial (Or.inl ⟨(2, []), by decide, by decide⟩)

end MP

end Verif
