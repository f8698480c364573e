/-
LT: the labels that are chosen without bounds (`add_root`, and every addition at the end of sorted siblings) are those of
one or two letters, so there are 702 of them.
-/
import Verif.LT.History

namespace Verif.LT

variable {cfg : Cfg} {db : DB}

/-! ### The labels -/

theorem mem_upper {c : Nat} : c ∈ upper ↔ 65 ≤ c ∧ c ≤ 90 := by
  have h1 : ∀ c ∈ upper, 65 ≤ c ∧ c ≤ 90 := by decide
  have h2 : ∀ d < 91, 65 ≤ d → d ∈ upper := by decide
  exact ⟨h1 c, fun h => h2 c (by omega) h.1⟩

/-- one or two capital letters -/
def ShortLabel (l : Label) : Prop := ∃ c, (65 ≤ c ∧ c ≤ 90) ∧ (l = [c] ∨ ∃ d, (65 ≤ d ∧ d ≤ 90) ∧ l = [c, d])

theorem mem_shortLabels {l : Label} : l ∈ shortLabels ↔ ShortLabel l := by
  unfold shortLabels ShortLabel
  simp only [List.mem_append, List.mem_map, List.mem_flatMap, mem_upper]
  constructor
  · rintro (⟨c, hc, rfl⟩ | ⟨c, hc, d, hd, rfl⟩)
    · exact ⟨c, hc, Or.inl rfl⟩
    · exact ⟨c, hc, Or.inr ⟨d, hd, rfl⟩⟩
  · rintro ⟨c, hc, rfl | ⟨d, hd, rfl⟩⟩
    · exact Or.inl ⟨c, hc, rfl⟩
    · exact Or.inr ⟨c, hc, d, hd, rfl⟩

theorem product_upper : product [upper] = upper.map (fun c => [c]) ∧
    product [upper, upper] = upper.flatMap (fun c => upper.map (fun d => [c, d])) := by decide +kernel

/-- what is found without bounds is short -/
theorem generateLabel_short {skip : List Label} {l : Label} (h : generateLabel skip none none = .ok l) : ShortLabel l ∧ l ∉ skip := by
  have hg : generateLabel skip none none = tryLengths skip none none ([upper] ++ [upper]) [0, 1] := rfl
  rw [hg] at h
  obtain ⟨i, hi, hs⟩ := tryLengths_ok h
  obtain ⟨h1, h2, _⟩ := scan_some hs
  refine ⟨?_, h2⟩
  rw [← mem_shortLabels]
  unfold shortLabels
  rcases List.mem_cons.1 hi with rfl | hi
  · exact List.mem_append_left _ (product_upper.1 ▸ h1)
  · rcases List.mem_cons.1 hi with rfl | hi
    · exact List.mem_append_right _ (product_upper.2 ▸ h1)
    · cases hi

/-- nothing is found if all the short labels are in use -/
theorem generateLabel_all {skip : List Label} (h : ∀ l, ShortLabel l → l ∈ skip) : generateLabel skip none none = .error .valueError := by
  cases e : generateLabel skip none none with
  | ok l =>
    obtain ⟨h1, h2⟩ := generateLabel_short e
    exact absurd (h l h1) h2
  | error er =>
    rcases generateLabel_none (skip := skip) with ⟨l, hl⟩ | ⟨hl, _⟩
    · rw [hl] at e; cases e
    · rw [hl] at e; exact e.symm

/-! ### Groups of siblings with short labels -/

/-- the rows one level below the path `pre` have short labels -/
def ShortAt (rows : List Row) (pre : Path) : Prop := ∀ r ∈ rows, r.path.dropLast = pre → ShortLabel (lastLabel r.path)

/-- all the short labels are in use one level below the path `pre` -/
def UsedAt (rows : List Row) (pre : Path) : Prop := ∀ l, ShortLabel l → ∃ r ∈ rows, r.path = pre ++ [l]

theorem usedAt_iff_full (h : PI db.rows) {pre : Path} (hpar : IsPar db.rows pre) : Full db (at? db.rows pre) ↔ UsedAt db.rows pre := by
  constructor
  · rintro hf l ⟨c, hc, rfl | ⟨d, hd, rfl⟩⟩
    · obtain ⟨⟨r, hr, hm, e⟩, _⟩ := hf c hc.1 hc.2
      refine ⟨r, hr, ?_⟩
      rw [path_split h hr, (par_iff h hpar hr).1 ((mem_forest h hr).1 hm), e]
    · obtain ⟨r, hr, hm, e⟩ := (hf c hc.1 hc.2).2 d hd.1 hd.2
      refine ⟨r, hr, ?_⟩
      rw [path_split h hr, (par_iff h hpar hr).1 ((mem_forest h hr).1 hm), e]
  · intro hu
    refine full_of h hpar (fun c hc => ⟨hu _ ⟨c, mem_upper.1 hc, Or.inl rfl⟩, fun d hd => hu _ ⟨c, mem_upper.1 hc, Or.inr ⟨d, mem_upper.1 hd, rfl⟩⟩⟩)

/-- the siblings one level below `pre` are listed by the forest -/
theorem forest_lists (h : PI db.rows) {pre : Path} (hpar : IsPar db.rows pre) :
    ∃ S, Lists db.rows pre S ∧ forest db (at? db.rows pre) = S.map Row.pk := by
  rcases hpar with rfl | ⟨q, hq, rfl⟩
  · exact ⟨rootNodes db, lists_roots h, by rw [at_nil h]; rfl⟩
  · refine ⟨children db q, lists_children h q, ?_⟩
    rw [at_of h hq]
    show (match db.get? q.pk with | none => [] | some r => (children db r).map Row.pk) = _
    rw [(get?_eq_some h).2 ⟨hq, rfl⟩]

/-- with short labels only, 702 siblings use them all -/
theorem used_of_length (h : PI db.rows) {pre : Path} (hpar : IsPar db.rows pre) (hs : ShortAt db.rows pre)
    (hl : 702 ≤ (forest db (at? db.rows pre)).length) : UsedAt db.rows pre := by
  obtain ⟨S, hS, e⟩ := forest_lists h hpar
  rw [e, List.length_map] at hl
  have hsub : S.map (fun r => lastLabel r.path) ⊆ shortLabels := by
    intro l hm
    obtain ⟨r, hr, rfl⟩ := List.mem_map.1 hm
    obtain ⟨h1, h2⟩ := (hS.mem r).1 hr
    exact mem_shortLabels.2 (hs r h1 h2)
  have hnd : (S.map (fun r => lastLabel r.path)).Nodup := by
    rw [List.nodup_iff_pairwise_ne, List.pairwise_map]
    refine hS.sorted.imp_of_mem ?_
    intro a b ha hb hab e'
    obtain ⟨ha1, ha2⟩ := (hS.mem a).1 ha
    obtain ⟨hb1, hb2⟩ := (hS.mem b).1 hb
    have : a.path = b.path := by rw [path_split h ha1, path_split h hb1, ha2, hb2, e']
    rw [this] at hab
    exact plt_irrefl _ hab
  have hp := (List.subperm_of_subset hnd hsub).perm_of_length_le (by rw [shortLabels_length, List.length_map]; exact hl)
  intro l hl'
  obtain ⟨r, hr, rfl⟩ := List.mem_map.1 (hp.mem_iff.2 (mem_shortLabels.2 hl'))
  obtain ⟨h1, h2⟩ := (hS.mem r).1 hr
  exact ⟨r, h1, by conv_lhs => rw [path_split h h1, h2]⟩

/-! ### Additions without bounds -/

/-- the row was added one level below `pre` with a short label, and no other row changed -/
def AddedShort (db db' : DB) (pre : Path) (new : Row) : Prop :=
  ∃ l, ShortLabel l ∧ db'.rows = db.rows ++ [{ new with path := pre ++ [l] }]

theorem AddedShort.shortAt {db' : DB} {pre : Path} {new : Row} (h : AddedShort db db' pre new) (hs : ShortAt db.rows pre) : ShortAt db'.rows pre := by
  obtain ⟨l, hl, e⟩ := h
  intro r hr hd
  rw [e] at hr
  rcases List.mem_append.1 hr with hr | hr
  · exact hs r hr hd
  · rw [List.mem_singleton] at hr
    subst hr
    simpa [lastLabel_append] using hl

theorem commit_saved {α : Type} {r : Except Err (DB × α)} {q : DB × α} (h : commit r = .ok q) : r = .ok q := by
  unfold commit at h
  split at h
  · cases h
  · split at h
    · exact h
    · cases h

/-- saving a new row at a path found without bounds -/
theorem saved_short {pre : Path} {skip : List Path} {new obj : Row} {db' : DB} (hf : ∀ r ∈ db.rows, r.pk ≠ new.pk)
    (e : (match generatePath pre none none skip with
      | .error e => .error e
      | .ok p => .ok (save db { new with path := p }, { new with path := p })) = Except.ok (ε := Err) (db', obj)) : AddedShort db db' pre new := by
  cases hg : generateLabel (skip.map lastLabel) none none with
  | error er => unfold generatePath at e; rw [hg] at e; cases e
  | ok m =>
    rw [generatePath_of hg] at e
    simp only [Except.ok.injEq, Prod.mk.injEq] at e
    obtain ⟨rfl, _⟩ := e
    exact ⟨m, (generateLabel_short hg).1, by rw [save_new (x := { new with path := pre ++ [m] }) hf]⟩

/-- `add_root` without `node_order_by` -/
theorem addRoot_short (ho : cfg.ordered = false) (h : Inv db.rows) {new : Row} (hf : ∀ r ∈ db.rows, r.pk ≠ new.pk) :
    (∃ db' obj s, addRoot cfg db new = .ok (db', obj) ∧ Added db db' obj new none s True ∧ AddedShort db db' [] new) ∨
    (addRoot cfg db new = .error .valueError ∧ UsedAt db.rows []) := by
  rcases addRoot_unsorted ho h hf with ⟨db', l, s, e, ha, _⟩ | ⟨e, hu⟩
  · refine Or.inl ⟨db', _, s, e, ha, ?_⟩
    unfold addRoot at e
    have e := commit_saved e
    cases hr : lastRootNode db with
    | none => rw [hr] at e; exact saved_short (skip := []) hf e
    | some last =>
      rw [hr] at e
      simp only [ho, Bool.false_eq_true, if_false] at e
      exact saved_short (skip := (rootNodes db).map Row.path) hf e
  · refine Or.inr ⟨e, ?_⟩
    rintro l ⟨c, hc, rfl | ⟨d, hd, rfl⟩⟩
    · exact hu.1 c (mem_upper.2 hc)
    · exact hu.2 c (mem_upper.2 hc) d (mem_upper.2 hd)

/-- nothing can be found if all the labels are used -/
theorem addRoot_used (ho : cfg.ordered = false) (h : Inv db.rows) (hu : UsedAt db.rows []) (new : Row) :
    addRoot cfg db new = .error .valueError := by
  have hS := lists_roots h.inv
  have hall : ∀ l, ShortLabel l → l ∈ ((rootNodes db).map Row.path).map lastLabel := by
    intro l hl
    obtain ⟨r, hr, e⟩ := hu l hl
    rw [List.map_map, List.mem_map]
    refine ⟨r, (hS.mem r).2 ⟨hr, by rw [e]; simp⟩, ?_⟩
    simp [e, lastLabel]
  obtain ⟨r, hr, e⟩ := hu [65] ⟨65, by omega, Or.inl rfl⟩
  cases hl : lastRootNode db with
  | none =>
    unfold lastRootNode at hl
    rw [List.getLast?_eq_none_iff] at hl
    have := (hS.mem r).2 ⟨hr, by rw [e]; simp⟩
    rw [hl] at this; cases this
  | some last =>
    unfold addRoot
    rw [hl]
    simp only [ho, Bool.false_eq_true, if_false]
    unfold generatePath
    rw [generateLabel_all hall]
    rfl

/-- with `node_order_by`, behind all the siblings -/
theorem addSiblingIn_short (ho : cfg.ordered = true) {t new obj : Row} (hf : ∀ r ∈ db.rows, r.pk ≠ new.pk)
    (hn : firstGreater cfg (siblings db t) new = none) {db' : DB} (e : addSiblingIn cfg db t (some .sortedSibling) new = .ok (db', obj)) :
    AddedShort db db' t.path.dropLast new := by
  have hnb : sibNeighbours cfg db t .sortedSibling new = (none, none) := by
    unfold sibNeighbours
    simp only
    rw [show (sortedPosQueryset cfg.orderBy Row.vals (siblings db t) new.vals).head? = none from hn]
  unfold addSiblingIn at e
  rw [ho, show preparePosForAddSibling true (some .sortedSibling) = .ok .sortedSibling from by decide] at e
  simp only [hnb] at e
  cases hg : generateLabel (sibLabels db t.path.dropLast) none none with
  | ok l =>
    rw [getNewPath_found (before := none) (after := none) rfl hg] at e
    simp only [Except.ok.injEq, Prod.mk.injEq] at e
    obtain ⟨rfl, _⟩ := e
    exact ⟨l, (generateLabel_short hg).1, by rw [save_new (x := { new with path := t.path.dropLast ++ [l] }) hf]⟩
  | error er =>
    have her : er = .valueError := by
      rcases generateLabel_none (skip := sibLabels db t.path.dropLast) with ⟨l, hl⟩ | ⟨hl, _⟩
      · rw [hl] at hg; cases hg
      · rw [hl] at hg; cases hg; rfl
    subst her
    unfold getNewPath generatePath at e
    rw [show badOrder (labelOf none) (labelOf none) = false from rfl] at e
    rw [show ((below db t.path.dropLast (t.path.dropLast.length + 1)).map Row.path).map lastLabel = sibLabels db t.path.dropLast from rfl] at e
    rw [show labelOf none = none from rfl, hg] at e
    cases e

theorem addRoot_sorted_short (ho : cfg.ordered = true) (h : Inv db.rows) {new obj : Row} (hf : ∀ r ∈ db.rows, r.pk ≠ new.pk)
    (hn : firstGreater cfg (rootNodes db) new = none) {db' : DB} (e : addRoot cfg db new = .ok (db', obj)) : AddedShort db db' [] new := by
  unfold addRoot at e
  have e := commit_saved e
  cases hr : lastRootNode db with
  | none => rw [hr] at e; exact saved_short (skip := []) hf e
  | some last =>
    rw [hr] at e
    simp only [ho, if_true] at e
    have hl : last ∈ rootNodes db := List.mem_of_getLast? hr
    obtain ⟨hl1, hl2⟩ := ((lists_roots h.inv).mem last).1 hl
    have es : siblings db last = rootNodes db := by
      rw [siblings_eq h.inv hl1, hl2, rootNodes_eq h.inv]; rfl
    have := addSiblingIn_short ho hf (by rw [es]; exact hn) e
    rwa [hl2] at this

theorem addChild_sorted_short (ho : cfg.ordered = true) (h : Inv db.rows) {t new obj : Row} (ht : t ∈ db.rows) (hf : ∀ r ∈ db.rows, r.pk ≠ new.pk)
    (hn : firstGreater cfg (children db t) new = none) {db' : DB} (e : addChild cfg db t new = .ok (db', obj)) : AddedShort db db' t.path new := by
  unfold addChild at e
  rw [(get?_eq_some h.inv).2 ⟨ht, rfl⟩] at e
  have e := commit_saved e
  simp only [ho, true_and] at e
  cases hl : isLeaf db t with
  | true =>
    rw [hl] at e
    simp only [Bool.true_eq_false, if_false] at e
    unfold newChildPath at e
    rw [if_pos hl] at e
    exact saved_short (pre := t.path) (skip := []) hf e
  | false =>
    rw [hl] at e
    simp only [if_true] at e
    cases hlast : lastChild db t with
    | none => rw [hlast] at e; cases e
    | some last =>
      rw [hlast] at e
      have hm : last ∈ children db t := List.mem_of_getLast? hlast
      obtain ⟨hl1, hl2⟩ := ((lists_children h.inv t).mem last).1 hm
      have es : siblings db last = children db t := by
        rw [siblings_eq h.inv hl1, hl2]; rfl
      have := addSiblingIn_short ho hf (by rw [es]; exact hn) e
      rwa [hl2] at this

/-- there is no short label left for a new row -/
theorem AddedShort.not_used {db' : DB} {pre : Path} {new : Row} (h : AddedShort db db' pre new) (hi : Inv db'.rows) : ¬ UsedAt db.rows pre := by
  obtain ⟨l, hl, e⟩ := h
  intro hu
  obtain ⟨r, hr, er⟩ := hu l hl
  have := hi.inv.pathNodup
  rw [e, List.map_append, List.nodup_append] at this
  exact this.2.2 r.path (List.mem_map.2 ⟨r, hr, rfl⟩) (pre ++ [l]) (by simp) er

/-- additions elsewhere: a row below another row -/
theorem addChild_short_rows (ho : cfg.ordered = false) (h : Inv db.rows) {t : Row} (ht : t ∈ db.rows) {new : Row} (hf : ∀ r ∈ db.rows, r.pk ≠ new.pk) :
    ∃ db' obj l, addChild cfg db t new = .ok (db', obj) ∧ Added db db' obj new (some t.pk) .last True ∧
      db'.rows = db.rows ++ [{ new with path := t.path ++ [l] }] := by
  obtain ⟨db', obj, e, ha⟩ := addChild_unsorted ho h ht hf
  obtain ⟨l, hl, _⟩ := newChildPath_spec h t
  refine ⟨db', obj, l, e, ha, ?_⟩
  unfold addChild at e
  rw [(get?_eq_some h.inv).2 ⟨ht, rfl⟩] at e
  have e := commit_saved e
  simp only [ho, Bool.false_eq_true, false_and, if_false] at e
  rw [hl] at e
  simp only [Except.ok.injEq, Prod.mk.injEq] at e
  rw [← e.1, save_new (x := { new with path := t.path ++ [l] }) hf]

end Verif.LT
