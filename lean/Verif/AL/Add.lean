/-
AL: additions.
-/
import Verif.AL.Place
import Verif.PosLemmas
import Verif.SpecHistory

namespace Verif.AL

variable {cfg : Cfg} {db : DB} {rows : List Row}

/-! ### Saving -/

theorem save_new {row : Row} (hf : ∀ r ∈ db.rows, r.pk ≠ row.pk) (hp : ∀ p, row.parent = some p → ∃ q ∈ db.rows, q.pk = p) :
    save db row = .ok ⟨db.rows ++ [row]⟩ := by
  have h1 : db.rows.any (·.pk == row.pk) = false := by
    rw [List.any_eq_false]
    intro r hr
    simpa using hf r hr
  unfold save
  simp only [h1, Bool.false_eq_true, if_false]
  cases e : row.parent with
  | none => rfl
  | some p =>
    simp only
    obtain ⟨q, hq, rfl⟩ := hp p e
    rw [if_pos]
    rw [List.any_eq_true]
    exact ⟨q, List.mem_append_left _ hq, by simp⟩

theorem save_old {row x : Row} (hx : x ∈ db.rows) (hk : x.pk = row.pk) (hp : ∀ p, row.parent = some p → ∃ q ∈ db.rows, q.pk = p) :
    save db row = .ok ⟨db.rows.map (fun r => if r.pk = row.pk then row else r)⟩ := by
  have h1 : db.rows.any (·.pk == row.pk) = true := by
    rw [List.any_eq_true]
    exact ⟨x, hx, by simp [hk]⟩
  unfold save
  simp only [h1, if_true, beq_iff_eq]
  cases e : row.parent with
  | none => rfl
  | some p =>
    simp only
    obtain ⟨q, hq, rfl⟩ := hp p e
    rw [if_pos]
    rw [List.any_eq_true]
    refine ⟨_, List.mem_map_of_mem hq, ?_⟩
    split
    · rename_i e'; simp [e']
    · simp

theorem data_map {g : Row → Row} (hk : ∀ r ∈ rows, (g r).pk = r.pk) (hv : ∀ r ∈ rows, (g r).vals = r.vals) :
    data (rows.map g) = data rows := by
  unfold data
  rw [List.map_map]
  refine List.map_congr_left ?_
  intro r hr
  simp only [Function.comp, hk r hr, hv r hr]

/-! ### Positions -/

theorem le_maxSib {l : List Row} {r : Row} (hr : r ∈ l) : r.sib ≤ maxSib l := by
  unfold maxSib
  cases e : (l.map Row.sib).max? with
  | none => rw [List.max?_eq_none_iff] at e; simp at e; subst e; cases hr
  | some m =>
    rw [List.max?_eq_some_iff] at e
    exact e.2 _ (List.mem_map_of_mem hr)

theorem maxSib_nonneg {l : List Row} (h : ∀ r ∈ l, 1 ≤ r.sib) : 0 ≤ maxSib l := by
  unfold maxSib
  cases e : (l.map Row.sib).max? with
  | none => simp
  | some m =>
    rw [List.max?_eq_some_iff] at e
    obtain ⟨r, hr, rfl⟩ := List.mem_map.1 e.1
    have := h r hr
    simp only [Option.getD_some]; omega

theorem shift_id {p : Option Nat} {o : Int} (h : ∀ r ∈ rows, r.parent = p → r.sib < o) : rows.map (shift p o) = rows := by
  conv_rhs => rw [← List.map_id rows]
  refine List.map_congr_left ?_
  intro r hr
  unfold shift
  rw [if_neg, id]
  rintro ⟨h1, h2⟩
  have := h r hr h1
  omega

/-- making room from the first chosen sibling on is making room from `o` on -/
theorem hole_eq {p : Option Nat} {o : Int} (ho : 1 ≤ o) {sibs : List Row} (hs : ∀ r, r ∈ sibs ↔ r ∈ db.rows ∧ r.parent = p ∧ o ≤ r.sib) :
    (if minSib sibs == 0 then db
      else ⟨db.rows.map (fun r => if r.parent == p && decide (minSib sibs ≤ r.sib) then { r with sib := r.sib + 1 } else r)⟩) =
      (⟨db.rows.map (shift p o)⟩ : DB) := by
  cases e : (sibs.map Row.sib).min? with
  | none =>
    have hm : minSib sibs = 0 := by unfold minSib; rw [e]; rfl
    rw [hm]
    simp only [BEq.rfl, if_true]
    rw [shift_id]
    intro r hr hp
    by_contra hc
    have := (hs r).2 ⟨hr, hp, by omega⟩
    rw [List.min?_eq_none_iff] at e
    simp at e
    subst e
    cases this
  | some m =>
    have hm : minSib sibs = m := by unfold minSib; rw [e]; rfl
    rw [List.min?_eq_some_iff] at e
    obtain ⟨h1, h2⟩ := e
    obtain ⟨r0, hr0, rfl⟩ := List.mem_map.1 h1
    have h3 := (hs r0).1 hr0
    rw [hm, if_neg (by simp; omega)]
    congr 1
    refine List.map_congr_left ?_
    intro r hr
    unfold shift
    simp only [Bool.and_eq_true, beq_iff_eq, decide_eq_true_eq]
    by_cases hp : r.parent = p
    · have : r0.sib ≤ r.sib ↔ o ≤ r.sib := by
        constructor
        · intro _; omega
        · intro hle
          exact h2 _ (List.mem_map_of_mem ((hs r).2 ⟨hr, hp, hle⟩))
      simp only [hp, this, true_and]
    · simp only [hp, false_and]

theorem siblings_getLast (h : AInv cfg db.rows) {t : Row} (ht : t ∈ db.rows) :
    ∃ l, lastSibling cfg db t = some l ∧ l ∈ db.rows ∧ l.parent = t.parent ∧
      ∀ r ∈ db.rows, r.parent = t.parent → r ≠ l → lt cfg r l := by
  unfold lastSibling
  rw [siblings_eq]
  have hs := order_sorted h t.parent
  have hm : t ∈ order cfg (withParent db t.parent) := mem_order.2 (mem_withParent.2 ⟨ht, rfl⟩)
  have hmem : ∀ r, r ∈ order cfg (withParent db t.parent) ↔ r ∈ db.rows ∧ r.parent = t.parent := fun r => by rw [mem_order, mem_withParent]
  generalize order cfg (withParent db t.parent) = L at hs hm hmem
  rcases List.eq_nil_or_concat L with rfl | ⟨L', l, rfl⟩
  · cases hm
  · rw [List.concat_eq_append] at *
    refine ⟨l, by simp, ((hmem l).1 (by simp)).1, ((hmem l).1 (by simp)).2, ?_⟩
    intro r hr hp hne
    have := (hmem r).2 ⟨hr, hp⟩
    rw [List.mem_append, List.mem_singleton] at this
    rw [List.pairwise_append] at hs
    exact hs.2.2 r (this.resolve_right hne) l (by simp)

/-- `_get_new_sibling_order`: room is made for a position that means the place asked for -/
theorem newSibOrder_spec (ho : cfg.ordered = false) (h : AInv cfg db.rows) {t : Row} (ht : t ∈ db.rows) {pos : Pos} (hpos : IsSibPos pos) :
    ∃ o, newSibOrder cfg db pos t = .ok (⟨db.rows.map (shift t.parent o)⟩, o) ∧ 1 ≤ o ∧
      (pos = .right → o = t.sib + 1) ∧ (pos = .left → o = t.sib) ∧
      (pos = .firstSibling → ∀ r ∈ db.rows, r.parent = t.parent → o ≤ r.sib) ∧
      (pos = .lastSibling → ∀ r ∈ db.rows, r.parent = t.parent → r.sib < o) := by
  have hsib := h.sib ho
  obtain ⟨l, el, hl, hlp, hmax⟩ := siblings_getLast h ht
  have hle : ∀ r ∈ db.rows, r.parent = t.parent → r.sib < l.sib + 1 := by
    intro r hr hp
    by_cases e : r = l
    · subst e; omega
    · have := hmax r hr hp e
      rw [lt_plain ho] at this
      omega
  unfold newSibOrder
  by_cases hlast : isLastPos cfg db pos t = true
  · rw [if_pos hlast, el]
    refine ⟨l.sib + 1, by rw [shift_id hle], by have := hsib l hl; omega, ?_, ?_, ?_, fun _ => hle⟩
    · intro e
      subst e
      unfold isLastPos at hlast
      rw [el] at hlast
      simp at hlast
      rw [h.pk_inj hl ht hlast]
    · rintro rfl; simp [isLastPos] at hlast
    · rintro rfl; simp [isLastPos] at hlast
  · rw [if_neg hlast]
    have ht1 := hsib t ht
    rcases hpos with rfl | rfl | rfl | rfl
    · refine ⟨1, ?_, by omega, by simp, by simp, fun _ r hr _ => hsib r hr, by simp⟩
      unfold makeHole
      simp only
      rw [hole_eq (o := 1) (by omega)]
      intro r
      rw [mem_withParent]
      constructor
      · rintro ⟨h1, h2⟩; exact ⟨h1, h2, hsib r h1⟩
      · rintro ⟨h1, h2, _⟩; exact ⟨h1, h2⟩
    · refine ⟨t.sib, ?_, by omega, by simp, by simp, by simp, by simp⟩
      unfold makeHole
      simp only
      rw [hole_eq (o := t.sib) (by omega)]
      intro r
      rw [List.mem_filter, mem_withParent, decide_eq_true_eq, and_assoc]
    · refine ⟨t.sib + 1, ?_, by omega, by simp, by simp, by simp, by simp⟩
      unfold makeHole
      simp only
      rw [hole_eq (o := t.sib + 1) (by omega)]
      intro r
      rw [List.mem_filter, mem_withParent, decide_eq_true_eq, and_assoc]
      rfl
    · simp [isLastPos] at hlast

/-! ### Additions -/

/-- the outcome of an addition -/
structure Added (cfg : Cfg) (db db' : DB) (obj new : Row) (p : Option Nat) (s : Slot) : Prop where
  inv : AInv cfg db'.rows
  forest : PF cfg db'.rows = (PF cfg db.rows).put p s new.pk
  data : data db'.rows = data db.rows ++ [(new.pk, new.vals)]
  obj : obj ∈ db'.rows ∧ obj.pk = new.pk

theorem Added.at (ho : cfg.ordered = false) (h : AInv cfg db.rows) {new obj : Row} (hk : obj.pk = new.pk) (hv : obj.vals = new.vals)
    (hf : ∀ r ∈ db.rows, r.pk ≠ new.pk) (hp : ∀ p, obj.parent = some p → ∃ q ∈ db.rows, q.pk = p) (ho1 : 1 ≤ obj.sib) {s : Slot}
    (hs : SibSlot (· ∈ db.rows) obj.parent obj.sib s) :
    Added cfg db ⟨db.rows.map (shift obj.parent obj.sib) ++ [obj]⟩ obj new obj.parent s := by
  obtain ⟨h1, h2⟩ := add_at ho h (new := obj) (by rw [hk]; exact hf) hp ho1 hs
  refine ⟨h1, by rw [← hk]; exact h2, ?_, by simp, hk⟩
  unfold AL.data
  rw [List.map_append]
  congr 1
  · exact data_map (fun r _ => shift_pk _ _ r) (fun r _ => shift_vals _ _ r)
  · simp [hk, hv]

theorem slot_last {l : List Row} {p : Option Nat} (hl : ∀ r, r ∈ l ↔ r ∈ db.rows ∧ r.parent = p) :
    SibSlot (· ∈ db.rows) p (maxSib l + 1) .last := by
  intro r hr hp
  have := le_maxSib ((hl r).2 ⟨hr, hp⟩)
  omega

theorem addRoot_unsorted (ho : cfg.ordered = false) (h : AInv cfg db.rows) {new : Row} (hf : ∀ r ∈ db.rows, r.pk ≠ new.pk)
    (hn : new.parent = none) : ∃ db' obj, addRoot cfg db new = .ok (db', obj) ∧ Added cfg db db' obj new none .last := by
  have hsl := slot_last (db := db) (p := none) (l := withParent db none) (fun r => mem_withParent)
  have ha := Added.at (new := new) (obj := { new with sib := maxSib (withParent db none) + 1 }) ho h rfl rfl hf (by simp [hn])
    (by
      have := maxSib_nonneg (l := withParent db none) (fun r hr => h.sib ho r (mem_withParent.1 hr).1)
      simp only; omega) (s := .last) (by rw [hn]; exact hsl)
  simp only [hn] at ha
  rw [shift_id (fun r hr hp => hsl r hr hp)] at ha
  refine ⟨_, _, ?_, ha⟩
  unfold addRoot
  simp only [ho, Bool.false_eq_true, if_false, hn]
  rw [save_new]
  · exact hf
  · simp

theorem addChild_unsorted (ho : cfg.ordered = false) (h : AInv cfg db.rows) {t target : Row} (ht : t ∈ db.rows) (hk : target.pk = t.pk)
    {cached : Option Int} {new : Row} (hf : ∀ r ∈ db.rows, r.pk ≠ new.pk) :
    ∃ db' obj c, addChild cfg db target cached new = .ok (db', obj, c) ∧ Added cfg db db' obj new (some t.pk) .last := by
  have hsl := slot_last (db := db) (p := some t.pk) (l := withParent db (some t.pk)) (fun r => mem_withParent)
  have ha := Added.at (new := new) (obj := { new with sib := maxSib (withParent db (some t.pk)) + 1, parent := some t.pk }) ho h rfl rfl hf
    (by intro p e; exact ⟨t, ht, by simpa using e⟩)
    (by
      have := maxSib_nonneg (l := withParent db (some t.pk)) (fun r hr => h.sib ho r (mem_withParent.1 hr).1)
      simp only; omega) (s := .last) hsl
  simp only at ha
  rw [shift_id (fun r hr hp => hsl r hr hp)] at ha
  refine ⟨_, _, cached.map (· + 1), ?_, ha⟩
  unfold addChild
  simp only [ho, Bool.false_eq_true, if_false, hk]
  rw [save_new]
  · exact hf
  · intro p e; exact ⟨t, ht, by simpa using e⟩

theorem addSibling_unsorted (ho : cfg.ordered = false) (h : AInv cfg db.rows) {t : Row} (ht : t ∈ db.rows) {posArg : Option Pos} {pos : Pos}
    (hpos : preparePosForAddSibling false posArg = .ok pos) {new : Row} (hf : ∀ r ∈ db.rows, r.pk ≠ new.pk) :
    ∃ db' obj, addSibling cfg db t posArg new = .ok (db', obj) ∧ Added cfg db db' obj new t.parent (sibAsked t.pk pos) := by
  have hsp := (prepAdd_arg hpos).1
  obtain ⟨o, e, ho1, hr, hl, hfst, hlst⟩ := newSibOrder_spec ho h ht hsp
  have ha := Added.at (new := new) (obj := { new with sib := o, parent := t.parent }) ho h rfl rfl hf
    (by intro p ep; exact h.exist t ht p ep) ho1 (s := sibAsked t.pk pos) (by
      rcases hsp with rfl | rfl | rfl | rfl
      · exact fun r hr hp => hfst rfl r hr hp
      · exact ⟨t, ht, rfl, rfl, (hl rfl).symm⟩
      · exact ⟨t, ht, rfl, rfl, (hr rfl).symm⟩
      · exact fun r hr hp => hlst rfl r hr hp)
  refine ⟨_, _, ?_, ha⟩
  unfold addSibling addOrder
  rw [ho, hpos]
  simp only [Bool.false_eq_true, if_false]
  rw [e]
  simp only
  rw [save_new]
  · intro r hr
    obtain ⟨r0, h0, rfl⟩ := List.mem_map.1 hr
    rw [shift_pk]; exact hf r0 h0
  · intro p ep
    obtain ⟨q, hq, eq⟩ := h.exist t ht p ep
    exact ⟨_, List.mem_map_of_mem hq, by rw [shift_pk, eq]⟩

end Verif.AL
