/-
LT: `_get_new_path` finds a path between the neighbours.
-/
import Verif.LT.Shift

namespace Verif.LT

variable {db : DB} {rows : List Row}

/-- `before` and `after` are rows with parent path `pre` and every other such row is on one side of the gap. -/
structure Nbrs (rows : List Row) (pre : Path) (before after : Option Row) : Prop where
  b : ∀ b, before = some b → b ∈ rows ∧ b.path.dropLast = pre
  a : ∀ a, after = some a → a ∈ rows ∧ a.path.dropLast = pre
  lt : ∀ b a, before = some b → after = some a → a.path < b.path
  adj : ∀ r ∈ rows, r.path.dropLast = pre →
    (∃ b, before = some b ∧ ¬ r.path < b.path) ∨ (∃ a, after = some a ∧ ¬ a.path < r.path)

/-- the labels below `pre` -/
def sibLabels (db : DB) (pre : Path) : List Label := ((below db pre (pre.length + 1)).map Row.path).map lastLabel

theorem mem_sibLabels (h : PI db.rows) {pre : Path} {l : Label} :
    l ∈ sibLabels db pre ↔ ∃ r ∈ db.rows, r.path = pre ++ [l] := by
  unfold sibLabels
  rw [List.map_map, List.mem_map]
  constructor
  · rintro ⟨r, hr, rfl⟩
    obtain ⟨hr, e⟩ := (mem_below h).1 hr
    exact ⟨r, hr, by rw [← e]; exact path_split h hr⟩
  · rintro ⟨r, hr, e⟩
    exact ⟨r, (mem_below h).2 ⟨hr, by rw [e, List.dropLast_concat]⟩, by simp [e, lastLabel_append]⟩

/-- the row after `_get_new_path` -/
def gRow (moved : Bool) (pre : Path) (before : Option Row) (r : Row) : Row :=
  if moved then shRow pre ((labelOf before).getD []) r else r

/-- What `_get_new_path` leaves behind. -/
structure NewPath (db : DB) (pre : Path) (before after : Option Row) (db' : DB) (l : Label) (moved : Bool) : Prop where
  label : LabelOk l
  rows : db'.rows = db.rows.map (gRow moved pre before)
  gap : moved = true → ∃ b, before = some b
  right : ∀ r ∈ db.rows, r.path.dropLast = pre → (∃ b, before = some b ∧ ¬ r.path < b.path) →
    pre ++ [l] < (gRow moved pre before r).path
  left : ∀ r ∈ db.rows, r.path.dropLast = pre → (∃ a, after = some a ∧ ¬ a.path < r.path) →
    (gRow moved pre before r).path < pre ++ [l]

/-- When nodes are moved right: exactly when no label fits. -/
structure WhenMoved (db : DB) (pre : Path) (before after : Option Row) (db' : DB) (l : Label) (moved : Bool) : Prop where
  gap : moved = true → ∃ b, before = some b ∧ db' = moveRight db b ∧
    generateLabel (sibLabels db pre) (labelOf before) (labelOf after) = .error .invalidLabelConstraints
  still : moved = false → db' = db ∧ generateLabel (sibLabels db pre) (labelOf before) (labelOf after) = .ok l

/-- the result of `_get_new_path` when a label is found -/
theorem getNewPath_found {pre : Path} {before after : Option Row} {moved : Bool} {left : Nat} {l : Label}
    (hb : badOrder (labelOf before) (labelOf after) = false)
    (hg : generateLabel (sibLabels db pre) (labelOf before) (labelOf after) = .ok l) :
    getNewPath db pre before after moved left = .ok (db, pre ++ [l], moved) := by
  have : generatePath pre (labelOf before) (labelOf after) ((below db pre (pre.length + 1)).map Row.path) = .ok (pre ++ [l]) := by
    unfold generatePath
    rw [show ((below db pre (pre.length + 1)).map Row.path).map lastLabel = sibLabels db pre from rfl, hg]
  unfold getNewPath
  rw [hb, this]
  rfl

/-- the result of `_get_new_path` when no label is found: nodes are moved right and it is tried again -/
theorem getNewPath_again {pre : Path} {b b' : Row} {after : Option Row} {moved : Bool} {left : Nat}
    (hb : badOrder (labelOf (some b)) (labelOf after) = false)
    (hg : generateLabel (sibLabels db pre) (labelOf (some b)) (labelOf after) = .error .invalidLabelConstraints)
    (hb' : (moveRight db b).get? b.pk = some b') :
    getNewPath db pre (some b) after moved (left + 1) = getNewPath (moveRight db b) pre (some b') after true left := by
  have : generatePath pre (labelOf (some b)) (labelOf after) ((below db pre (pre.length + 1)).map Row.path) =
      .error .invalidLabelConstraints := by
    unfold generatePath
    rw [show ((below db pre (pre.length + 1)).map Row.path).map lastLabel = sibLabels db pre from rfl, hg]
  conv_lhs => unfold getNewPath
  rw [hb, this]
  simp only [Bool.false_eq_true, if_false, hb']

theorem gRow_false (pre : Path) (before : Option Row) (r : Row) : gRow false pre before r = r := rfl

theorem gRow_true (pre : Path) (b r : Row) : gRow true pre (some b) r = shRow pre (lastLabel b.path) r := rfl

/-- the path of a sibling after moving right -/
theorem shRow_sib (h : PI rows) {pre : Path} {c : Label} {r : Row} (hr : r ∈ rows) (e : r.path.dropLast = pre) :
    (shRow pre c r).path = pre ++ [if lastLabel r.path < c then lastLabel r.path else lastLabel r.path ++ [65]] := by
  have hs := path_split h hr
  rw [e] at hs
  show sh pre c r.path = _
  split
  · rename_i hlt
    rw [sh_kept]
    · exact hs
    · intro l u e'
      rw [hs] at e'
      have := List.append_cancel_left e'
      rw [List.cons.injEq] at this
      rw [← this.1]; exact hlt
  · rename_i hlt
    rw [hs, sh_moved hlt, lastLabel_append]

theorem badOrder_false {b a : Label} (h : ¬ b < a) : badOrder (some b) (some a) = false := by
  unfold badOrder
  rw [Option.getD_some, Option.getD_some, Bool.and_eq_false_iff]
  exact Or.inr (decide_eq_false h)

/-- **A new path is always found**, and it is between the neighbours. -/
theorem getNewPath_spec (h : Inv db.rows) {pre : Path} {before after : Option Row} (hn : Nbrs db.rows pre before after) :
    ∃ db' l moved, getNewPath db pre before after false 2 = .ok (db', pre ++ [l], moved) ∧
      NewPath db pre before after db' l moved ∧ WhenMoved db pre before after db' l moved := by
  -- order of siblings in terms of labels
  have key : ∀ r ∈ db.rows, r.path.dropLast = pre → r.path = pre ++ [lastLabel r.path] := by
    intro r hr e
    conv_lhs => rw [path_split h.inv hr, e]
  have sib : ∀ r ∈ db.rows, ∀ q ∈ db.rows, r.path.dropLast = pre → q.path.dropLast = pre →
      (r.path < q.path ↔ lastLabel r.path < lastLabel q.path) :=
    fun r hr q hq e1 e2 => sib_lt h.inv hr hq (by rw [e1, e2])
  have hbad : badOrder (labelOf before) (labelOf after) = false := by
    cases hb : before with
    | none => simp [labelOf, badOrder, truthy]
    | some b =>
      cases ha : after with
      | none => simp [labelOf, badOrder, truthy]
      | some a =>
        obtain ⟨hb1, hb2⟩ := hn.b b hb
        obtain ⟨ha1, ha2⟩ := hn.a a ha
        have := plt_asymm ((sib a ha1 b hb1 ha2 hb2).1 (hn.lt b a hb ha))
        exact badOrder_false this
  -- a label is found at once
  have found : ∀ l, generateLabel (sibLabels db pre) (labelOf before) (labelOf after) = .ok l →
      ∃ db' l moved, getNewPath db pre before after false 2 = .ok (db', pre ++ [l], moved) ∧
        NewPath db pre before after db' l moved ∧ WhenMoved db pre before after db' l moved := by
    intro l hg
    obtain ⟨h1, h2, h3, h4⟩ := generateLabel_ok hg
    refine ⟨db, l, false, getNewPath_found hbad hg, ⟨h1, ?_, ?_, ?_, ?_⟩, ?_, ?_⟩
    · symm; exact List.map_id' db.rows
    · simp
    · rintro r hr e ⟨b, hb, hrb⟩
      obtain ⟨hb1, hb2⟩ := hn.b b hb
      rw [gRow_false, key r hr e]
      refine (label_lt rfl).2 ?_
      subst hb
      have hlb : l < lastLabel b.path := h4 (truthy_some.2 (lastLabel_ok h hb1).1)
      rw [sib r hr b hb1 e hb2] at hrb
      exact plt_le_trans hlb hrb
    · rintro r hr e ⟨a, ha, hra⟩
      obtain ⟨ha1, ha2⟩ := hn.a a ha
      rw [gRow_false, key r hr e]
      refine (label_lt rfl).2 ?_
      subst ha
      have hla : lastLabel a.path < l := h3 (truthy_some.2 (lastLabel_ok h ha1).1)
      rw [sib a ha1 r hr ha2 e] at hra
      exact plt_of_le_of_lt hra hla
    · simp
    · intro _; exact ⟨rfl, hg⟩
  -- nodes have to be moved right
  have again : ∀ b, before = some b →
      generateLabel (sibLabels db pre) (labelOf before) (labelOf after) = .error .invalidLabelConstraints →
      ∀ l, LabelOk l → ¬ lastLabel b.path < l → (∀ a, after = some a → lastLabel a.path < l) →
      (∀ db1 : DB, (∀ m ∈ sibLabels db1 pre, (∃ m', m = m' ++ [65]) ∨ (∃ a, after = some a ∧ ¬ lastLabel a.path < m)) →
        generateLabel (sibLabels db1 pre) (some (lastLabel b.path ++ [65])) (labelOf after) = .ok l) →
      ∃ db' l moved, getNewPath db pre before after false 2 = .ok (db', pre ++ [l], moved) ∧
        NewPath db pre before after db' l moved ∧ WhenMoved db pre before after db' l moved := by
    intro b hb hg l hl hlb hla hgen
    obtain ⟨hb1, hb2⟩ := hn.b b hb
    subst hb
    have hbp := key b hb1 hb2
    have hrows := moveRight_rows (db := db) hbp
    have h' : Inv (moveRight db b).rows := by rw [hrows]; exact shift_inv h _ _
    have hget : (moveRight db b).get? b.pk = some (shRow pre (lastLabel b.path) b) := by
      rw [get?_eq_some h'.inv, hrows]
      exact ⟨List.mem_map_of_mem hb1, rfl⟩
    have hb'p : (shRow pre (lastLabel b.path) b).path = pre ++ [lastLabel b.path ++ [65]] := by
      rw [shRow_sib h.inv hb1 hb2, if_neg (plt_irrefl _)]
    have hlab : labelOf (some (shRow pre (lastLabel b.path) b)) = some (lastLabel b.path ++ [65]) := by
      show some (lastLabel (shRow pre (lastLabel b.path) b).path) = _
      rw [hb'p, lastLabel_append]
    have hbad' : badOrder (labelOf (some (shRow pre (lastLabel b.path) b))) (labelOf after) = false := by
      rw [hlab]
      cases ha : after with
      | none => simp [labelOf, badOrder, truthy]
      | some a =>
        have h1 := hla a ha
        have : ¬ lastLabel b.path ++ [65] < lastLabel a.path := by
          intro hc
          exact hlb (plt_trans (plt_trans (lt_snoc _ 65) hc) h1)
        exact badOrder_false this
    have hskip : ∀ m ∈ sibLabels (moveRight db b) pre, (∃ m', m = m' ++ [65]) ∨ (∃ a, after = some a ∧ ¬ lastLabel a.path < m) := by
      intro m hm
      obtain ⟨r', hr', e⟩ := (mem_sibLabels h'.inv).1 hm
      rw [hrows] at hr'
      obtain ⟨r, hr, rfl⟩ := List.mem_map.1 hr'
      have hrp : r.path.dropLast = pre := by
        have h1 : pp 1 (sh pre (lastLabel b.path) r.path) = pre := by
          rw [pp_one, show sh pre (lastLabel b.path) r.path = pre ++ [m] from e, List.dropLast_concat]
        rw [sh_pp, pp_one] at h1
        exact sh_inj pre (lastLabel b.path) _ _ (by rw [h1, sh_self])
      rw [shRow_sib h.inv hr hrp] at e
      have e := (List.cons.inj (List.append_cancel_left e)).1
      split at e
      · rename_i hlt
        right
        rcases hn.adj r hr hrp with ⟨b2, hb2', hrb⟩ | ⟨a, ha, hra⟩
        · simp only [Option.some.injEq] at hb2'
          subst hb2'
          rw [sib r hr b hb1 hrp hb2] at hrb
          exact absurd hlt hrb
        · obtain ⟨ha1, ha2⟩ := hn.a a ha
          rw [sib a ha1 r hr ha2 hrp] at hra
          exact ⟨a, ha, by rw [← e]; exact hra⟩
      · exact Or.inl ⟨_, e.symm⟩
    have hg2 := hgen (moveRight db b) hskip
    rw [← hlab] at hg2
    refine ⟨moveRight db b, l, true, ?_, ⟨hl, ?_, ?_, ?_, ?_⟩, ?_, by simp⟩
    · rw [getNewPath_again hbad hg hget, getNewPath_found hbad' hg2]
    · rw [hrows]; rfl
    · intro _; exact ⟨b, rfl⟩
    · rintro r hr e ⟨b2, hb2', hrb⟩
      simp only [Option.some.injEq] at hb2'
      subst hb2'
      rw [sib r hr b hb1 e hb2] at hrb
      rw [gRow_true, shRow_sib h.inv hr e, if_neg hrb]
      exact (label_lt rfl).2 (plt_of_le_of_lt (ple_trans hlb hrb) (lt_snoc _ 65))
    · rintro r hr e ⟨a, ha, hra⟩
      obtain ⟨ha1, ha2⟩ := hn.a a ha
      rw [sib a ha1 r hr ha2 e] at hra
      have hab : lastLabel a.path < lastLabel b.path := (sib a ha1 b hb1 ha2 hb2).1 (hn.lt b a rfl ha)
      rw [gRow_true, shRow_sib h.inv hr e, if_pos (plt_of_le_of_lt hra hab)]
      exact (label_lt rfl).2 (plt_of_le_of_lt hra (hla a ha))
    · intro _; exact ⟨b, rfl, rfl, hg⟩
  cases ha : after with
  | some a =>
    obtain ⟨ha1, ha2⟩ := hn.a a ha
    have hla := lastLabel_ok h ha1
    have hbl : ∀ lb, labelOf before = some lb → ∃ b, before = some b ∧ lb = lastLabel b.path := by
      intro lb e
      obtain ⟨b, hb, e⟩ := Option.map_eq_some_iff.1 e
      exact ⟨b, hb, e.symm⟩
    have hgl := generateLabel_after (skip := sibLabels db pre) (before := labelOf before) (a := lastLabel a.path) hla
      (by
        intro lb e
        obtain ⟨b, hb, rfl⟩ := hbl lb e
        exact lastLabel_ok h (hn.b b hb).1)
      (by
        intro s hs has
        obtain ⟨r, hr, e⟩ := (mem_sibLabels h.inv).1 hs
        have hrp : r.path.dropLast = pre := by rw [e, List.dropLast_concat]
        have hrs : lastLabel r.path = s := by rw [e, lastLabel_append]
        rcases hn.adj r hr hrp with ⟨b, hb, hrb⟩ | ⟨a', ha', hra⟩
        · obtain ⟨hb1, hb2⟩ := hn.b b hb
          rw [sib r hr b hb1 hrp hb2, hrs] at hrb
          exact ⟨lastLabel b.path, by rw [hb]; rfl, hrb⟩
        · rw [ha] at ha'
          simp only [Option.some.injEq] at ha'
          subst ha'
          rw [sib a ha1 r hr ha2 hrp, hrs] at hra
          exact absurd has hra)
    have hlo : labelOf after = some (lastLabel a.path) := by rw [ha]; rfl
    rcases hgl with ⟨lb, hlb, hor, hg⟩ | ⟨_, l, hg⟩
    · obtain ⟨b, hb, rfl⟩ := hbl lb hlb
      obtain ⟨hb1, hb2⟩ := hn.b b hb
      have hab : lastLabel a.path < lastLabel b.path := (sib a ha1 b hb1 ha2 hb2).1 (hn.lt b a hb ha)
      have hbe : lastLabel b.path = lastLabel a.path ++ [48] := hor.resolve_left (fun hc => hc hab)
      rw [← ha]
      rw [← hlo] at hg
      refine again b hb hg (lastLabel a.path ++ [48]) (hbe ▸ lastLabel_ok h hb1) (by rw [hbe]; exact plt_irrefl _) ?_ ?_
      · intro a' ha'
        rw [ha] at ha'
        simp only [Option.some.injEq] at ha'
        subst ha'
        exact lt_snoc _ 48
      · intro db1 hsk
        rw [hlo, hbe, List.append_assoc]
        refine generateLabel_after_prefix hla ?_ (by simp) (by simp) ?_
        · rw [← List.append_assoc, ← hbe]; exact labelOk_snoc (lastLabel_ok h hb1)
        · intro hm
          rcases hsk _ hm with ⟨m', e⟩ | ⟨a', ha', hc⟩
          · have := congrArg List.getLast? e
            simp at this
          · rw [ha] at ha'
            simp only [Option.some.injEq] at ha'
            subst ha'
            exact hc (lt_snoc _ 48)
    · rw [← ha]
      rw [← hlo] at hg
      exact found l hg
  | none =>
    rw [← ha]
    have hlo : labelOf after = none := by rw [ha]; rfl
    cases hb : before with
    | some b =>
      obtain ⟨hb1, hb2⟩ := hn.b b hb
      have hlb := lastLabel_ok h hb1
      have hbo : labelOf before = some (lastLabel b.path) := by rw [hb]; rfl
      rw [← hb]
      rcases generateLabel_before (skip := sibLabels db pre) hlb with ⟨hcase, hg⟩ | ⟨hlt, hne, hg⟩
      · rw [← hlo, ← hbo] at hg
        refine again b hb hg [48] ⟨by simp, by intro c hc; simp at hc; subst hc; decide⟩ (zero_le hlb)
          (by intro a ha'; rw [ha] at ha'; simp at ha') ?_
        intro db1 hsk
        rw [hlo]
        rcases generateLabel_before (skip := sibLabels db1 pre) (labelOk_snoc hlb) with ⟨hc, _⟩ | ⟨_, _, hg⟩
        · exfalso
          rcases hcase with e | e <;> rw [e] at hc <;> simp at hc
        · apply hg
          intro hm
          rcases hsk _ hm with ⟨m', e⟩ | ⟨a', ha', _⟩
          · have := congrArg List.getLast? e
            simp at this
          · rw [ha] at ha'; simp at ha'
      · have hg := hg (by
          intro hm
          obtain ⟨r, hr, e⟩ := (mem_sibLabels h.inv).1 hm
          have hrp : r.path.dropLast = pre := by rw [e, List.dropLast_concat]
          rcases hn.adj r hr hrp with ⟨b', hb', hrb⟩ | ⟨a', ha', _⟩
          · rw [hb] at hb'
            simp only [Option.some.injEq] at hb'
            subst hb'
            rw [sib r hr b hb1 hrp hb2, e, lastLabel_append] at hrb
            exact hrb hlt
          · rw [ha] at ha'; simp at ha')
        rw [← hlo, ← hbo] at hg
        exact found [48] hg
    | none =>
      rw [← hb]
      have hbo : labelOf before = none := by rw [hb]; rfl
      have hnil : sibLabels db pre = [] := by
        refine List.eq_nil_iff_forall_not_mem.2 ?_
        intro l hl
        obtain ⟨r, hr, e⟩ := (mem_sibLabels h.inv).1 hl
        rcases hn.adj r hr (by rw [e, List.dropLast_concat]) with ⟨b', hb', _⟩ | ⟨a', ha', _⟩
        · rw [hb] at hb'; simp at hb'
        · rw [ha] at ha'; simp at ha'
      refine found [65] ?_
      rw [hlo, hbo, hnil]
      exact generateLabel_free

end Verif.LT
