/-
LT: additions.
-/
import Verif.LT.Place
import Verif.PosLemmas
import Verif.SpecHistory
import Verif.Sorted

namespace Verif.LT

set_option linter.unusedSectionVars false

variable {cfg : Cfg} {db db' : DB} {rows : List Row} {pre : Path} {before after : Option Row} {l : Label} {moved : Bool}

/-- the stored data -/
def data (rows : List Row) : List (Nat × Vals) := rows.map (fun r => (r.pk, r.vals))

/-! ### Neighbours -/

/-- `S` lists the rows with parent path `pre` in the order of their paths -/
structure Lists (rows : List Row) (pre : Path) (S : List Row) : Prop where
  sorted : S.Pairwise (fun a b => a.path < b.path)
  mem : ∀ r, r ∈ S ↔ r ∈ rows ∧ r.path.dropLast = pre

theorem lists_siblings (h : PI db.rows) {t : Row} (ht : t ∈ db.rows) : Lists db.rows t.path.dropLast (siblings db t) :=
  ⟨below_sorted h _ _, fun _ => mem_siblings h ht⟩

theorem lists_children (h : PI db.rows) (t : Row) : Lists db.rows t.path (children db t) :=
  ⟨below_sorted h _ _, fun _ => mem_children h⟩

theorem lists_roots (h : PI db.rows) : Lists db.rows [] (rootNodes db) :=
  ⟨by rw [rootNodes_eq h]; exact below_sorted h _ _, fun _ => mem_rootNodes h⟩

theorem nbrs_first {S : List Row} (hS : Lists rows pre S) : Nbrs rows pre S.head? none := by
  refine ⟨?_, by simp, by simp, ?_⟩
  · intro b hb
    exact (hS.mem b).1 (head?_min hS.sorted hb).1
  · intro r hr e
    left
    have hm := (hS.mem r).2 ⟨hr, e⟩
    cases hb : S.head? with
    | none => rw [List.head?_eq_none_iff] at hb; subst hb; cases hm
    | some b => exact ⟨b, rfl, (head?_min hS.sorted hb).2 r hm⟩

theorem nbrs_last {S : List Row} (hS : Lists rows pre S) : Nbrs rows pre none S.getLast? := by
  refine ⟨by simp, ?_, by simp, ?_⟩
  · intro b hb
    exact (hS.mem b).1 (getLast?_max hS.sorted hb).1
  · intro r hr e
    right
    have hm := (hS.mem r).2 ⟨hr, e⟩
    cases hb : S.getLast? with
    | none => rw [List.getLast?_eq_none_iff] at hb; subst hb; cases hm
    | some b => exact ⟨b, rfl, (getLast?_max hS.sorted hb).2 r hm⟩

theorem nbrs_left {S : List Row} (hS : Lists rows pre S) {t : Row} (ht : t ∈ S) :
    Nbrs rows pre (some t) (S.filter (fun r => decide (r.path < t.path))).getLast? := by
  have hs := hS.sorted.filter (fun r => decide (r.path < t.path))
  refine ⟨?_, ?_, ?_, ?_⟩
  · intro b hb
    simp only [Option.some.injEq] at hb
    subst hb; exact (hS.mem t).1 ht
  · intro a ha
    exact (hS.mem a).1 (List.mem_filter.1 (getLast?_max hs ha).1).1
  · intro b a hb ha
    simp only [Option.some.injEq] at hb
    subst hb
    exact of_decide_eq_true (List.mem_filter.1 (getLast?_max hs ha).1).2
  · intro r hr e
    have hm := (hS.mem r).2 ⟨hr, e⟩
    by_cases hlt : r.path < t.path
    · right
      have hm' : r ∈ S.filter (fun r => decide (r.path < t.path)) := List.mem_filter.2 ⟨hm, decide_eq_true hlt⟩
      cases hb : (S.filter (fun r => decide (r.path < t.path))).getLast? with
      | none => rw [List.getLast?_eq_none_iff] at hb; rw [hb] at hm'; cases hm'
      | some b => exact ⟨b, rfl, (getLast?_max hs hb).2 r hm'⟩
    · exact Or.inl ⟨t, rfl, hlt⟩

theorem nbrs_right {S : List Row} (hS : Lists rows pre S) {t : Row} (ht : t ∈ S) :
    Nbrs rows pre (S.filter (fun r => decide (t.path < r.path))).head? (some t) := by
  have hs := hS.sorted.filter (fun r => decide (t.path < r.path))
  refine ⟨?_, ?_, ?_, ?_⟩
  · intro a ha
    exact (hS.mem a).1 (List.mem_filter.1 (head?_min hs ha).1).1
  · intro b hb
    simp only [Option.some.injEq] at hb
    subst hb; exact (hS.mem t).1 ht
  · intro b a hb ha
    simp only [Option.some.injEq] at ha
    subst ha
    exact of_decide_eq_true (List.mem_filter.1 (head?_min hs hb).1).2
  · intro r hr e
    have hm := (hS.mem r).2 ⟨hr, e⟩
    by_cases hlt : t.path < r.path
    · left
      have hm' : r ∈ S.filter (fun r => decide (t.path < r.path)) := List.mem_filter.2 ⟨hm, decide_eq_true hlt⟩
      cases hb : (S.filter (fun r => decide (t.path < r.path))).head? with
      | none => rw [List.head?_eq_none_iff] at hb; rw [hb] at hm'; cases hm'
      | some b => exact ⟨b, rfl, (head?_min hs hb).2 r hm'⟩
    · exact Or.inr ⟨t, rfl, hlt⟩

/-! ### Slots -/

section slots

variable {R : Row → Prop} (hn : Nbrs rows pre before after) (hR : ∀ r, R r → r ∈ rows) (h : PI rows) (hpar : IsPar rows pre)

include hn hR h hpar

theorem slot_first (ha : after = none) :
    GapSlot R Row.pk (par rows) (fun a b => a.path < b.path) (LeftOf after) (at? rows pre) .first := by
  rintro r hr e ⟨a, ha', _⟩
  rw [ha] at ha'; cases ha'

theorem slot_last (hb : before = none) :
    GapSlot R Row.pk (par rows) (fun a b => a.path < b.path) (LeftOf after) (at? rows pre) .last := by
  intro r hr e
  have hd := (par_iff h hpar (hR r hr)).1 e
  rcases hn.adj r (hR r hr) hd with ⟨b, hb', _⟩ | h1
  · rw [hb] at hb'; cases hb'
  · exact h1

theorem slot_before {b : Row} (hb : before = some b) (hbR : R b) :
    GapSlot R Row.pk (par rows) (fun a b => a.path < b.path) (LeftOf after) (at? rows pre) (.before b.pk) := by
  obtain ⟨hb1, hb2⟩ := hn.b b hb
  refine ⟨b, hbR, rfl, (par_iff h hpar hb1).2 hb2, ?_, ?_⟩
  · intro hl
    exact plt_irrefl _ (hn.not_both hl b hb)
  · intro r hr e hlt
    have hd := (par_iff h hpar (hR r hr)).1 e
    rcases hn.adj r (hR r hr) hd with ⟨b', hb', hc⟩ | h1
    · rw [hb, Option.some.injEq] at hb'
      subst hb'
      exact absurd hlt hc
    · exact h1

theorem slot_after {a : Row} (ha : after = some a) (haR : R a) :
    GapSlot R Row.pk (par rows) (fun a b => a.path < b.path) (LeftOf after) (at? rows pre) (.after a.pk) := by
  obtain ⟨ha1, ha2⟩ := hn.a a ha
  refine ⟨a, haR, rfl, (par_iff h hpar ha1).2 ha2, ⟨a, ha, plt_irrefl _⟩, ?_⟩
  rintro r hr e hlt ⟨a', ha', hc⟩
  rw [ha, Option.some.injEq] at ha'
  subst ha'
  exact hc hlt

end slots

/-! ### Saving -/

/-- A new row at slot `s` below `p`: the other rows keep their parents, those left of the new one their places, and under
`Clean` everything is exactly as asked. -/
structure Added (db db' : DB) (obj new : Row) (p : Option Nat) (s : Slot) (Clean : Prop) : Prop where
  inv : Inv db'.rows
  near : ((PF db.rows).put p s new.pk).UpToRight (PF db'.rows) p new.pk
  exact : Clean → PF db'.rows = (PF db.rows).put p s new.pk
  data : data db'.rows = data db.rows ++ [(new.pk, new.vals)]
  obj : obj ∈ db'.rows ∧ obj.pk = new.pk
  /-- rows that are not below the parent do not change -/
  frame : ∀ t ∈ db.rows, p = some t.pk → ∀ r ∈ db.rows, (∀ l u, r.path ≠ t.path ++ l :: u) → r ∈ db'.rows

theorem save_new {x : Row} (hf : ∀ r ∈ db.rows, r.pk ≠ x.pk) : save db x = { db with rows := db.rows ++ [x] } := by
  have h1 : db.rows.any (·.pk == x.pk) = false := by
    rw [List.any_eq_false]
    intro r hr
    simpa using hf r hr
  unfold save
  rw [h1]
  rfl

theorem commit_ok {α : Type} {a : α} (h : PI db.rows) : commit (.ok (db, a)) = .ok (db, a) := by
  unfold commit uniquePaths
  simp only
  rw [if_pos (decide_eq_true h.pathNodup)]

theorem data_g (rows : List Row) : data (rows.map (gRow moved pre before)) = data rows := by
  unfold data
  rw [List.map_map]
  refine List.map_congr_left ?_
  intro r _
  simp only [Function.comp, gRow_pk, gRow_vals]

theorem added_place (h : Inv db.rows) (hn : Nbrs db.rows pre before after) (hp : NewPath db pre before after db' l moved)
    (hpar : IsPar db.rows pre) {new : Row} (hf : ∀ r ∈ db.rows, r.pk ≠ new.pk) {s : Slot}
    (hs : GapSlot (· ∈ db.rows) Row.pk (par db.rows) (fun a b => a.path < b.path) (LeftOf after) (at? db.rows pre) s) {Clean : Prop}
    (hc : Clean → moved = false ∨ KeepsOrder db.rows pre) :
    Added db (save db' { new with path := pre ++ [l] }) { new with path := pre ++ [l] } new (at? db.rows pre) s Clean := by
  have hf' : ∀ r ∈ db'.rows, r.pk ≠ ({ new with path := pre ++ [l] } : Row).pk := by
    intro r hr
    rw [hp.rows] at hr
    obtain ⟨q, hq, rfl⟩ := List.mem_map.1 hr
    rw [gRow_pk]; exact hf q hq
  have := add_place h hn hp hpar (x := { new with path := pre ++ [l] }) rfl hf hs
  rw [save_new hf']
  refine ⟨this.1, this.2.1, fun c => this.2.2 (hc c), ?_, ⟨?_, rfl⟩, ?_⟩
  · show data (db'.rows ++ [{ new with path := pre ++ [l] }]) = _
    rw [show ∀ a b : List Row, data (a ++ b) = data a ++ data b from fun a b => List.map_append ..]
    rw [hp.rows, data_g]
    rfl
  · simp
  · intro t ht e r hr hno
    obtain ⟨t', ht', e1, e2⟩ := (pkAt_eq_some h.inv).1 e
    have htt := h.inv.pk_inj ht' ht e2
    subst htt
    refine List.mem_append_left _ ?_
    rw [hp.rows]
    refine List.mem_map.2 ⟨r, hr, ?_⟩
    unfold gRow
    split
    · unfold shRow
      rw [sh_kept (fun l u e' => absurd e' (by rw [← e1]; exact hno l u))]
    · rfl

/-- a place chosen without bounds: the new row gets some place among its siblings -/
theorem free_newPath (h : Inv db.rows) {skip : List Label} (hl : generateLabel skip none none = .ok l)
    (hskip : ∀ r ∈ db.rows, r.path.dropLast = pre → lastLabel r.path ∈ skip) :
    ∃ before after, Nbrs db.rows pre before after ∧ NewPath db pre before after db l false ∧
      ((∀ r ∈ db.rows, r.path.dropLast = pre → lastLabel r.path < l) → before = none) := by
  obtain ⟨h1, h2, _⟩ := generateLabel_ok hl
  let S := orderByPath (db.rows.filter (fun r => decide (r.path.dropLast = pre)))
  have hS : Lists db.rows pre S := by
    refine ⟨orderByPath_strict (nodup_filter_paths h.inv.pathNodup _), ?_⟩
    intro r
    rw [mem_orderByPath, List.mem_filter, decide_eq_true_iff]
  have ne : ∀ r ∈ S, lastLabel r.path ≠ l := by
    intro r hr e
    obtain ⟨hr, hd⟩ := (hS.mem r).1 hr
    exact h2 (e ▸ hskip r hr hd)
  have lt_iff : ∀ r ∈ S, (r.path < pre ++ [l] ↔ lastLabel r.path < l) ∧ (pre ++ [l] < r.path ↔ l < lastLabel r.path) := by
    intro r hr
    obtain ⟨hr, hd⟩ := (hS.mem r).1 hr
    have hs := path_split h.inv hr
    rw [hd] at hs
    constructor
    · conv_lhs => rw [hs]
      exact label_lt rfl
    · conv_lhs => rw [hs]
      exact label_lt rfl
  have tri : ∀ r ∈ S, r.path < pre ++ [l] ∨ pre ++ [l] < r.path := by
    intro r hr
    rcases plt_trichotomy (lastLabel r.path) l with h3 | h3 | h3
    · exact Or.inl ((lt_iff r hr).1.2 h3)
    · exact absurd h3 (ne r hr)
    · exact Or.inr ((lt_iff r hr).2.2 h3)
  have hsL := hS.sorted.filter (fun r => decide (r.path < pre ++ [l]))
  have hsR := hS.sorted.filter (fun r => decide (pre ++ [l] < r.path))
  have memL : ∀ r, r ∈ S.filter (fun r => decide (r.path < pre ++ [l])) ↔ r ∈ S ∧ r.path < pre ++ [l] := by
    intro r; rw [List.mem_filter, decide_eq_true_iff]
  have memR : ∀ r, r ∈ S.filter (fun r => decide (pre ++ [l] < r.path)) ↔ r ∈ S ∧ pre ++ [l] < r.path := by
    intro r; rw [List.mem_filter, decide_eq_true_iff]
  have right : ∀ r ∈ S, pre ++ [l] < r.path →
      ∃ b, (S.filter (fun r => decide (pre ++ [l] < r.path))).head? = some b ∧ ¬ r.path < b.path := by
    intro r hr hlt
    have hm := (memR r).2 ⟨hr, hlt⟩
    cases hb : (S.filter (fun r => decide (pre ++ [l] < r.path))).head? with
    | none => rw [List.head?_eq_none_iff] at hb; rw [hb] at hm; cases hm
    | some b => exact ⟨b, rfl, (head?_min hsR hb).2 r hm⟩
  have left : ∀ r ∈ S, r.path < pre ++ [l] →
      ∃ a, (S.filter (fun r => decide (r.path < pre ++ [l]))).getLast? = some a ∧ ¬ a.path < r.path := by
    intro r hr hlt
    have hm := (memL r).2 ⟨hr, hlt⟩
    cases hb : (S.filter (fun r => decide (r.path < pre ++ [l]))).getLast? with
    | none => rw [List.getLast?_eq_none_iff] at hb; rw [hb] at hm; cases hm
    | some b => exact ⟨b, rfl, (getLast?_max hsL hb).2 r hm⟩
  refine ⟨(S.filter (fun r => decide (pre ++ [l] < r.path))).head?, (S.filter (fun r => decide (r.path < pre ++ [l]))).getLast?,
    ⟨?_, ?_, ?_, ?_⟩, ⟨h1, (List.map_id' db.rows).symm, by simp, ?_, ?_⟩, ?_⟩
  · intro b hb
    exact (hS.mem b).1 ((memR b).1 (head?_min hsR hb).1).1
  · intro a ha
    exact (hS.mem a).1 ((memL a).1 (getLast?_max hsL ha).1).1
  · intro b a hb ha
    exact plt_trans ((memL a).1 (getLast?_max hsL ha).1).2 ((memR b).1 (head?_min hsR hb).1).2
  · intro r hr e
    have hm := (hS.mem r).2 ⟨hr, e⟩
    rcases tri r hm with h3 | h3
    · exact Or.inr (left r hm h3)
    · exact Or.inl (right r hm h3)
  · rintro r hr e ⟨b, hb, hc⟩
    rw [gRow_false]
    exact plt_le_trans ((memR b).1 (head?_min hsR hb).1).2 hc
  · rintro r hr e ⟨a, ha, hc⟩
    rw [gRow_false]
    exact plt_of_le_of_lt hc ((memL a).1 (getLast?_max hsL ha).1).2
  · intro hall
    rw [List.head?_eq_none_iff, List.eq_nil_iff_forall_not_mem]
    intro r hr
    obtain ⟨hr, hlt⟩ := (memR r).1 hr
    obtain ⟨hr', hd⟩ := (hS.mem r).1 hr
    exact plt_asymm hlt ((lt_iff r hr).1.2 (hall r hr' hd))

/-- some slot is the gap -/
theorem slot_exists (hn : Nbrs rows pre before after) (h : PI rows) (hpar : IsPar rows pre) :
    ∃ s, GapSlot (· ∈ rows) Row.pk (par rows) (fun a b => a.path < b.path) (LeftOf after) (at? rows pre) s ∧
      (before = none → s = .last) := by
  cases hb : before with
  | none => exact ⟨.last, slot_last hn (fun _ hr => hr) h hpar hb, fun _ => rfl⟩
  | some b =>
    refine ⟨.before b.pk, slot_before hn (fun _ hr => hr) h hpar hb (hn.b b hb).1, ?_⟩
    intro e; cases e

/-- a label found without bounds: a place is always found unless all 702 labels are used -/
theorem free_added (h : Inv db.rows) {skip : List Label} (hl : generateLabel skip none none = .ok l)
    (hskip : ∀ r ∈ db.rows, r.path.dropLast = pre → lastLabel r.path ∈ skip) (hpar : IsPar db.rows pre) {new : Row}
    (hf : ∀ r ∈ db.rows, r.pk ≠ new.pk) :
    ∃ s, Added db (save db { new with path := pre ++ [l] }) { new with path := pre ++ [l] } new (at? db.rows pre) s True ∧
      ((∀ r ∈ db.rows, r.path.dropLast = pre → lastLabel r.path < l) → s = .last) := by
  obtain ⟨b, a, hn, hp, hlast⟩ := free_newPath h hl hskip
  obtain ⟨s, hs, hsl⟩ := slot_exists hn h.inv hpar
  exact ⟨s, added_place h hn hp hpar hf hs (fun _ => Or.inl rfl), fun ha => hsl (hlast ha)⟩

/-! ### `add_sibling` -/

/-- the neighbours for each plain position -/
theorem sibNeighbours_plain (h : PI db.rows) {t : Row} (ht : t ∈ db.rows) {pos : Pos} (hpos : IsSibPos pos) (new : Row) :
    Nbrs db.rows t.path.dropLast (sibNeighbours cfg db t pos new).1 (sibNeighbours cfg db t pos new).2 ∧
    GapSlot (· ∈ db.rows) Row.pk (par db.rows) (fun a b => a.path < b.path) (LeftOf (sibNeighbours cfg db t pos new).2)
      (at? db.rows t.path.dropLast) (sibAsked t.pk pos) ∧
    (pos = .lastSibling → (sibNeighbours cfg db t pos new).1 = none) := by
  have hS := lists_siblings h ht
  have htS : t ∈ siblings db t := (hS.mem t).2 ⟨ht, rfl⟩
  have hpar := IsPar.drop h ht
  rcases hpos with rfl | rfl | rfl | rfl
  · have hn := nbrs_first hS
    exact ⟨hn, slot_first hn (fun _ hr => hr) h hpar rfl, by simp⟩
  · have hn := nbrs_left hS htS
    exact ⟨hn, slot_before hn (fun _ hr => hr) h hpar rfl ht, by simp⟩
  · have hn := nbrs_right hS htS
    exact ⟨hn, slot_after hn (fun _ hr => hr) h hpar rfl ht, by simp⟩
  · have hn := nbrs_last hS
    exact ⟨hn, slot_last hn (fun _ hr => hr) h hpar rfl, fun _ => rfl⟩

theorem addSibling_unsorted (ho : cfg.ordered = false) (h : Inv db.rows) {t : Row} (ht : t ∈ db.rows) {posArg : Option Pos} {pos : Pos}
    (hpos : preparePosForAddSibling false posArg = .ok pos) {new : Row} (hf : ∀ r ∈ db.rows, r.pk ≠ new.pk) :
    ∃ db' obj, addSibling cfg db t posArg new = .ok (db', obj) ∧
      Added db db' obj new (par db.rows t) (sibAsked t.pk pos) (pos = .lastSibling ∨ KeepsOrder db.rows t.path.dropLast) := by
  obtain ⟨hsib, _⟩ := prepAdd_arg hpos
  obtain ⟨hn, hs, hlast⟩ := sibNeighbours_plain (cfg := cfg) h.inv ht hsib new
  obtain ⟨db1, l, moved, hg, hp, hw⟩ := getNewPath_spec h hn
  have hpar := IsPar.drop h.inv ht
  have ha := added_place h hn hp hpar hf hs (Clean := pos = .lastSibling ∨ KeepsOrder db.rows t.path.dropLast) (by
    rintro (e | e)
    · left
      cases moved with
      | false => rfl
      | true =>
        obtain ⟨b, hb⟩ := hp.gap rfl
        rw [hlast e] at hb; cases hb
    · exact Or.inr e)
  rw [← (par_iff h.inv hpar ht).2 rfl] at ha
  refine ⟨_, _, ?_, ha⟩
  unfold addSibling addSiblingIn
  rw [ho, hpos]
  simp only [hg]
  exact commit_ok ha.inv.inv

/-! ### `add_root` and `add_child` without order -/

theorem generatePath_ok {p : Path} {skip : List Path} {b a : Option Label} (h : generatePath p b a skip = .ok pre) :
    ∃ l, generateLabel (skip.map lastLabel) b a = .ok l ∧ pre = p ++ [l] := by
  unfold generatePath at h
  cases hl : generateLabel (skip.map lastLabel) b a with
  | error e => rw [hl] at h; cases h
  | ok l => rw [hl] at h; cases h; exact ⟨l, rfl, rfl⟩

theorem generatePath_of {p : Path} {skip : List Path} {b a : Option Label} (h : generateLabel (skip.map lastLabel) b a = .ok l) :
    generatePath p b a skip = .ok (p ++ [l]) := by
  unfold generatePath
  rw [h]

/-- all labels of one or two letters -/
def AllUsed (db : DB) : Prop := (∀ c ∈ upper, ∃ r ∈ db.rows, r.path = [[c]]) ∧ ∀ c ∈ upper, ∀ d ∈ upper, ∃ r ∈ db.rows, r.path = [[c, d]]

/-- `add_root`: the root gets the first free label. -/
theorem addRoot_unsorted (ho : cfg.ordered = false) (h : Inv db.rows) {new : Row} (hf : ∀ r ∈ db.rows, r.pk ≠ new.pk) :
    (∃ db' l s, addRoot cfg db new = .ok (db', { new with path := [l] }) ∧
      Added db db' { new with path := [l] } new none s True ∧
      ((∀ r ∈ db.rows, r.path.length = 1 → r.path < [l]) → s = .last)) ∨
    (addRoot cfg db new = .error .valueError ∧ AllUsed db) := by
  have hS := lists_roots h.inv
  have key : ∀ l, generateLabel (((rootNodes db).map Row.path).map lastLabel) none none = .ok l →
      ∃ s, Added db (save db { new with path := [l] }) { new with path := [l] } new none s True ∧
        ((∀ r ∈ db.rows, r.path.length = 1 → r.path < [l]) → s = .last) := by
    intro l hl
    obtain ⟨s, h1, h2⟩ := free_added (pre := []) h hl (by
      intro r hr hd
      rw [List.map_map, List.mem_map]
      exact ⟨r, (hS.mem r).2 ⟨hr, hd⟩, rfl⟩) (Or.inl rfl) hf
    rw [at_nil h.inv] at h1
    refine ⟨s, h1, ?_⟩
    intro hall
    apply h2
    intro r hr hd
    have hs := path_split h.inv hr
    rw [hd] at hs
    have hlt := hall r hr (by rw [hs]; rfl)
    rw [hs] at hlt
    exact (label_lt (p := []) rfl).1 hlt
  cases hr : lastRootNode db with
  | none =>
    have hnil : rootNodes db = [] := by
      unfold lastRootNode at hr
      rwa [List.getLast?_eq_none_iff] at hr
    left
    have hg : generateLabel (((rootNodes db).map Row.path).map lastLabel) none none = .ok [65] := by
      rw [hnil]; exact generateLabel_free
    obtain ⟨s, h1, h2⟩ := key _ hg
    refine ⟨_, [65], s, ?_, h1, h2⟩
    unfold addRoot
    rw [hr]
    simp only
    rw [generatePath_of (skip := []) (l := [65]) generateLabel_free]
    exact commit_ok h1.inv.inv
  | some last =>
    rcases generateLabel_none (skip := ((rootNodes db).map Row.path).map lastLabel) with ⟨l, hl⟩ | ⟨hl, h1, h2⟩
    · left
      obtain ⟨s, h1, h2⟩ := key l hl
      refine ⟨_, l, s, ?_, h1, h2⟩
      unfold addRoot
      rw [hr]
      simp only [ho, Bool.false_eq_true, if_false]
      rw [generatePath_of hl]
      exact commit_ok h1.inv.inv
    · right
      have mem : ∀ m, m ∈ ((rootNodes db).map Row.path).map lastLabel → ∃ r ∈ db.rows, r.path = [m] := by
        intro m hm
        rw [List.map_map, List.mem_map] at hm
        obtain ⟨r, hr, rfl⟩ := hm
        obtain ⟨hr, hd⟩ := (hS.mem r).1 hr
        refine ⟨r, hr, ?_⟩
        have hs := path_split h.inv hr
        rw [hd] at hs
        exact hs
      refine ⟨?_, fun c hc => mem _ (h1 c hc), fun c hc d hd => mem _ (h2 c hc d hd)⟩
      unfold addRoot
      rw [hr]
      simp only [ho, Bool.false_eq_true, if_false]
      unfold generatePath
      rw [hl]
      rfl

theorem isLeaf_iff : isLeaf db t = true ↔ children db t = [] := by
  unfold isLeaf
  rw [List.isEmpty_iff]

/-- the path of a new last child -/
theorem newChildPath_spec (h : Inv db.rows) (t : Row) :
    ∃ l, newChildPath db t = .ok (t.path ++ [l]) ∧ NewPath db t.path none (children db t).getLast? db l false := by
  have hS := lists_children h.inv t
  have hn := nbrs_last hS
  obtain ⟨db1, l, moved, _, hp, hw⟩ := getNewPath_spec h hn
  have hm : moved = false := by
    cases moved with
    | false => rfl
    | true => obtain ⟨b, hb⟩ := hp.gap rfl; cases hb
  subst hm
  obtain ⟨rfl, hg⟩ := hw.still rfl
  refine ⟨l, ?_, hp⟩
  unfold newChildPath
  have hskip : sibLabels db1 t.path = ((children db1 t).map Row.path).map lastLabel := rfl
  rw [hskip] at hg
  cases hl : (children db1 t).getLast? with
  | none =>
    rw [hl] at hg
    rw [List.getLast?_eq_none_iff] at hl
    rw [hl] at hg
    rw [if_pos (isLeaf_iff.2 hl)]
    exact generatePath_of hg
  | some last =>
    rw [hl] at hg
    have hne : ¬ isLeaf db1 t = true := by
      rw [isLeaf_iff]
      intro e; rw [e] at hl; cases hl
    rw [if_neg hne]
    unfold lastChild
    rw [hl]
    exact generatePath_of hg

/-- `add_child`: the node becomes the last child, exactly. -/
theorem addChild_unsorted (ho : cfg.ordered = false) (h : Inv db.rows) {t : Row} (ht : t ∈ db.rows) {new : Row}
    (hf : ∀ r ∈ db.rows, r.pk ≠ new.pk) :
    ∃ db' obj, addChild cfg db t new = .ok (db', obj) ∧ Added db db' obj new (some t.pk) .last True := by
  have hS := lists_children h.inv t
  have hn := nbrs_last hS
  obtain ⟨l, hl, hp⟩ := newChildPath_spec h t
  have hpar : IsPar db.rows t.path := Or.inr ⟨t, ht, rfl⟩
  have ha := added_place h hn hp hpar hf (slot_last hn (fun _ hr => hr) h.inv hpar rfl) (Clean := True) (fun _ => Or.inl rfl)
  rw [at_of h.inv ht] at ha
  refine ⟨_, _, ?_, ha⟩
  unfold addChild
  rw [(get?_eq_some h.inv).2 ⟨ht, rfl⟩]
  simp only [ho, Bool.false_eq_true, false_and, if_false]
  rw [hl]
  exact commit_ok ha.inv.inv

/-! ### Additions with `node_order_by` -/

/-- `get_sorted_pos_queryset(siblings, newobj)[0]` -/
def firstGreater (cfg : Cfg) (S : List Row) (new : Row) : Option Row := (sortedPosQueryset cfg.orderBy Row.vals S new.vals).head?

theorem firstGreater_mem {S : List Row} {new b : Row} (hb : firstGreater cfg S new = some b) : b ∈ S :=
  (sortedPos_sublist _ _ _ _).subset (List.mem_of_head? hb)

/-- the siblings of a sibling -/
theorem siblings_congr {a b : Row} (e : a.path.dropLast = b.path.dropLast) (hl : a.path.length = b.path.length) :
    siblings db a = siblings db b := by
  unfold siblings
  rw [e, hl]

theorem prevSibling_eq (h : PI db.rows) {t b : Row} (ht : t ∈ db.rows) (hb : b ∈ siblings db t) :
    prevSibling db b = ((siblings db t).filter (fun r => decide (r.path < b.path))).getLast? := by
  obtain ⟨hb1, hb2⟩ := (mem_siblings h ht).1 hb
  unfold prevSibling
  rw [siblings_congr hb2]
  have := congrArg List.length hb2
  rw [List.length_dropLast, List.length_dropLast] at this
  have h1 := len_pos h hb1
  have h2 := len_pos h ht
  omega

/-- what an addition at a sorted place gives: before the first greater sibling if there is one, else somewhere (or no label is left) -/
def SortedAddition (cfg : Cfg) (db : DB) (S : List Row) (pre : Path) (new : Row) (p : Option Nat) (out : Except Err (DB × Row)) : Prop :=
  (∃ b, firstGreater cfg S new = some b ∧ ∃ db' obj, out = .ok (db', obj) ∧
    Added db db' obj new p (.before b.pk) (KeepsOrder db.rows pre)) ∨
  (firstGreater cfg S new = none ∧
    ((∃ db' l s, out = .ok (db', { new with path := pre ++ [l] }) ∧ Added db db' { new with path := pre ++ [l] } new p s True ∧
      ((∀ r ∈ db.rows, r.path.dropLast = pre → lastLabel r.path < l) → s = .last)) ∨
     (out = .error .valueError ∧ ∀ c ∈ upper, (∃ r ∈ db.rows, r.path = pre ++ [[c]]) ∧ ∀ d ∈ upper, ∃ r ∈ db.rows, r.path = pre ++ [[c, d]])))

theorem addSiblingIn_sorted (ho : cfg.ordered = true) (h : Inv db.rows) {t : Row} (ht : t ∈ db.rows) {posArg : Option Pos}
    (hpos : preparePosForAddSibling true posArg = .ok .sortedSibling) {new : Row} (hf : ∀ r ∈ db.rows, r.pk ≠ new.pk) :
    SortedAddition cfg db (siblings db t) t.path.dropLast new (par db.rows t) (commit (addSiblingIn cfg db t posArg new)) := by
  have hS := lists_siblings h.inv ht
  have hpar := IsPar.drop h.inv ht
  have hpt := (par_iff h.inv hpar ht).2 rfl
  unfold addSiblingIn
  rw [ho, hpos]
  simp only
  cases hb : firstGreater cfg (siblings db t) new with
  | some b =>
    left
    have hbS := firstGreater_mem hb
    have hbm := (hS.mem b).1 hbS
    have hn := nbrs_left hS hbS
    rw [← prevSibling_eq h.inv ht hbS] at hn
    have hnb : sibNeighbours cfg db t .sortedSibling new = (some b, prevSibling db b) := by
      unfold sibNeighbours
      simp only
      rw [show (sortedPosQueryset cfg.orderBy Row.vals (siblings db t) new.vals).head? = some b from hb]
    obtain ⟨db1, l, moved, hg, hp, hw⟩ := getNewPath_spec h hn
    have ha := added_place h hn hp hpar hf (slot_before hn (fun _ hr => hr) h.inv hpar rfl hbm.1)
      (Clean := KeepsOrder db.rows t.path.dropLast) Or.inr
    rw [← hpt] at ha
    refine ⟨b, hb, _, _, ?_, ha⟩
    rw [hnb]
    simp only [hg]
    exact commit_ok ha.inv.inv
  | none =>
    right
    refine ⟨hb, ?_⟩
    have hnb : sibNeighbours cfg db t .sortedSibling new = (none, none) := by
      unfold sibNeighbours
      simp only
      rw [show (sortedPosQueryset cfg.orderBy Row.vals (siblings db t) new.vals).head? = none from hb]
    rw [hnb]
    simp only
    rcases generateLabel_none (skip := sibLabels db t.path.dropLast) with ⟨l, hl⟩ | ⟨hl, h1, h2⟩
    · left
      obtain ⟨s, h1, h2⟩ := free_added h hl (by
        intro r hr hd
        rw [mem_sibLabels h.inv]
        refine ⟨r, hr, ?_⟩
        have hs := path_split h.inv hr
        rw [hd] at hs
        exact hs) hpar hf
      rw [← hpt] at h1
      refine ⟨_, l, s, ?_, h1, h2⟩
      rw [getNewPath_found (before := none) (after := none) rfl hl]
      exact commit_ok h1.inv.inv
    · right
      refine ⟨?_, ?_⟩
      · unfold getNewPath generatePath
        rw [show badOrder (labelOf none) (labelOf none) = false from rfl]
        rw [show ((below db t.path.dropLast (t.path.dropLast.length + 1)).map Row.path).map lastLabel = sibLabels db t.path.dropLast from rfl]
        rw [show labelOf none = none from rfl, hl]
        rfl
      · intro c hc
        exact ⟨(mem_sibLabels h.inv).1 (h1 c hc), fun d hd => (mem_sibLabels h.inv).1 (h2 c hc d hd)⟩

theorem addRoot_sorted (ho : cfg.ordered = true) (h : Inv db.rows) {new : Row} (hf : ∀ r ∈ db.rows, r.pk ≠ new.pk) :
    SortedAddition cfg db (rootNodes db) [] new none (addRoot cfg db new) := by
  have hS := lists_roots h.inv
  cases hr : lastRootNode db with
  | none =>
    right
    have hnil : rootNodes db = [] := by
      unfold lastRootNode at hr
      rwa [List.getLast?_eq_none_iff] at hr
    refine ⟨?_, Or.inl ?_⟩
    · unfold firstGreater
      rw [hnil, List.head?_eq_none_iff]
      exact List.sublist_nil.1 (sortedPos_sublist _ _ _ _)
    · obtain ⟨s, h1, h2⟩ := free_added (pre := []) (skip := []) (new := new) h generateLabel_free (by
        intro r hr hd
        have := (hS.mem r).2 ⟨hr, hd⟩
        rw [hnil] at this; cases this) (Or.inl rfl) hf
      rw [at_nil h.inv] at h1
      refine ⟨_, [65], s, ?_, h1, h2⟩
      unfold addRoot
      rw [hr]
      simp only
      rw [generatePath_of (skip := []) (l := [65]) generateLabel_free]
      exact commit_ok h1.inv.inv
  | some last =>
    have hl : last ∈ rootNodes db := List.mem_of_getLast? hr
    obtain ⟨hl1, hl2⟩ := (hS.mem last).1 hl
    have := addSiblingIn_sorted ho h hl1 (posArg := some .sortedSibling) (by decide) (new := new) hf
    have e : siblings db last = rootNodes db := by
      rw [siblings_eq h.inv hl1, hl2, rootNodes_eq h.inv]
      rfl
    rw [hl2, (par_eq_none h.inv hl1).2 hl2, e] at this
    unfold addRoot
    rw [hr]
    simp only [ho, if_true]
    exact this

theorem addChild_sorted (ho : cfg.ordered = true) (h : Inv db.rows) {t : Row} (ht : t ∈ db.rows) {new : Row}
    (hf : ∀ r ∈ db.rows, r.pk ≠ new.pk) :
    SortedAddition cfg db (children db t) t.path new (some t.pk) (addChild cfg db t new) := by
  have hS := lists_children h.inv t
  unfold addChild
  rw [(get?_eq_some h.inv).2 ⟨ht, rfl⟩]
  simp only
  cases hl : isLeaf db t with
  | true =>
    right
    have hnil := isLeaf_iff.1 hl
    refine ⟨?_, Or.inl ?_⟩
    · unfold firstGreater
      rw [hnil, List.head?_eq_none_iff]
      exact List.sublist_nil.1 (sortedPos_sublist _ _ _ _)
    · obtain ⟨s, h1, h2⟩ := free_added (pre := t.path) (skip := []) (new := new) h generateLabel_free (by
        intro r hr hd
        have := (hS.mem r).2 ⟨hr, hd⟩
        rw [hnil] at this; cases this) (Or.inr ⟨t, ht, rfl⟩) hf
      rw [at_of h.inv ht] at h1
      refine ⟨_, [65], s, ?_, h1, h2⟩
      simp only [Bool.true_eq_false, and_false, if_false]
      unfold newChildPath
      rw [if_pos hl, generatePath_of (skip := []) (l := [65]) generateLabel_free]
      exact commit_ok h1.inv.inv
  | false =>
    have hne : children db t ≠ [] := fun e => by rw [isLeaf_iff.2 e] at hl; cases hl
    obtain ⟨last, hlast⟩ : ∃ last, lastChild db t = some last := by
      unfold lastChild
      cases e : (children db t).getLast? with
      | none => rw [List.getLast?_eq_none_iff] at e; exact absurd e hne
      | some last => exact ⟨last, rfl⟩
    have hm : last ∈ children db t := List.mem_of_getLast? hlast
    obtain ⟨hl1, hl2⟩ := (hS.mem last).1 hm
    have := addSiblingIn_sorted ho h hl1 (posArg := some .sortedSibling) (by decide) (new := new) hf
    have e : siblings db last = children db t := by
      rw [siblings_eq h.inv hl1, hl2]
      rfl
    rw [hl2, (par_eq_some h.inv ht).2 hl2, e] at this
    simp only [ho, and_self, if_true, hlast]
    exact this

end Verif.LT
