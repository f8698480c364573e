/-
NS: `delete` statement by statement (ns_tree.py:30-73), with other calls of `delete` in between.
-/
import Verif.NS.Delete
import Verif.Auto
import Verif.SpecTogether

namespace Verif.NS

open Auto

/-- Where a call of `delete` is. -/
inductive DelPlace where
  | start
  /-- the rows are read (ns_tree.py:41-56): the statements to come -/
  | todo (l : List DelStmt)
  /-- Django has collected the rows to delete -/
  | collected (ranges : List (Int × Int × Int)) (ks : List Nat) (l : List DelStmt)
deriving DecidableEq

/-- ns_tree.py:30-73 `delete`.  Django's `delete` (ns_tree.py:62) is one DELETE (`fast`, django/db/models/deletion.py `can_fast_delete`) or a SELECT and a DELETE by primary keys. -/
def delProg (fast : Bool) (sel : Row → Bool) : Prog DB DelPlace := fun db l =>
  match l with
  | .start => some (db, .todo (deleteStmts db sel))
  | .todo [] => none
  | .todo (.close g :: l) => some (execDel db (.close g), .todo l)
  | .todo (.delete ranges :: l) =>
    if fast then some (execDel db (.delete ranges), .todo l)
    else some (db, .collected ranges ((db.rows.filter (fun r => ranges.any (fun g => inRange g r))).map Row.pk) l)
  | .collected ranges ks l => some ({ rows := db.rows.filter (fun r => !ks.contains r.pk), sigs := db.sigs ++ [.nodesDeleted ranges] }, .todo l)

theorem filter_collected {rows : List Row} (h : (rows.map Row.pk).Nodup) (P : Row → Bool) :
    rows.filter (fun r => !((rows.filter P).map Row.pk).contains r.pk) = rows.filter (fun r => !P r) := by
  refine List.filter_congr (fun r hr => ?_)
  congr 1
  rw [Bool.eq_iff_iff, List.contains_iff_mem, List.mem_map]
  constructor
  · rintro ⟨q, hq, e⟩
    obtain ⟨h1, h2⟩ := List.mem_filter.1 hq
    rwa [← List.inj_on_of_nodup_map h h1 hr e]
  · exact fun hp => ⟨r, List.mem_filter.2 ⟨hr, hp⟩, rfl⟩

/-- Alone, the statements are `delete`. -/
theorem delProg_alone (fast : Bool) (sel : Row → Bool) (db : DB) (h : (db.rows.map Row.pk).Nodup) :
    Alone (delProg fast sel) db .start (delete db sel) (.todo []) := by
  refine .step (db' := db) (l' := .todo (deleteStmts db sel)) rfl ?_
  unfold delete
  have key : ∀ (C : List (Int × Int × Int)) (db : DB), Alone (delProg fast sel) db (.todo (C.map .close)) (List.foldl execDel db (C.map .close)) (.todo []) := by
    intro C
    induction C with
    | nil => intro db; exact .refl
    | cons g C ih => intro db; exact .step rfl (ih _)
  unfold deleteStmts
  generalize removeRanges (order (db.rows.filter sel)) none = R
  simp only
  split
  · exact .refl
  · cases fast with
    | true => exact .step rfl (key _ _)
    | false =>
      refine .step rfl (.step rfl ?_)
      rw [filter_collected h]
      exact key _ _

/-! ### Row by row -/

/-- a statement for one row -/
def actOn (r : Row) : DelStmt → Option Row
  | .delete ranges => if ranges.any (fun g => inRange g r) then none else some r
  | .close g => some (gapRow g.1 g.2.1 (-(g.2.2 - g.2.1 + 1)) r)

theorem actOn_delete (r : Row) (ranges : List (Int × Int × Int)) : actOn r (.delete ranges) = if ranges.any (fun g => inRange g r) then none else some r := rfl

theorem actOn_close (r : Row) (g : Int × Int × Int) : actOn r (.close g) = some (gapRow g.1 g.2.1 (-(g.2.2 - g.2.1 + 1)) r) := rfl

/-- statements for one row -/
def actsOn (l : List DelStmt) (r : Row) : Option Row := l.foldlM actOn r

theorem actsOn_single (r : Row) (st : DelStmt) : actsOn [st] r = actOn r st := by
  unfold actsOn
  rw [List.foldlM_cons]
  cases actOn r st <;> rfl

theorem execDel_rows (db : DB) (st : DelStmt) : (execDel db st).rows = db.rows.filterMap (fun r => actOn r st) := by
  cases st with
  | delete ranges =>
    show db.rows.filter _ = _
    rw [← List.filterMap_eq_filter]
    congr 1
    funext r
    show Option.guard _ r = if ranges.any (fun g => inRange g r) then none else some r
    unfold Option.guard
    cases h : ranges.any (fun g => inRange g r) <;> simp [h]
  | close g =>
    show db.rows.map _ = _
    rw [← List.filterMap_eq_map]
    rfl

theorem foldl_rows : ∀ (l : List DelStmt) (db : DB), (l.foldl execDel db).rows = db.rows.filterMap (actsOn l) := by
  intro l
  induction l with
  | nil => intro db; show db.rows = db.rows.filterMap some; simp
  | cons st l ih =>
    intro db
    rw [List.foldl_cons, ih, execDel_rows, List.filterMap_filterMap]
    rfl

theorem actOn_keeps {st : DelStmt} {r x : Row} (h : actOn r st = some x) : x.pk = r.pk ∧ x.tree = r.tree := by
  cases st with
  | delete ranges =>
    rw [actOn_delete] at h
    split at h
    · cases h
    · cases h; exact ⟨rfl, rfl⟩
  | close g =>
    rw [actOn_close] at h
    cases h
    unfold gapRow
    split <;> exact ⟨rfl, rfl⟩

theorem actsOn_append (l l' : List DelStmt) (r : Row) : actsOn (l ++ l') r = (actsOn l r).bind (actsOn l') := by
  unfold actsOn
  rw [List.foldlM_append]
  rfl

/-- the statement has to do with the tree -/
def DelStmt.Touches (t : Int) : DelStmt → Prop
  | .delete ranges => ∃ g ∈ ranges, g.1 = t
  | .close g => g.1 = t

theorem actOn_other {st : DelStmt} {r : Row} (h : ¬ st.Touches r.tree) : actOn r st = some r := by
  cases st with
  | delete ranges =>
    rw [actOn_delete, if_neg]
    rw [List.any_eq_true]
    rintro ⟨g, hg, hi⟩
    unfold inRange at hi
    rw [decide_eq_true_eq] at hi
    exact h ⟨g, hg, hi.1.symm⟩
  | close g =>
    rw [actOn_close]
    unfold gapRow
    rw [if_neg]
    exact fun hh => h hh.2.symm

/-- the part of a statement for one tree -/
def DelStmt.within (t : Int) : DelStmt → List DelStmt
  | .delete ranges => [.delete (ranges.filter (fun g => g.1 == t))]
  | .close g => if g.1 = t then [.close g] else []

theorem within_close (t : Int) (g : Int × Int × Int) : DelStmt.within t (.close g) = if g.1 = t then [.close g] else [] := rfl

theorem actOn_within (r : Row) (st : DelStmt) : actsOn (st.within r.tree) r = actOn r st := by
  cases st with
  | delete ranges =>
    show actsOn [_] r = _
    rw [actsOn_single, actOn_delete, actOn_delete]
    congr 2
    rw [List.any_filter, Bool.eq_iff_iff]
    simp only [List.any_eq_true, Bool.and_eq_true, beq_iff_eq]
    constructor
    · rintro ⟨g, hg, _, hi⟩; exact ⟨g, hg, hi⟩
    · rintro ⟨g, hg, hi⟩
      refine ⟨g, hg, ?_, hi⟩
      unfold inRange at hi
      rw [decide_eq_true_eq] at hi
      exact hi.1.symm
  | close g =>
    rw [within_close]
    split
    · exact actsOn_single r _
    · rename_i h
      exact (actOn_other (st := .close g) h).symm

theorem actsOn_within (l : List DelStmt) : ∀ (r : Row), actsOn (l.flatMap (·.within r.tree)) r = actsOn l r := by
  induction l with
  | nil => intro r; rfl
  | cons st l ih =>
    intro r
    rw [List.flatMap_cons, actsOn_append, actOn_within]
    show _ = (actOn r st).bind (actsOn l)
    cases hx : actOn r st with
    | none => rfl
    | some x =>
      rw [Option.bind_some, Option.bind_some, ← (actOn_keeps hx).2]
      exact ih x

/-! ### The statements for one tree -/

theorem filter_orderedInsert {α : Type} {r : α → α → Prop} [DecidableRel r] (htr : ∀ a b c, r a b → r b c → r a c) (p : α → Bool) (a : α) :
    ∀ {l : List α}, l.Pairwise r → (l.orderedInsert r a).filter p = if p a then (l.filter p).orderedInsert r a else l.filter p := by
  intro l
  induction l with
  | nil => intro _; cases h : p a <;> simp [h]
  | cons b l ih =>
    intro hs
    have hb := List.pairwise_cons.1 hs
    rw [List.orderedInsert_cons]
    split
    · rename_i hab
      cases ha : p a with
      | false => rw [List.filter_cons_of_neg (by simp [ha])]; rfl
      | true =>
        rw [List.filter_cons_of_pos ha, if_pos rfl]
        have hall : ∀ c ∈ (b :: l).filter p, r a c := by
          intro c hc
          rcases List.mem_cons.1 (List.mem_filter.1 hc).1 with rfl | hc'
          · exact hab
          · exact htr _ _ _ hab (hb.1 c hc')
        cases hl : (b :: l).filter p with
        | nil => rfl
        | cons c l' =>
          rw [List.orderedInsert_cons_of_le _ _ (hall c (by rw [hl]; simp))]
    · rename_i hab
      cases hpb : p b with
      | false => rw [List.filter_cons_of_neg (by simp [hpb]), List.filter_cons_of_neg (by simp [hpb]), ih hb.2]
      | true =>
        rw [List.filter_cons_of_pos hpb, List.filter_cons_of_pos hpb, ih hb.2]
        cases ha : p a with
        | false => rfl
        | true => rw [if_pos rfl, if_pos rfl, List.orderedInsert_of_not_le _ _ hab]

theorem filter_sortBy {α : Type} {lt : α → α → Bool} (h : StrictWeak lt) (p : α → Bool) (l : List α) : (sortBy lt l).filter p = sortBy lt (l.filter p) := by
  induction l with
  | nil => rfl
  | cons a l ih =>
    have := filter_orderedInsert (r := fun a b => lt b a = false) (fun a b c => h.trans a b c) p a (sortBy_sorted h l)
    show ((sortBy lt l).orderedInsert (fun a b => lt b a = false) a).filter p = _
    rw [this, ih]
    cases hp : p a with
    | true => rw [List.filter_cons_of_pos hp]; rfl
    | false => rw [List.filter_cons_of_neg (by simp [hp])]; rfl

theorem removeRanges_tree (t : Int) : ∀ (l : List Row) (last : Option Row), l.Pairwise (fun a b => a.tree ≤ b.tree) → (∀ a, last = some a → ∀ b ∈ l, a.tree ≤ b.tree) →
    (removeRanges l last).filter (fun g => g.1 == t) = removeRanges (l.filter (fun r => r.tree == t)) (last.filter (fun a => a.tree == t)) := by
  intro l
  induction l with
  | nil => intro last _ _; rfl
  | cons n l ih =>
    intro last hs hl
    have hn := List.pairwise_cons.1 hs
    have hnone : ∀ l : List Row, (∀ b ∈ l, b.tree ≠ t) → l.filter (fun r => r.tree == t) = [] := by
      intro l h
      rw [List.filter_eq_nil_iff]
      intro b hb
      simpa using h b hb
    by_cases hnt : n.tree = t
    · rw [List.filter_cons_of_pos (by simpa using hnt)]
      have hsk : skips last n = skips (last.filter (fun a => a.tree == t)) n := by
        cases last with
        | none => rfl
        | some a =>
          by_cases ha : a.tree = t
          · simp [Option.filter, ha]
          · rw [Option.filter_some, if_neg (by simpa using ha)]
            unfold skips
            simp only [decide_eq_false_iff_not]
            exact fun hh => ha (hh.1.trans hnt)
      simp only [removeRanges, ← hsk]
      split
      · exact ih last hn.2 (fun a ha b hb => hl a ha b (List.mem_cons_of_mem _ hb))
      · rw [List.filter_cons_of_pos (by simpa using hnt), ih (some n) hn.2 (fun a ha b hb => by cases ha; exact hn.1 b hb), Option.filter_some, if_pos (by simpa using hnt)]
    · rw [List.filter_cons_of_neg (by simpa using hnt)]
      simp only [removeRanges]
      split
      · exact ih last hn.2 (fun a ha b hb => hl a ha b (List.mem_cons_of_mem _ hb))
      · rw [List.filter_cons_of_neg (by simpa using hnt), ih (some n) hn.2 (fun a ha b hb => by cases ha; exact hn.1 b hb), Option.filter_some, if_neg (by simpa using hnt)]
        cases last with
        | none => rfl
        | some a =>
          by_cases ha : a.tree = t
          · have hlt : a.tree < n.tree := by
              have := hl a rfl n (by simp)
              omega
            rw [hnone l]
            · rfl
            · intro b hb
              have := hn.1 b hb
              omega
          · rw [Option.filter_some, if_neg (by simpa using ha)]

theorem order_tree_sorted (l : List Row) : (order l).Pairwise (fun a b => a.tree ≤ b.tree) := by
  refine (sortBy_sorted strictWeak l).imp ?_
  intro a b h
  unfold tlLt at h
  simp only [decide_eq_false_iff_not] at h
  by_contra hc
  exact h (Or.inl (by omega))

/-- what the statements do in one tree depends on the chosen rows of that tree only -/
theorem deleteStmts_tree {db db' : DB} {sel sel' : Row → Bool} {t : Int}
    (h : (db.rows.filter sel).filter (fun r => r.tree == t) = (db'.rows.filter sel').filter (fun r => r.tree == t)) {r : Row} (hr : r.tree = t) :
    actsOn (deleteStmts db sel) r = actsOn (deleteStmts db' sel') r := by
  have key : ∀ (db : DB) (sel : Row → Bool), actsOn (deleteStmts db sel) r = actsOn (.delete (removeRanges (order ((db.rows.filter sel).filter (fun r => r.tree == t))) none) ::
      (sortBy (fun a b => rangeLt b a) (removeRanges (order ((db.rows.filter sel).filter (fun r => r.tree == t))) none)).map .close) r := by
    intro db sel
    have hR : removeRanges (order ((db.rows.filter sel).filter (fun r => r.tree == t))) none = (removeRanges (order (db.rows.filter sel)) none).filter (fun g => g.1 == t) := by
      rw [removeRanges_tree t _ none (order_tree_sorted _) (by simp)]
      unfold order
      rw [filter_sortBy strictWeak]
      rfl
    rw [hR]
    unfold deleteStmts
    generalize removeRanges (order (db.rows.filter sel)) none = R
    simp only
    have hw : ∀ C : List (Int × Int × Int), (C.map DelStmt.close).flatMap (·.within t) = (C.filter (fun g => g.1 == t)).map .close := by
      intro C
      induction C with
      | nil => rfl
      | cons g C ih =>
        rw [List.map_cons, List.flatMap_cons, ih]
        by_cases hg : g.1 = t
        · rw [List.filter_cons_of_pos (by simpa using hg)]
          rw [within_close, if_pos hg]
          rfl
        · rw [List.filter_cons_of_neg (by simpa using hg)]
          rw [within_close, if_neg hg]
          rfl
    split
    · rename_i he
      rw [List.isEmpty_iff.1 he]
      rfl
    · rw [← actsOn_within, hr, List.flatMap_cons, hw, filter_sortBy rangeWeak]
      rfl
  rw [key db sel, key db' sel', h]

/-- the statements touch only trees with chosen rows -/
theorem deleteStmts_touch {db : DB} {sel : Row → Bool} {st : DelStmt} (hst : st ∈ deleteStmts db sel) {t : Int} (ht : st.Touches t) : ∃ q ∈ db.rows, sel q = true ∧ q.tree = t := by
  have hR : ∀ g ∈ removeRanges (order (db.rows.filter sel)) none, ∃ q ∈ db.rows, sel q = true ∧ q.tree = g.1 := by
    have : ∀ (l : List Row) (last : Option Row), ∀ g ∈ removeRanges l last, ∃ q ∈ l, q.tree = g.1 := by
      intro l
      induction l with
      | nil => intro _ g hg; cases hg
      | cons n l ih =>
        intro last g hg
        simp only [removeRanges] at hg
        split at hg
        · obtain ⟨q, hq, e⟩ := ih _ g hg; exact ⟨q, List.mem_cons_of_mem _ hq, e⟩
        · rcases List.mem_cons.1 hg with rfl | hg
          · exact ⟨n, by simp, rfl⟩
          · obtain ⟨q, hq, e⟩ := ih _ g hg; exact ⟨q, List.mem_cons_of_mem _ hq, e⟩
    intro g hg
    obtain ⟨q, hq, e⟩ := this _ _ g hg
    obtain ⟨h1, h2⟩ := List.mem_filter.1 (mem_sortBy.1 hq)
    exact ⟨q, h1, h2, e⟩
  unfold deleteStmts at hst
  simp only at hst
  split at hst
  · cases hst
  · rcases List.mem_cons.1 hst with rfl | hst
    · obtain ⟨g, hg, rfl⟩ := ht
      exact hR g hg
    · obtain ⟨g, hg, rfl⟩ := List.mem_map.1 hst
      obtain ⟨q, h1, h2, h3⟩ := hR g (mem_sortBy.1 hg)
      exact ⟨q, h1, h2, h3.trans ht⟩

theorem deleteStmts_head {db : DB} {sel : Row → Bool} {A l : List DelStmt} {ranges : List (Int × Int × Int)} (h : A ++ .delete ranges :: l = deleteStmts db sel) : A = [] := by
  unfold deleteStmts at h
  simp only at h
  split at h
  · exact absurd h (by simp)
  · cases A with
    | nil => rfl
    | cons a A =>
      rw [List.cons_append] at h
      injection h with _ h
      have : DelStmt.delete ranges ∈ (sortBy (fun a b => rangeLt b a) (removeRanges (order (db.rows.filter sel)) none)).map .close := by rw [← h]; simp
      obtain ⟨g, _, e⟩ := List.mem_map.1 this
      cases e

/-! ### The invariant -/

variable {ι : Type}

/-- the client chose a row of the tree -/
def Owns (rows : List Row) (S : ι → Nat → Bool) (i : ι) (t : Int) : Prop := ∃ q ∈ rows, S i q.pk = true ∧ q.tree = t

/-- the statements made and those to come are those of the first table -/
inductive Sees (db0 : DB) (S : Nat → Bool) (A : List DelStmt) : DelPlace → Prop where
  | start : A = [] → Sees db0 S A .start
  | todo {l : List DelStmt} : A ++ l = deleteStmts db0 (fun r => S r.pk) → Sees db0 S A (.todo l)
  | collected {ranges : List (Int × Int × Int)} {ks : List Nat} {l : List DelStmt} : A ++ .delete ranges :: l = deleteStmts db0 (fun r => S r.pk) →
      (∀ r ∈ db0.rows, r.pk ∈ ks ↔ ranges.any (fun g => inRange g r) = true) → Sees db0 S A (.collected ranges ks l)

structure DelInv (db0 : DB) (S : ι → Nat → Bool) (s : State ι DB DelPlace) (A : ι → List DelStmt) (f : Row → Option Row) : Prop where
  left : s.db.rows = db0.rows.filterMap f
  keep : ∀ r ∈ db0.rows, ∀ x, f r = some x → x.pk = r.pk ∧ x.tree = r.tree
  own : ∀ r ∈ db0.rows, ∀ i, Owns db0.rows S i r.tree → f r = actsOn (A i) r
  free : ∀ r ∈ db0.rows, (∀ i, ¬ Owns db0.rows S i r.tree) → f r = some r
  sees : ∀ i, Sees db0 (S i) (A i) (s.place i)

variable [DecidableEq ι] {db0 : DB} {S : ι → Nat → Bool} {A : ι → List DelStmt} {f : Row → Option Row}

/-- a statement of client `i` -/
theorem DelInv.exec (hone : ∀ i j t, Owns db0.rows S i t → Owns db0.rows S j t → i = j) {s : State ι DB DelPlace} (h : DelInv db0 S s A f) {i : ι} {st : DelStmt} {l : List DelStmt} {db : DB}
    (hL : A i ++ st :: l = deleteStmts db0 (fun r => S i r.pk)) (hdb : db.rows = s.db.rows.filterMap (fun r => actOn r st)) :
    DelInv db0 S ⟨db, fun j => if j = i then .todo l else s.place j⟩ (fun j => if j = i then A i ++ [st] else A j) (fun r => (f r).bind (fun x => actOn x st)) := by
  have ht : ∀ t, st.Touches t → Owns db0.rows S i t := fun t ht => deleteStmts_touch (sel := fun r => S i r.pk) (db := db0) (by rw [← hL]; simp) ht
  refine ⟨?_, ?_, ?_, ?_, ?_⟩
  · show db.rows = _
    rw [hdb, h.left, List.filterMap_filterMap]
  · intro r hr x hx
    obtain ⟨y, hy, hxy⟩ := Option.bind_eq_some_iff.1 hx
    obtain ⟨h1, h2⟩ := h.keep r hr y hy
    obtain ⟨h3, h4⟩ := actOn_keeps hxy
    exact ⟨h3.trans h1, h4.trans h2⟩
  · intro r hr j hj
    by_cases e : j = i
    · subst e
      simp only [if_true]
      rw [actsOn_append, h.own r hr j hj]
      congr 1
      funext x
      exact (actsOn_single x st).symm
    · simp only [if_neg e]
      rw [← h.own r hr j hj]
      cases hx : f r with
      | none => rfl
      | some x =>
        refine actOn_other (r := x) ?_
        rw [(h.keep r hr x hx).2]
        exact fun hh => e (hone j i _ hj (ht _ hh))
  · intro r hr hn
    show (f r).bind _ = _
    rw [h.free r hr hn]
    exact actOn_other (fun hh => hn i (ht _ hh))
  · intro j
    by_cases e : j = i
    · subst e
      simp only [if_true]
      refine .todo ?_
      rw [← hL, List.append_assoc]
      rfl
    · simp only [if_neg e]; exact h.sees j

/-- a step that changes no row -/
theorem DelInv.look {s : State ι DB DelPlace} (h : DelInv db0 S s A f) {i : ι} {l : DelPlace} (hl : Sees db0 (S i) (A i) l) :
    DelInv db0 S ⟨s.db, fun j => if j = i then l else s.place j⟩ A f := by
  refine ⟨h.left, h.keep, h.own, h.free, ?_⟩
  intro j
  by_cases e : j = i
  · subst e; simp only [if_true]; exact hl
  · simp only [if_neg e]; exact h.sees j

omit [DecidableEq ι] in
theorem owns_of_range {i : ι} {ranges : List (Int × Int × Int)} {B l : List DelStmt} (hL : B ++ .delete ranges :: l = deleteStmts db0 (fun r => S i r.pk)) {x : Row}
    (hx : ranges.any (fun g => inRange g x) = true) : Owns db0.rows S i x.tree := by
  obtain ⟨g, hg, hi⟩ := List.any_eq_true.1 hx
  refine deleteStmts_touch (st := .delete ranges) (sel := fun r => S i r.pk) (db := db0) (by rw [← hL]; simp) ⟨g, hg, ?_⟩
  unfold inRange at hi
  rw [decide_eq_true_eq] at hi
  exact hi.1.symm

theorem delInv_step (hpk : (db0.rows.map Row.pk).Nodup) (hone : ∀ i j t, Owns db0.rows S i t → Owns db0.rows S j t → i = j) {fast : ι → Bool} {s : State ι DB DelPlace}
    (h : DelInv db0 S s A f) {i : ι} {db : DB} {l : DelPlace} (e : delProg (fast i) (fun r => S i r.pk) s.db (s.place i) = some (db, l)) :
    ∃ A' f', DelInv db0 S ⟨db, fun j => if j = i then l else s.place j⟩ A' f' := by
  have hsee := h.sees i
  have hinj : ∀ a ∈ db0.rows, ∀ b ∈ db0.rows, a.pk = b.pk → a = b := fun a ha b hb e => List.inj_on_of_nodup_map hpk ha hb e
  generalize hpl : s.place i = pl at e hsee
  cases hsee with
  | start hA =>
    simp only [delProg, Option.some.injEq, Prod.mk.injEq] at e
    obtain ⟨rfl, rfl⟩ := e
    refine ⟨A, f, h.look (.todo ?_)⟩
    rw [hA, List.nil_append]
    have hf : s.db.rows.filter (fun r => S i r.pk) = db0.rows.filter (fun r => S i r.pk) := by
      rw [h.left, List.filter_filterMap, ← List.filterMap_eq_filter]
      refine List.filterMap_congr (fun r hr => ?_)
      unfold Option.guard
      cases hs : S i r.pk with
      | true =>
        rw [h.own r hr i ⟨r, hr, hs, rfl⟩, hA]
        show Option.filter _ (some r) = _
        simp [hs]
      | false =>
        cases hx : f r with
        | none => simp [hs]
        | some x => simp [(h.keep r hr x hx).1, hs]
    unfold deleteStmts
    rw [hf]
  | @todo l' hL =>
    cases l' with
    | nil => simp [delProg] at e
    | cons st l' =>
      cases st with
      | close g =>
        simp only [delProg, Option.some.injEq, Prod.mk.injEq] at e
        obtain ⟨rfl, rfl⟩ := e
        exact ⟨_, _, h.exec hone hL (execDel_rows _ _)⟩
      | delete ranges =>
        simp only [delProg] at e
        split at e
        · simp only [Option.some.injEq, Prod.mk.injEq] at e
          obtain ⟨rfl, rfl⟩ := e
          exact ⟨_, _, h.exec hone hL (execDel_rows _ _)⟩
        · simp only [Option.some.injEq, Prod.mk.injEq] at e
          obtain ⟨rfl, rfl⟩ := e
          have hA := deleteStmts_head hL
          refine ⟨A, f, h.look (.collected hL ?_)⟩
          intro r hr
          rw [List.mem_map]
          constructor
          · rintro ⟨x, hx, ex⟩
            obtain ⟨h1, h2⟩ := List.mem_filter.1 hx
            rw [h.left] at h1
            obtain ⟨q, hq, hqx⟩ := List.mem_filterMap.1 h1
            obtain ⟨k1, k2⟩ := h.keep q hq x hqx
            have hqr := hinj q hq r hr (k1.symm.trans ex)
            subst hqr
            have ho := owns_of_range hL h2
            rw [k2] at ho
            rw [h.own q hq i ho, hA] at hqx
            cases hqx
            exact h2
          · intro hm
            refine ⟨r, List.mem_filter.2 ⟨?_, hm⟩, rfl⟩
            rw [h.left, List.mem_filterMap]
            refine ⟨r, hr, ?_⟩
            rw [h.own r hr i (owns_of_range hL hm), hA]
            rfl
  | @collected ranges ks l' hL hk =>
    simp only [delProg, Option.some.injEq, Prod.mk.injEq] at e
    obtain ⟨rfl, rfl⟩ := e
    have hA := deleteStmts_head hL
    refine ⟨_, _, h.exec hone hL ?_⟩
    show s.db.rows.filter (fun r => !ks.contains r.pk) = _
    rw [← execDel_rows]
    refine List.filter_congr (fun x hx => ?_)
    congr 1
    rw [h.left] at hx
    obtain ⟨r, hr, hrx⟩ := List.mem_filterMap.1 hx
    obtain ⟨k1, k2⟩ := h.keep r hr x hrx
    rw [Bool.eq_iff_iff, List.contains_iff_mem, k1, hk r hr]
    by_cases ho : Owns db0.rows S i r.tree
    · rw [h.own r hr i ho, hA] at hrx
      cases hrx
      rfl
    · constructor
      · intro hh; exact absurd (owns_of_range hL hh) ho
      · intro hh
        have := owns_of_range hL hh
        rw [k2] at this
        exact absurd this ho

theorem delInv_reach (hpk : (db0.rows.map Row.pk).Nodup) (hone : ∀ i j t, Owns db0.rows S i t → Owns db0.rows S j t → i = j) {fast : ι → Bool} {s : State ι DB DelPlace}
    (h : Reach (fun i => delProg (fast i) (fun r => S i r.pk)) (.init .start db0) s) : ∃ A f, DelInv db0 S s A f := by
  refine h.keeps (P := fun s => ∃ A f, DelInv db0 S s A f) ?_ (fun s i db' l ⟨A, f, hs⟩ e => delInv_step hpk hone hs e)
  refine ⟨fun _ => [], some, ?_, ?_, ?_, ?_, fun i => .start rfl⟩
  · show db0.rows = db0.rows.filterMap some
    simp
  · intro r _ x hx; cases hx; exact ⟨rfl, rfl⟩
  · intro r _ i _; rfl
  · intro r _ _; rfl

/-- nobody is under way -/
def Quiet (place : ι → DelPlace) : Prop := ∀ i, place i = .start ∨ place i = .todo []

omit [DecidableEq ι] in
open Classical in
/-- When nobody is under way, the table is that after one deletion of all the nodes chosen. -/
theorem DelInv.quiet_rows (hone : ∀ i j t, Owns db0.rows S i t → Owns db0.rows S j t → i = j) {s : State ι DB DelPlace} (h : DelInv db0 S s A f) (hq : Quiet s.place) :
    s.db.rows = (delete db0 (fun r => decide (∃ i, s.place i ≠ .start ∧ S i r.pk = true))).rows := by
  have hA : ∀ i, (s.place i = .start ∧ A i = []) ∨ (s.place i ≠ .start ∧ A i = deleteStmts db0 (fun r => S i r.pk)) := by
    intro i
    have hs := h.sees i
    rcases hq i with e | e
    · rw [e] at hs
      cases hs with
      | start hA => exact Or.inl ⟨e, hA⟩
    · rw [e] at hs
      cases hs with
      | todo hL => exact Or.inr ⟨by rw [e]; simp, by rw [← hL, List.append_nil]⟩
  rw [h.left]
  unfold delete
  rw [foldl_rows]
  refine List.filterMap_congr (fun r hr => ?_)
  have hnone : (∀ i, s.place i ≠ .start → ¬ Owns db0.rows S i r.tree) → actsOn (deleteStmts db0 (fun r => decide (∃ i, s.place i ≠ .start ∧ S i r.pk = true))) r = some r := by
    intro hn
    rw [deleteStmts_tree (db' := db0) (sel' := fun _ => false) (t := r.tree) ?_ rfl]
    · have : deleteStmts db0 (fun _ => false) = [] := by
        unfold deleteStmts
        have : db0.rows.filter (fun _ => false) = [] := by simp
        rw [this]
        rfl
      rw [this]
      rfl
    · rw [List.filter_filter, List.filter_filter]
      refine List.filter_congr (fun q hqr => ?_)
      rw [Bool.and_false, Bool.eq_false_iff]
      intro hh
      rw [Bool.and_eq_true, beq_iff_eq, decide_eq_true_iff] at hh
      obtain ⟨ht, i, hi, hs⟩ := hh
      exact hn i hi ⟨q, hqr, hs, ht⟩
  by_cases hex : ∃ i, Owns db0.rows S i r.tree
  · obtain ⟨i, hi⟩ := hex
    rw [h.own r hr i hi]
    rcases hA i with ⟨hst, hA⟩ | ⟨hst, hA⟩
    · rw [hA, hnone]
      · rfl
      · intro j hj hjo
        rw [hone j i _ hjo hi] at hj
        exact hj hst
    · rw [hA]
      refine deleteStmts_tree (t := r.tree) ?_ rfl
      rw [List.filter_filter, List.filter_filter]
      refine List.filter_congr (fun q hqr => ?_)
      rw [Bool.eq_iff_iff, Bool.and_eq_true, Bool.and_eq_true, beq_iff_eq, decide_eq_true_iff]
      refine and_congr_right fun ht => ⟨fun hs => ⟨i, hst, hs⟩, ?_⟩
      rintro ⟨j, _, hs⟩
      rwa [hone i j _ hi ⟨q, hqr, hs, ht⟩]
  · have hn : ∀ i, ¬ Owns db0.rows S i r.tree := fun i hi => hex ⟨i, hi⟩
    rw [h.free r hr hn, hnone (fun i _ => hn i)]

end Verif.NS
