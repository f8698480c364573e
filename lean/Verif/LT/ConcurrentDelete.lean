/-
LT: `delete` statement by statement (ltree/__init__.py:99-128), with other calls of `delete` in between.
-/
import Verif.LT.Delete
import Verif.Auto

namespace Verif.LT

open Auto

/-- Where a call of `delete` is. -/
inductive DelPlace where
  | start
  /-- ltree/__init__.py:108-118 has run: the paths to remove -/
  | todo (paths : List Path)
  /-- Django has collected the rows to delete -/
  | collected (paths : List Path) (pks : List Nat)
  | over
deriving DecidableEq

/-- `Q(path__descendants=..) | ..` -/
def delMatches (paths : List Path) (r : Row) : Bool := paths.any (fun p => p.isPrefixOf r.path)

/-- ltree/__init__.py:99-128 `delete`.  Django's `delete` is one DELETE (`fast`, django/db/models/deletion.py `can_fast_delete`) or a SELECT and a DELETE by primary keys. -/
def delProg (fast : Bool) (sel : Row → Bool) : Prog DB DelPlace := fun db l =>
  match l with
  | .start =>
    let paths := removedLoop (orderByPath (db.rows.filter sel)) []
    some (db, if paths.isEmpty then .over else .todo paths)
  | .todo paths =>
    if fast then some ({ rows := db.rows.filter (fun r => !delMatches paths r), sigs := db.sigs ++ [.nodesDeleted paths] }, .over)
    else some (db, .collected paths ((db.rows.filter (delMatches paths)).map Row.pk))
  | .collected paths pks => some ({ rows := db.rows.filter (fun r => !pks.contains r.pk), sigs := db.sigs ++ [.nodesDeleted paths] }, .over)
  | .over => none

theorem filter_collected {rows : List Row} (h : (rows.map Row.pk).Nodup) (P : Row → Bool) :
    rows.filter (fun r => !((rows.filter P).map Row.pk).contains r.pk) = rows.filter (fun r => !P r) := by
  refine List.filter_congr (fun r hr => ?_)
  congr 1
  rw [Bool.eq_iff_iff, List.contains_iff_mem, List.mem_map]
  constructor
  · rintro ⟨q, hq, e⟩
    obtain ⟨h1, h2⟩ := List.mem_filter.1 hq
    rwa [← List.inj_on_of_nodup_map h h1 hr e]
  · exact fun hp => ⟨r, List.mem_filter.2 ⟨hr, hp⟩, rfl⟩

/-- Alone, the statements are `delete`. -/
theorem delProg_alone (fast : Bool) (sel : Row → Bool) (db : DB) (h : (db.rows.map Row.pk).Nodup) :
    Alone (delProg fast sel) db .start (delete db sel) .over := by
  refine .step (db' := db) (l' := if (removedLoop (orderByPath (db.rows.filter sel)) []).isEmpty then .over else .todo (removedLoop (orderByPath (db.rows.filter sel)) []))
    rfl ?_
  have hd : delete db sel = if (removedLoop (orderByPath (db.rows.filter sel)) []).isEmpty then db else
      { rows := db.rows.filter (fun r => !delMatches (removedLoop (orderByPath (db.rows.filter sel)) []) r), sigs := db.sigs ++ [.nodesDeleted (removedLoop (orderByPath (db.rows.filter sel)) [])] } := rfl
  rw [hd]
  generalize removedLoop (orderByPath (db.rows.filter sel)) [] = R
  cases he : R.isEmpty with
  | true => exact .refl
  | false =>
    simp only [Bool.false_eq_true, if_false]
    cases fast with
    | true => exact .step rfl .refl
    | false =>
      refine .step rfl (.step rfl ?_)
      rw [filter_collected h]
      exact .refl

open Classical in
/-- what the clients that are through have removed -/
noncomputable def goneBy {ι : Type} (rows : List Row) (S : ι → Row → Bool) (place : ι → DelPlace) (r : Row) : Bool :=
  decide (∃ i, place i = .over ∧ doomed rows (S i) r = true)

/-- The invariant. -/
structure DelInv {ι : Type} (rows : List Row) (S : ι → Row → Bool) (s : State ι DB DelPlace) : Prop where
  left : s.db.rows = rows.filter (fun r => !goneBy rows S s.place r)
  sound : ∀ i paths, (s.place i = .todo paths ∨ ∃ ks, s.place i = .collected paths ks) → ∀ p ∈ paths, ∃ q ∈ rows, S i q = true ∧ q.path = p
  cover : ∀ i paths, (s.place i = .todo paths ∨ ∃ ks, s.place i = .collected paths ks) →
    ∀ q ∈ rows, S i q = true → goneBy rows S s.place q = true ∨ ∃ p ∈ paths, p <+: q.path
  keys : ∀ i paths ks, s.place i = .collected paths ks → ∀ r ∈ rows, goneBy rows S s.place r = false → (r.pk ∈ ks ↔ delMatches paths r = true)

variable {ι : Type} [DecidableEq ι] {rows : List Row} {S : ι → Row → Bool}

omit [DecidableEq ι] in
theorem goneBy_iff {place : ι → DelPlace} {r : Row} : goneBy rows S place r = true ↔ ∃ i, place i = .over ∧ doomed rows (S i) r = true := by
  unfold goneBy
  exact @decide_eq_true_iff _ (Classical.propDecidable _)

omit [DecidableEq ι] in
theorem goneBy_down {place : ι → DelPlace} {q r : Row} (h : goneBy rows S place q = true) (hp : q.path <+: r.path) : goneBy rows S place r = true := by
  obtain ⟨i, hi, hd⟩ := goneBy_iff.1 h
  obtain ⟨n, hn, hs, hq⟩ := doomed_iff.1 hd
  exact goneBy_iff.2 ⟨i, hi, doomed_iff.2 ⟨n, hn, hs, hq.trans hp⟩⟩

theorem goneBy_same {place : ι → DelPlace} {i : ι} {l : DelPlace} (hl : l ≠ .over) (hi : place i ≠ .over) :
    goneBy rows S (fun j => if j = i then l else place j) = goneBy rows S place := by
  funext r
  rw [Bool.eq_iff_iff, goneBy_iff, goneBy_iff]
  refine exists_congr fun j => and_congr_left fun _ => ?_
  by_cases hj : j = i
  · subst hj; rw [if_pos rfl]; exact ⟨fun e => absurd e hl, fun e => absurd e hi⟩
  · rw [if_neg hj]

theorem goneBy_over {place : ι → DelPlace} {i : ι} {r : Row} :
    goneBy rows S (fun j => if j = i then .over else place j) r = true ↔ goneBy rows S place r = true ∨ doomed rows (S i) r = true := by
  rw [goneBy_iff, goneBy_iff]
  constructor
  · rintro ⟨j, hj, hd⟩
    by_cases e : j = i
    · subst e; exact Or.inr hd
    · rw [if_neg e] at hj; exact Or.inl ⟨j, hj, hd⟩
  · rintro (⟨j, hj, hd⟩ | hd)
    · exact ⟨j, by split <;> simp_all, hd⟩
    · exact ⟨i, by simp, hd⟩

omit [DecidableEq ι] in
theorem pi_filter (h : PI rows) (place : ι → DelPlace) : PI (rows.filter (fun r => !goneBy rows S place r)) := by
  refine del_inv h ?_
  intro r hr q hq e hk
  rw [Bool.not_eq_true', Bool.eq_false_iff] at hk ⊢
  exact fun hg => hk (goneBy_down hg (e ▸ pp_prefix _))

/-- a client finishes: `m` is what its DELETE matches -/
theorem DelInv.finish {s : State ι DB DelPlace} (h : DelInv rows S s) {i : ι} {db : DB} {m : Row → Bool} (hdb : db.rows = s.db.rows.filter (fun r => !m r))
    (hm : ∀ r ∈ rows, goneBy rows S s.place r = false → (m r = true ↔ doomed rows (S i) r = true)) :
    DelInv rows S ⟨db, fun j => if j = i then .over else s.place j⟩ := by
  have hmono : ∀ r, goneBy rows S s.place r = true → goneBy rows S (fun j => if j = i then .over else s.place j) r = true := fun r hr => goneBy_over.2 (Or.inl hr)
  refine ⟨?_, ?_, ?_, ?_⟩
  · show db.rows = rows.filter (fun r => !goneBy rows S (fun j => if j = i then .over else s.place j) r)
    rw [hdb, h.left, List.filter_filter]
    refine List.filter_congr (fun r hr => ?_)
    rw [← Bool.not_or]
    congr 1
    rw [Bool.eq_iff_iff, goneBy_over, Bool.or_eq_true]
    cases hg : goneBy rows S s.place r with
    | true => simp
    | false => rw [← hm r hr hg]; simp
  · intro j paths hj
    by_cases e : j = i
    · subst e; simp at hj
    · simp only [if_neg e] at hj; exact h.sound j paths hj
  · intro j paths hj q hq hs
    by_cases e : j = i
    · subst e; simp at hj
    · simp only [if_neg e] at hj
      exact (h.cover j paths hj q hq hs).imp_left (hmono q)
  · intro j paths ks hj r hr hg
    by_cases e : j = i
    · subst e; simp at hj
    · simp only [if_neg e] at hj
      refine h.keys j paths ks hj r hr ?_
      rw [Bool.eq_false_iff] at hg ⊢
      exact fun hh => hg (hmono r hh)

omit [DecidableEq ι] in
theorem matches_doomed {s : State ι DB DelPlace} (h : DelInv rows S s) {i : ι} {paths : List Path}
    (hp : s.place i = .todo paths ∨ ∃ ks, s.place i = .collected paths ks) {r : Row} (hg : goneBy rows S s.place r = false) :
    delMatches paths r = true ↔ doomed rows (S i) r = true := by
  unfold delMatches
  rw [List.any_eq_true, doomed_iff]
  simp only [List.isPrefixOf_iff_prefix]
  constructor
  · rintro ⟨p, hpm, hpr⟩
    obtain ⟨q, hq, hs, rfl⟩ := h.sound i paths hp p hpm
    exact ⟨q, hq, hs, hpr⟩
  · rintro ⟨q, hq, hs, hqr⟩
    rcases h.cover i paths hp q hq hs with h1 | ⟨p, hpm, hpq⟩
    · rw [goneBy_down h1 hqr] at hg; cases hg
    · exact ⟨p, hpm, hpq.trans hqr⟩

theorem delInv_step (hpi : PI rows) {fast : ι → Bool} {s : State ι DB DelPlace} (h : DelInv rows S s) {i : ι} {db : DB} {l : DelPlace}
    (e : delProg (fast i) (S i) s.db (s.place i) = some (db, l)) : DelInv rows S ⟨db, fun j => if j = i then l else s.place j⟩ := by
  unfold delProg at e
  split at e
  · rename_i hpl
    have hP : PI s.db.rows := by rw [h.left]; exact pi_filter hpi _
    have hR := removed_spec hP (S i)
    generalize removedLoop (orderByPath (s.db.rows.filter (S i))) [] = R at e hR
    have hmem : ∀ r, r ∈ s.db.rows ↔ r ∈ rows ∧ goneBy rows S s.place r = false := by
      intro r; rw [h.left, List.mem_filter, Bool.not_eq_true']
    simp only [Option.some.injEq, Prod.mk.injEq] at e
    obtain ⟨rfl, rfl⟩ := e
    cases hR0 : R with
    | nil =>
      simp only [List.isEmpty_nil, if_true]
      refine h.finish (m := fun _ => false) (by simp) ?_
      intro r hr hg
      simp only [Bool.false_eq_true, false_iff]
      intro hd
      obtain ⟨q, hq, hs, hqr⟩ := doomed_iff.1 hd
      cases hgq : goneBy rows S s.place q with
      | true => rw [goneBy_down hgq hqr] at hg; cases hg
      | false =>
        obtain ⟨p, hp, _⟩ := hR.cover q ((hmem q).2 ⟨hq, hgq⟩) hs
        rw [hR0] at hp
        cases hp
    | cons p0 R0 =>
      rw [← hR0, if_neg (by rw [hR0]; simp)]
      have hsame : goneBy rows S (fun j => if j = i then .todo R else s.place j) = goneBy rows S s.place := goneBy_same (by simp) (by rw [hpl]; simp)
      refine ⟨by show s.db.rows = rows.filter (fun r => !goneBy rows S (fun j => if j = i then .todo R else s.place j) r); rw [hsame]; exact h.left, ?_, ?_, ?_⟩
      · intro j paths hj p hp
        by_cases ej : j = i
        · subst ej
          simp at hj
          subst hj
          obtain ⟨n, hn, hs, e⟩ := hR.sub p hp
          exact ⟨n, ((hmem n).1 hn).1, hs, e⟩
        · simp only [if_neg ej] at hj; exact h.sound j paths hj p hp
      · intro j paths hj q hq hs
        show goneBy rows S (fun j => if j = i then .todo R else s.place j) q = true ∨ _
        rw [hsame]
        by_cases ej : j = i
        · subst ej
          simp at hj
          subst hj
          cases hgq : goneBy rows S s.place q with
          | true => exact Or.inl rfl
          | false => exact Or.inr (hR.cover q ((hmem q).2 ⟨hq, hgq⟩) hs)
        · simp only [if_neg ej] at hj; exact h.cover j paths hj q hq hs
      · intro j paths ks hj r hr hg
        by_cases ej : j = i
        · subst ej; simp at hj
        · simp only [if_neg ej] at hj
          refine h.keys j paths ks hj r hr ?_
          rw [← hsame]; exact hg
  · rename_i paths hpl
    split at e
    · simp only [Option.some.injEq, Prod.mk.injEq] at e
      obtain ⟨rfl, rfl⟩ := e
      exact h.finish (m := delMatches paths) rfl (fun r _ hg => matches_doomed h (Or.inl hpl) hg)
    · simp only [Option.some.injEq, Prod.mk.injEq] at e
      obtain ⟨rfl, rfl⟩ := e
      have hsame : ∀ ks, goneBy rows S (fun j => if j = i then .collected paths ks else s.place j) = goneBy rows S s.place :=
        fun ks => goneBy_same (by simp) (by rw [hpl]; simp)
      generalize hks : (s.db.rows.filter (delMatches paths)).map Row.pk = ks
      refine ⟨by show s.db.rows = rows.filter (fun r => !goneBy rows S (fun j => if j = i then .collected paths ks else s.place j) r); rw [hsame]; exact h.left, ?_, ?_, ?_⟩
      · intro j paths' hj p hp
        by_cases ej : j = i
        · subst ej
          simp at hj
          subst hj
          exact h.sound j paths (Or.inl hpl) p hp
        · simp only [if_neg ej] at hj; exact h.sound j paths' hj p hp
      · intro j paths' hj q hq hs
        show goneBy rows S (fun j => if j = i then .collected paths ks else s.place j) q = true ∨ _
        rw [hsame]
        by_cases ej : j = i
        · subst ej
          simp at hj
          subst hj
          exact h.cover j paths (Or.inl hpl) q hq hs
        · simp only [if_neg ej] at hj; exact h.cover j paths' hj q hq hs
      · intro j paths' ks' hj r hr hg
        have hg' : goneBy rows S s.place r = false := by rw [← hsame ks]; exact hg
        by_cases ej : j = i
        · subst ej
          simp at hj
          obtain ⟨rfl, rfl⟩ := hj
          rw [← hks, List.mem_map]
          constructor
          · rintro ⟨q, hq, ek⟩
            obtain ⟨h1, h2⟩ := List.mem_filter.1 hq
            rw [h.left] at h1
            rwa [← hpi.pk_inj (List.mem_filter.1 h1).1 hr ek]
          · intro hm
            exact ⟨r, List.mem_filter.2 ⟨by rw [h.left]; exact List.mem_filter.2 ⟨hr, by rw [hg']; rfl⟩, hm⟩, rfl⟩
        · simp only [if_neg ej] at hj; exact h.keys j paths' ks' hj r hr hg'
  · rename_i paths ks hpl
    simp only [Option.some.injEq, Prod.mk.injEq] at e
    obtain ⟨rfl, rfl⟩ := e
    refine h.finish (m := fun r => ks.contains r.pk) rfl (fun r hr hg => ?_)
    rw [List.contains_iff_mem, h.keys i paths ks hpl r hr hg]
    exact matches_doomed h (Or.inr ⟨ks, hpl⟩) hg
  · cases e

theorem delInv_reach (hpi : PI rows) {fast : ι → Bool} {db : DB} (hdb : db.rows = rows) {s : State ι DB DelPlace}
    (h : Reach (fun i => delProg (fast i) (S i)) (.init .start db) s) : DelInv rows S s := by
  refine h.keeps ?_ (fun s i db l hs e => delInv_step (S := S) hpi hs e)
  refine ⟨?_, ?_, ?_, ?_⟩
  · show db.rows = _
    rw [hdb]
    symm
    rw [List.filter_eq_self]
    intro r _
    rw [Bool.not_eq_true', Bool.eq_false_iff]
    intro hg
    obtain ⟨i, hi, _⟩ := goneBy_iff.1 hg
    cases hi
  all_goals (intro i paths; simp [State.init])

end Verif.LT
