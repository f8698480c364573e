/-
AL: `delete` statement by statement (Django's `Collector`), with other calls of `delete` in between.
-/
import Verif.AL.Delete
import Verif.Auto

namespace Verif.AL

open Auto

/-- Where a call of `delete` is. -/
inductive DelPlace where
  | start
  /-- the keys collected so far, and those whose children have not been asked for -/
  | collecting (seen todo : List Nat)
  | over
  /-- the database refuses: a row that stays refers to one that goes -/
  | failed
deriving DecidableEq

/-- a row whose parent is one of `ks` -/
def refersTo (ks : List Nat) (r : Row) : Bool := match r.parent with
  | none => false
  | some p => ks.contains p

/-- `queryset.delete()` (al_tree.py has none of its own; django/db/models/deletion.py `Collector.collect`, `Collector.delete`): a SELECT of the chosen rows, a SELECT of
the rows that refer to the new ones until there are none, and a DELETE by primary keys.  (The DELETEs are one transaction, with the foreign keys checked at its end.) -/
def delProg (sel : Row → Bool) : Prog DB DelPlace := fun db l =>
  match l with
  | .start => some (db, .collecting ((db.rows.filter sel).map Row.pk) ((db.rows.filter sel).map Row.pk))
  | .collecting seen [] =>
    if db.rows.any (fun r => refersTo seen r && !seen.contains r.pk) then some (db, .failed)
    else some (⟨db.rows.filter (fun r => !seen.contains r.pk)⟩, .over)
  | .collecting seen todo =>
    let new := (db.rows.filter (fun r => refersTo todo r && !seen.contains r.pk)).map Row.pk
    some (db, .collecting (seen ++ new) new)
  | .over => none
  | .failed => none

theorem refersTo_iff {ks : List Nat} {r : Row} : refersTo ks r = true ↔ ∃ p ∈ ks, r.parent = some p := by
  unfold refersTo
  cases r.parent with
  | none => simp
  | some p => simp

variable {ι : Type} {rows : List Row} {S : ι → Nat → Bool} {cfg : Cfg}

open Classical in
/-- what the clients that are through have removed -/
noncomputable def goneBy (cfg : Cfg) (rows : List Row) (S : ι → Nat → Bool) (place : ι → DelPlace) (k : Nat) : Bool :=
  decide (∃ i, place i = .over ∧ Tree.Doomed (PF cfg rows) (S i) k)

/-- The invariant. -/
structure DelInv (cfg : Cfg) (rows : List Row) (S : ι → Nat → Bool) (s : State ι DB DelPlace) : Prop where
  left : s.db.rows = rows.filter (fun r => !goneBy cfg rows S s.place r.pk)
  ok : ∀ i, s.place i ≠ .failed
  sub : ∀ i seen todo, s.place i = .collecting seen todo → todo ⊆ seen
  sound : ∀ i seen todo, s.place i = .collecting seen todo → ∀ k ∈ seen, Tree.Doomed (PF cfg rows) (S i) k
  cover : ∀ i seen todo, s.place i = .collecting seen todo → ∀ r ∈ rows, S i r.pk = true → goneBy cfg rows S s.place r.pk = true ∨ r.pk ∈ seen
  closed : ∀ i seen todo, s.place i = .collecting seen todo → ∀ r ∈ rows, ∀ p ∈ seen, p ∉ todo → r.parent = some p →
    goneBy cfg rows S s.place r.pk = true ∨ r.pk ∈ seen

theorem goneBy_iff {place : ι → DelPlace} {k : Nat} : goneBy cfg rows S place k = true ↔ ∃ i, place i = .over ∧ Tree.Doomed (PF cfg rows) (S i) k := by
  unfold goneBy
  exact @decide_eq_true_iff _ (Classical.propDecidable _)

theorem doomed_child {F : Forest} {S : Nat → Bool} {p k : Nat} (h : Tree.Doomed F S p) (hm : k ∈ F (some p)) : Tree.Doomed F S k := by
  rcases h with hd | ⟨q, hq, hd⟩
  · exact Or.inr ⟨p, hd, .child hm⟩
  · exact Or.inr ⟨q, hq, .step hd hm⟩

theorem goneBy_child {place : ι → DelPlace} {r : Row} (hr : r ∈ rows) {p : Nat} (hp : r.parent = some p) (h : goneBy cfg rows S place p = true) :
    goneBy cfg rows S place r.pk = true := by
  obtain ⟨i, hi, hd⟩ := goneBy_iff.1 h
  exact goneBy_iff.2 ⟨i, hi, doomed_child hd (mem_PF.2 ⟨r, hr, hp, rfl⟩)⟩

variable [DecidableEq ι]

theorem goneBy_same {place : ι → DelPlace} {i : ι} {l : DelPlace} (hl : l ≠ .over) (hi : place i ≠ .over) :
    goneBy cfg rows S (fun j => if j = i then l else place j) = goneBy cfg rows S place := by
  funext r
  rw [Bool.eq_iff_iff, goneBy_iff, goneBy_iff]
  refine exists_congr fun j => and_congr_left fun _ => ?_
  by_cases hj : j = i
  · subst hj; rw [if_pos rfl]; exact ⟨fun e => absurd e hl, fun e => absurd e hi⟩
  · rw [if_neg hj]

theorem goneBy_over {place : ι → DelPlace} {i : ι} {k : Nat} :
    goneBy cfg rows S (fun j => if j = i then .over else place j) k = true ↔ goneBy cfg rows S place k = true ∨ Tree.Doomed (PF cfg rows) (S i) k := by
  rw [goneBy_iff, goneBy_iff]
  constructor
  · rintro ⟨j, hj, hd⟩
    by_cases e : j = i
    · subst e; exact Or.inr hd
    · rw [if_neg e] at hj; exact Or.inl ⟨j, hj, hd⟩
  · rintro (⟨j, hj, hd⟩ | hd)
    · exact ⟨j, by split <;> simp_all, hd⟩
    · exact ⟨i, by simp, hd⟩

/-- a client goes on collecting -/
theorem DelInv.collect {s : State ι DB DelPlace} (h : DelInv cfg rows S s) {i : ι} {seen todo : List Nat} (hi : s.place i ≠ .over) (hsub : todo ⊆ seen)
    (hsound : ∀ k ∈ seen, Tree.Doomed (PF cfg rows) (S i) k)
    (hcover : ∀ r ∈ rows, S i r.pk = true → goneBy cfg rows S s.place r.pk = true ∨ r.pk ∈ seen)
    (hclosed : ∀ r ∈ rows, ∀ p ∈ seen, p ∉ todo → r.parent = some p → goneBy cfg rows S s.place r.pk = true ∨ r.pk ∈ seen) :
    DelInv cfg rows S ⟨s.db, fun j => if j = i then .collecting seen todo else s.place j⟩ := by
  have hsame : goneBy cfg rows S (fun j => if j = i then .collecting seen todo else s.place j) = goneBy cfg rows S s.place := goneBy_same (by simp) hi
  refine ⟨?_, ?_, ?_, ?_, ?_, ?_⟩
  · show s.db.rows = rows.filter (fun r => !goneBy cfg rows S (fun j => if j = i then .collecting seen todo else s.place j) r.pk)
    rw [hsame]; exact h.left
  · intro j
    by_cases e : j = i
    · subst e; simp
    · simp only [if_neg e]; exact h.ok j
  · intro j se td hj
    by_cases e : j = i
    · subst e; simp at hj; obtain ⟨rfl, rfl⟩ := hj; exact hsub
    · simp only [if_neg e] at hj; exact h.sub j _ _ hj
  · intro j se td hj
    by_cases e : j = i
    · subst e; simp at hj; obtain ⟨rfl, rfl⟩ := hj; exact hsound
    · simp only [if_neg e] at hj; exact h.sound j _ _ hj
  · intro j se td hj
    show ∀ r ∈ rows, S j r.pk = true → goneBy cfg rows S (fun j => if j = i then .collecting seen todo else s.place j) r.pk = true ∨ r.pk ∈ se
    rw [hsame]
    by_cases e : j = i
    · subst e; simp at hj; obtain ⟨rfl, rfl⟩ := hj; exact hcover
    · simp only [if_neg e] at hj; exact h.cover j _ _ hj
  · intro j se td hj
    show ∀ r ∈ rows, ∀ p ∈ se, p ∉ td → r.parent = some p → goneBy cfg rows S (fun j => if j = i then .collecting seen todo else s.place j) r.pk = true ∨ r.pk ∈ se
    rw [hsame]
    by_cases e : j = i
    · subst e; simp at hj; obtain ⟨rfl, rfl⟩ := hj; exact hclosed
    · simp only [if_neg e] at hj; exact h.closed j _ _ hj

omit [DecidableEq ι] in
/-- what is collected in the end is everything below -/
theorem DelInv.all (hai : AI rows) {s : State ι DB DelPlace} (h : DelInv cfg rows S s) {i : ι} {seen : List Nat} (hi : s.place i = .collecting seen []) {k : Nat}
    (hk : k ∈ rows.map Row.pk) (hg : goneBy cfg rows S s.place k = false) : k ∈ seen ↔ Tree.Doomed (PF cfg rows) (S i) k := by
  refine ⟨h.sound i _ _ hi k, ?_⟩
  have key : ∀ q k, S i q = true → (PF cfg rows).Desc q k → goneBy cfg rows S s.place k = true ∨ k ∈ seen := by
    intro q k hq hd
    have hup : ∀ {p : Nat} {d : Nat}, (goneBy cfg rows S s.place p = true ∨ p ∈ seen) → d ∈ PF cfg rows (some p) → goneBy cfg rows S s.place d = true ∨ d ∈ seen := by
      intro p d hp hd
      obtain ⟨c, hc, ep, rfl⟩ := mem_PF.1 hd
      rcases hp with hp | hp
      · exact Or.inl (goneBy_child hc ep hp)
      · exact h.closed i _ _ hi c hc p hp (by simp) ep
    induction hd with
    | child hm =>
      obtain ⟨c, hc, ep, rfl⟩ := mem_PF.1 hm
      obtain ⟨r, hr, rfl⟩ := hai.exist c hc q ep
      exact hup (h.cover i _ _ hi r hr hq) hm
    | step _ hm ih => exact hup ih hm
  rintro (hd | ⟨q, hq, hd⟩)
  · obtain ⟨r, hr, rfl⟩ := List.mem_map.1 hk
    rcases h.cover i _ _ hi r hr hd with h1 | h1
    · rw [h1] at hg; cases hg
    · exact h1
  · rcases key q k hq hd with h1 | h1
    · rw [h1] at hg; cases hg
    · exact h1

theorem delInv_step (hai : AI rows) {s : State ι DB DelPlace} (h : DelInv cfg rows S s) {i : ι} {db : DB} {l : DelPlace}
    (e : delProg (fun r => S i r.pk) s.db (s.place i) = some (db, l)) : DelInv cfg rows S ⟨db, fun j => if j = i then l else s.place j⟩ := by
  have hmem : ∀ r, r ∈ s.db.rows ↔ r ∈ rows ∧ goneBy cfg rows S s.place r.pk = false := by
    intro r; rw [h.left, List.mem_filter, Bool.not_eq_true']
  unfold delProg at e
  split at e
  · rename_i hpl
    simp only [Option.some.injEq, Prod.mk.injEq] at e
    obtain ⟨rfl, rfl⟩ := e
    refine h.collect (by rw [hpl]; simp) (fun _ hx => hx) ?_ ?_ ?_
    · intro k hk
      obtain ⟨r, hr, rfl⟩ := List.mem_map.1 hk
      exact Or.inl (List.mem_filter.1 hr).2
    · intro r hr hs
      cases hg : goneBy cfg rows S s.place r.pk with
      | true => exact Or.inl rfl
      | false => exact Or.inr (List.mem_map_of_mem (List.mem_filter.2 ⟨(hmem r).2 ⟨hr, hg⟩, hs⟩))
    · intro r _ p h1 h2
      exact absurd h1 h2
  · rename_i seen hpl
    split at e
    · rename_i hany
      exfalso
      obtain ⟨r, hr, hx⟩ := List.any_eq_true.1 hany
      rw [Bool.and_eq_true, refersTo_iff] at hx
      obtain ⟨⟨p, hp, ep⟩, hx⟩ := hx
      obtain ⟨h1, h2⟩ := (hmem r).1 hr
      rcases h.closed i _ _ hpl r h1 p hp (by simp) ep with h3 | h3
      · rw [h3] at h2; cases h2
      · rw [List.contains_iff_mem.2 h3] at hx; cases hx
    · simp only [Option.some.injEq, Prod.mk.injEq] at e
      obtain ⟨rfl, rfl⟩ := e
      have hmono : ∀ k, goneBy cfg rows S s.place k = true → goneBy cfg rows S (fun j => if j = i then .over else s.place j) k = true := fun r hr => goneBy_over.2 (Or.inl hr)
      refine ⟨?_, ?_, ?_, ?_, ?_, ?_⟩
      · show s.db.rows.filter (fun r => !seen.contains r.pk) = rows.filter (fun r => !goneBy cfg rows S (fun j => if j = i then .over else s.place j) r.pk)
        rw [h.left, List.filter_filter]
        refine List.filter_congr (fun r hr => ?_)
        rw [← Bool.not_or]
        congr 1
        rw [Bool.eq_iff_iff, goneBy_over, Bool.or_eq_true]
        cases hg : goneBy cfg rows S s.place r.pk with
        | true => simp
        | false =>
          rw [← h.all hai hpl (List.mem_map_of_mem hr) hg, List.contains_iff_mem]
          simp
      · intro j
        by_cases ej : j = i
        · subst ej; simp
        · simp only [if_neg ej]; exact h.ok j
      · intro j se td hj
        by_cases ej : j = i
        · subst ej; simp at hj
        · simp only [if_neg ej] at hj; exact h.sub j _ _ hj
      · intro j se td hj
        by_cases ej : j = i
        · subst ej; simp at hj
        · simp only [if_neg ej] at hj; exact h.sound j _ _ hj
      · intro j se td hj r hr hs
        by_cases ej : j = i
        · subst ej; simp at hj
        · simp only [if_neg ej] at hj
          exact (h.cover j _ _ hj r hr hs).imp_left (hmono _)
      · intro j se td hj r hr p hp hpt ep
        by_cases ej : j = i
        · subst ej; simp at hj
        · simp only [if_neg ej] at hj
          exact (h.closed j _ _ hj r hr p hp hpt ep).imp_left (hmono _)
  · rename_i seen todo _ hpl
    simp only [Option.some.injEq, Prod.mk.injEq] at e
    obtain ⟨rfl, rfl⟩ := e
    refine h.collect (by rw [hpl]; simp) (List.subset_append_right _ _) ?_ ?_ ?_
    · intro k hk
      rcases List.mem_append.1 hk with hk | hk
      · exact h.sound i _ _ hpl k hk
      · obtain ⟨r, hr, rfl⟩ := List.mem_map.1 hk
        obtain ⟨h1, h2⟩ := List.mem_filter.1 hr
        rw [Bool.and_eq_true, refersTo_iff] at h2
        obtain ⟨⟨p, hp, ep⟩, _⟩ := h2
        exact doomed_child (h.sound i _ _ hpl p (h.sub i _ _ hpl hp)) (mem_PF.2 ⟨r, ((hmem r).1 h1).1, ep, rfl⟩)
    · intro r hr hs
      exact (h.cover i _ _ hpl r hr hs).imp_right (fun hx => List.mem_append_left _ hx)
    · intro r hr p hp hpt ep
      rcases List.mem_append.1 hp with hp | hp
      · by_cases hpn : p ∈ todo
        · cases hg : goneBy cfg rows S s.place r.pk with
          | true => exact Or.inl rfl
          | false =>
            refine Or.inr ?_
            rw [List.mem_append]
            by_cases hrs : r.pk ∈ seen
            · exact Or.inl hrs
            · refine Or.inr (List.mem_map_of_mem (List.mem_filter.2 ⟨(hmem r).2 ⟨hr, hg⟩, ?_⟩))
              rw [Bool.and_eq_true, refersTo_iff]
              exact ⟨⟨p, hpn, ep⟩, by simp [hrs]⟩
        · exact (h.closed i _ _ hpl r hr p hp hpn ep).imp_right (fun hx => List.mem_append_left _ hx)
      · exact absurd hp hpt
  · cases e
  · cases e

theorem delInv_reach (hai : AI rows) {db : DB} (hdb : db.rows = rows) {s : State ι DB DelPlace}
    (h : Reach (fun i => delProg (fun r => S i r.pk)) (.init .start db) s) : DelInv cfg rows S s := by
  refine h.keeps ?_ (fun s i db l hs e => delInv_step hai hs e)
  refine ⟨?_, ?_, ?_, ?_, ?_, ?_⟩
  · show db.rows = _
    rw [hdb]
    symm
    rw [List.filter_eq_self]
    intro r _
    rw [Bool.not_eq_true', Bool.eq_false_iff]
    intro hg
    obtain ⟨i, hi, _⟩ := goneBy_iff.1 hg
    cases hi
  all_goals (intro i; simp [State.init])

/-- the rows less a set that has the children of its members -/
theorem filter_spec {D : Nat → Bool} (h : AInv cfg rows) (hD : ∀ r ∈ rows, ∀ p, r.parent = some p → D p = true → D r.pk = true) :
    AInv cfg (rows.filter (fun r => !D r.pk)) ∧ PF cfg (rows.filter (fun r => !D r.pk)) = (PF cfg rows).prune D := by
  have h' : AInv cfg (rows.filter (fun r => !D r.pk)) := by
    refine ⟨⟨h.pks.sublist (List.filter_sublist.map _), ?_, ?_⟩, fun ho r hr => h.sib ho r (List.mem_filter.1 hr).1,
      fun a ha b hb => h.comp a (List.mem_filter.1 ha).1 b (List.mem_filter.1 hb).1⟩
    · intro r hr p e
      obtain ⟨h1, h2⟩ := List.mem_filter.1 hr
      obtain ⟨q, hq, rfl⟩ := h.exist r h1 p e
      refine ⟨q, List.mem_filter.2 ⟨hq, ?_⟩, rfl⟩
      cases hg : D q.pk with
      | false => rfl
      | true => rw [hD r h1 _ e hg] at h2; cases h2
    · obtain ⟨rank, hrk⟩ := h.rank
      exact ⟨rank, fun r hr => hrk r (List.mem_filter.1 hr).1⟩
  refine ⟨h', ?_⟩
  have hF' : Shows (PF cfg (rows.filter (fun r => !D r.pk))) (fun r => r ∈ rows ∧ D r.pk = false) Row.pk Row.parent (lt cfg) := by
    refine (shows_PF h').congr ?_ (fun _ _ => rfl) (fun _ _ _ _ _ hlt => hlt)
    intro r
    rw [List.mem_filter]
    simp
  refine Shows.prune (shows_PF h) hF' (fun _ _ _ => rfl) (fun _ _ _ _ _ _ _ hlt => hlt) (asymOn_lt _) ?_
  intro r q hr e hg
  exact hD r hr q e hg

theorem collecting_ends (sel : Row → Bool) (db : DB) : ∀ (n : Nat) (seen todo : List Nat), db.rows.countP (fun r => !seen.contains r.pk) < n →
    ∃ seen', Alone (delProg sel) db (.collecting seen todo) db (.collecting seen' []) := by
  intro n
  induction n with
  | zero => intro seen todo h; omega
  | succ n ih =>
    intro seen todo h
    cases todo with
    | nil => exact ⟨seen, .refl⟩
    | cons t ts =>
      have hst : ∃ new, delProg sel db (.collecting seen (t :: ts)) = some (db, .collecting (seen ++ new) new) ∧ ∀ k ∈ new, k ∉ seen ∧ k ∈ db.rows.map Row.pk := by
        refine ⟨_, rfl, ?_⟩
        intro k hk
        obtain ⟨r, hr, rfl⟩ := List.mem_map.1 hk
        obtain ⟨h1, h2⟩ := List.mem_filter.1 hr
        rw [Bool.and_eq_true] at h2
        refine ⟨?_, List.mem_map_of_mem h1⟩
        simpa using h2.2
      obtain ⟨new, hst, hnew⟩ := hst
      cases new with
      | nil => exact ⟨seen, .step hst (by rw [List.append_nil]; exact .refl)⟩
      | cons k ks =>
        obtain ⟨hk, hkm⟩ := hnew k (by simp)
        obtain ⟨r, hr, rfl⟩ := List.mem_map.1 hkm
        obtain ⟨seen', h'⟩ := ih (seen ++ r.pk :: ks) (r.pk :: ks) (by
          refine Nat.lt_of_lt_of_le ?_ (Nat.le_of_lt_succ h)
          obtain ⟨a, b, e⟩ := List.append_of_mem hr
          rw [e]
          have hle : ∀ l : List Row, l.countP (fun r' => !(seen ++ r.pk :: ks).contains r'.pk) ≤ l.countP (fun r' => !seen.contains r'.pk) := by
            intro l
            refine List.countP_mono_left (fun x _ hx => ?_)
            simp only [Bool.not_eq_true', Bool.eq_false_iff, ne_eq, List.contains_iff_mem, List.mem_append] at hx ⊢
            exact fun hh => hx (Or.inl hh)
          rw [List.countP_append, List.countP_append, List.countP_cons_of_neg (by simp), List.countP_cons_of_pos (by simpa using hk)]
          have := hle a; have := hle b
          omega)
        exact ⟨seen', .step hst h'⟩

/-- Alone, the statements are `delete`. -/
theorem delProg_alone (db : DB) (h : AI db.rows) (S : Nat → Bool) : Alone (delProg (fun r => S r.pk)) db .start (delete db (fun r => S r.pk)) .over := by
  have cfg : Cfg := ⟨[], id, fun _ => .refl _⟩
  obtain ⟨seen, h1⟩ := collecting_ends (fun r => S r.pk) db _ ((db.rows.filter (fun r => S r.pk)).map Row.pk) ((db.rows.filter (fun r => S r.pk)).map Row.pk) (Nat.lt_succ_self _)
  have h2 : Alone (delProg (fun r => S r.pk)) db .start db (.collecting seen []) := .step rfl h1
  have key : ∀ l db', delProg (fun r => S r.pk) db (.collecting seen []) = some (db', l) → l ≠ .failed ∧ (l = .over → db'.rows = (delete db (fun r => S r.pk)).rows) := by
    intro l db' e
    have hr := delInv_reach (cfg := cfg) (S := fun _ : Unit => S) (rows := db.rows) h rfl ((h2.trans (.step e .refl)).reach .refl)
    refine ⟨hr.ok (), ?_⟩
    rintro rfl
    rw [hr.left, delete_rows]
    refine List.filter_congr (fun r hm => ?_)
    congr 1
    rw [Bool.eq_iff_iff, goneBy_iff, gone_iff (cfg := cfg) h]
    simp [List.mem_map_of_mem hm]
  refine h2.trans ?_
  cases hany : db.rows.any (fun r => refersTo seen r && !seen.contains r.pk) with
  | true => exact absurd rfl (key .failed db (by unfold delProg; simp only [hany, if_true])).1
  | false =>
    have e : delProg (fun r => S r.pk) db (.collecting seen []) = some (⟨db.rows.filter (fun r => !seen.contains r.pk)⟩, .over) := by
      unfold delProg; simp only [hany, Bool.false_eq_true, if_false]
    refine .step e ?_
    have := (key _ _ e).2 rfl
    have hd : (⟨db.rows.filter (fun r => !seen.contains r.pk)⟩ : DB) = delete db (fun r => S r.pk) := by
      rw [show delete db (fun r => S r.pk) = ⟨(delete db (fun r => S r.pk)).rows⟩ from rfl, ← this]
    rw [hd]
    exact .refl

end Verif.AL
