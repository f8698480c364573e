/-
MP: sorted trees, from rows to the specification and back.
-/
import Verif.MP.Move
import Verif.MP.Query
import Verif.SpecSorted

namespace Verif.MP

variable {cfg : Cfg} {db : DB}

/-- the values of a stored node -/
def valsOf (db : DB) (k : Nat) : Vals := ((db.get? k).map Row.vals).getD []

theorem valsOf_row (h : PI cfg db.rows) {r : Row} (hr : r ∈ db.rows) : valsOf db r.pk = r.vals := by
  unfold valsOf
  rw [(get?_eq_some h).2 ⟨hr, rfl⟩]; rfl

/-- no null values in the order fields -/
def AllNonNull (cfg : Cfg) (db : DB) : Prop := ∀ r ∈ db.rows, NonNull cfg.orderBy r.vals

/-- the list of the siblings below `P`, as rows -/
theorem sibs_list (h : PInv cfg db.rows) (hok : cfg.Ok) {P : List Nat} (hP : IsPar db.rows P) :
    ∃ l : List Row, PF cfg db.rows (at? db.rows P) = l.map Row.pk ∧ l.Pairwise (fun a b => a.path < b.path) ∧
      ∀ r, r ∈ l ↔ r ∈ db.rows ∧ pp cfg.steplen r.path = P := by
  obtain ⟨l, e, s, m⟩ := (shows_pforest h.inv).lists (at? db.rows P)
  refine ⟨l, e, s, fun r => ?_⟩
  rw [m]
  exact and_congr_right (fun hr => par_eq_at h hok hr hP)

theorem sortedSibs_of (h : PInv cfg db.rows) (hok : cfg.Ok) (hn : AllNonNull cfg db)
    {K : Nat → Prop} [DecidablePred K] (hs : Forest.SortedBy (fun p => (PF cfg db.rows p).filter (fun k => decide (K k))) cfg.orderBy (valsOf db))
    {P : List Nat} (hP : IsPar db.rows P) : SortedSibs cfg db.rows P K := by
  refine ⟨fun r hr _ _ => hn r hr, ?_⟩
  intro a ha b hb hpa hpb hKa hKb hlt
  obtain ⟨l, e, s, m⟩ := sibs_list h hok hP
  have h1 := hs (at? db.rows P)
  simp only [e] at h1
  rw [List.filter_map, List.pairwise_map] at h1
  have h2 := h1.and (s.sublist (List.filter_sublist (p := (fun k => decide (K k)) ∘ Row.pk)))
  have hal : a ∈ l.filter ((fun k => decide (K k)) ∘ Row.pk) := List.mem_filter.2 ⟨(m a).2 ⟨ha, hpa⟩, by simpa using hKa⟩
  have hbl : b ∈ l.filter ((fun k => decide (K k)) ∘ Row.pk) := List.mem_filter.2 ⟨(m b).2 ⟨hb, hpb⟩, by simpa using hKb⟩
  have hne : a ≠ b := by rintro rfl; exact plt_irrefl _ hlt
  rcases pairwise_or h2 hal hbl hne with h3 | h3
  · rw [valsOf_row h.inv ha, valsOf_row h.inv hb] at h3; exact h3.1
  · exact absurd hlt (plt_asymm h3.2)

theorem sortedSibs_all (h : PInv cfg db.rows) (hok : cfg.Ok) (hn : AllNonNull cfg db)
    (hs : (PF cfg db.rows).SortedBy cfg.orderBy (valsOf db)) {P : List Nat} (hP : IsPar db.rows P) :
    SortedSibs cfg db.rows P (fun _ => True) := by
  refine sortedSibs_of h hok hn (K := fun _ => True) ?_ hP
  simpa using hs

theorem sortedSibs_except (h : PInv cfg db.rows) (hok : cfg.Ok) (hn : AllNonNull cfg db) {x : Nat}
    (hs : ((PF cfg db.rows).remove x).SortedBy cfg.orderBy (valsOf db)) {P : List Nat} (hP : IsPar db.rows P) :
    SortedSibs cfg db.rows P (· ≠ x) := sortedSibs_of h hok hn (K := (· ≠ x)) hs hP

/-- the sorted slot found by the code is the sorted place of the specification -/
theorem sortedIns_of_slot (h : PInv cfg db.rows) (hok : cfg.Ok) {K : Nat → Prop} [DecidablePred K] {P : List Nat}
    (hP : IsPar db.rows P) {vx : Vals} {s : Slot} (hs : SortedSlot cfg db.rows P K vx s) (x : Nat) :
    SortedIns cfg.orderBy (valsOf db) x vx ((PF cfg db.rows (at? db.rows P)).filter (fun k => decide (K k)))
      (s.ins x ((PF cfg db.rows (at? db.rows P)).filter (fun k => decide (K k)))) := by
  obtain ⟨l, e, sl, m⟩ := sibs_list h hok hP
  rw [e, List.filter_map]
  have hm : ∀ r, r ∈ l.filter ((fun k => decide (K k)) ∘ Row.pk) → r ∈ db.rows ∧ pp cfg.steplen r.path = P ∧ K r.pk := by
    intro r hr
    obtain ⟨h1, h2⟩ := List.mem_filter.1 hr
    exact ⟨((m r).1 h1).1, ((m r).1 h1).2, by simpa using h2⟩
  cases s with
  | first => exact absurd hs (by simp [SortedSlot])
  | after => exact absurd hs (by simp [SortedSlot])
  | last =>
    apply SortedIns.last
    intro k hk
    obtain ⟨r, hr, rfl⟩ := List.mem_map.1 hk
    obtain ⟨h1, h2, h3⟩ := hm r hr
    rw [valsOf_row h.inv h1]
    exact hs r h1 h2 h3
  | before t =>
    obtain ⟨tr, h1, h2, h3, rfl, h4⟩ := hs
    refine SortedIns.before (lt := fun a b : Row => a.path < b.path) (sl.sublist List.filter_sublist) ?_ ?_ ?_ ?_ ?_
    · intro a ha b hb; exact h.inv.pk_inj (hm a ha).1 (hm b hb).1
    · intro a _; exact plt_irrefl _
    · intro a _ b _; exact plt_asymm
    · exact List.mem_filter.2 ⟨(m tr).2 ⟨h1, h2⟩, by simpa using h3⟩
    · intro r hr
      obtain ⟨k1, k2, k3⟩ := hm r hr
      rw [valsOf_row h.inv k1]
      exact h4 r k1 k2 k3

/-- the stored values follow the data -/
theorem valsOf_eq_lookup (db : DB) (k : Nat) : valsOf db k = ((data db.rows).lookup k).getD [] := by
  unfold valsOf DB.get? data
  congr 1
  induction db.rows with
  | nil => rfl
  | cons r l ih =>
    rw [List.find?_cons, List.map_cons, List.lookup_cons]
    by_cases e : r.pk = k
    · subst e; simp
    · have e' : (k == r.pk) = false := by simpa using fun h => e h.symm
      have e'' : (r.pk == k) = false := by simpa using e
      simp only [e', e'']
      exact ih

theorem valsOf_congr {db db' : DB} (h : data db'.rows = data db.rows) : valsOf db' = valsOf db := by
  funext k; rw [valsOf_eq_lookup, valsOf_eq_lookup, h]

theorem valsOf_append {db db' : DB} {new : Row} (h : data db'.rows = data db.rows ++ [(new.pk, new.vals)])
    (hfresh : ∀ r ∈ db.rows, r.pk ≠ new.pk) :
    valsOf db' new.pk = new.vals ∧ ∀ r ∈ db.rows, valsOf db' r.pk = valsOf db r.pk := by
  have hno : (data db.rows).lookup new.pk = none := by
    rw [List.lookup_eq_none_iff]
    intro p hp
    obtain ⟨r, hr, rfl⟩ := List.mem_map.1 hp
    simpa using fun e => hfresh r hr e.symm
  constructor
  · rw [valsOf_eq_lookup, h, List.lookup_append, hno]
    simp
  · intro r hr
    rw [valsOf_eq_lookup, valsOf_eq_lookup, h, List.lookup_append]
    have : ∃ v, (data db.rows).lookup r.pk = some v := by
      cases hl : (data db.rows).lookup r.pk with
      | some v => exact ⟨v, rfl⟩
      | none =>
        rw [List.lookup_eq_none_iff] at hl
        have := hl (r.pk, r.vals) (List.mem_map.2 ⟨r, hr, rfl⟩)
        simp at this
    obtain ⟨v, e⟩ := this
    rw [e]; simp

theorem allNonNull_data (db : DB) : AllNonNull cfg db ↔ ∀ e ∈ data db.rows, NonNull cfg.orderBy e.2 := by
  unfold AllNonNull data
  simp

end Verif.MP
