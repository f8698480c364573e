/-
The first node found by `get_sorted_pos_queryset` is the sorted place.  Shared by the NS, AL and LT models.
-/
import Verif.SpecSorted

namespace Verif

variable {ρ : Type}

theorem sortedPos_eq_filter {ob : List (Nat × Bool)} (hob : ob ≠ []) {vals : ρ → Vals} (l : List ρ) {vx : Vals} (hn : NonNull ob vx) :
    ∃ P : ρ → Bool, (∀ r, P r = true ↔ keyLt ob vx (vals r)) ∧ sortedPosQueryset ob vals l vx = l.filter P := by
  refine ⟨fun r => (sortedFilters ob vx []).any (fun flt => filterHolds flt (vals r)), ?_, ?_⟩
  · intro r
    rw [sortedFilters_any _ hn]
    simp
  · unfold sortedPosQueryset
    simp only [sortedFilters_ne hob hn, Bool.false_eq_true, if_false]

/-- The other siblings are sorted; `x` may be among the siblings, anywhere. -/
theorem sortedIns_head {ob : List (Nat × Bool)} (hob : ob ≠ []) {v : Nat → Vals} {vals : ρ → Vals} {pk : ρ → Nat} {l : List ρ}
    {x : Nat} {vx : Vals} (hn : NonNull ob vx) (hnl : ∀ r ∈ l, NonNull ob (vals r)) (hv : ∀ r ∈ l, v (pk r) = vals r)
    (hx : ∀ r ∈ l, pk r = x → vals r = vx) (hnd : (l.map pk).Nodup)
    (hs : ((l.map pk).filter (fun k => decide (k ≠ x))).Pairwise (fun a b => ¬ keyLt ob (v b) (v a))) :
    (∀ z, (sortedPosQueryset ob vals l vx).head? = some z → pk z ≠ x ∧
      SortedIns ob v x vx ((l.map pk).filter (fun k => decide (k ≠ x)))
        ((Slot.before (pk z)).ins x ((l.map pk).filter (fun k => decide (k ≠ x))))) ∧
    ((sortedPosQueryset ob vals l vx).head? = none →
      SortedIns ob v x vx ((l.map pk).filter (fun k => decide (k ≠ x)))
        (Slot.last.ins x ((l.map pk).filter (fun k => decide (k ≠ x))))) := by
  obtain ⟨P, hP, e⟩ := sortedPos_eq_filter hob (vals := vals) l hn
  rw [e, List.head?_filter]
  constructor
  · intro z hz
    obtain ⟨hPz, l₁, l₂, rfl, hl₁⟩ := List.find?_eq_some_iff_append.1 hz
    have hkz := (hP z).1 hPz
    have hzx : pk z ≠ x := by
      intro e'
      rw [hx z (by simp) e'] at hkz
      exact keyLt_irrefl _ hkz
    refine ⟨hzx, ?_⟩
    have hz1 : pk z ∉ l₁.map pk := by
      rw [List.map_append, List.map_cons, List.nodup_append] at hnd
      intro hm
      exact hnd.2.2 _ hm (pk z) (by simp) rfl
    have hz1' : pk z ∉ (l₁.map pk).filter (fun k => decide (k ≠ x)) := fun hm => hz1 (List.mem_filter.1 hm).1
    rw [List.map_append, List.map_cons, List.filter_append, List.filter_cons_of_pos (by simpa using hzx)] at hs ⊢
    refine ⟨_, _, rfl, insertBefore_append hz1', ?_, ?_⟩
    · intro k hk
      obtain ⟨a, ha, rfl⟩ := List.mem_map.1 (List.mem_filter.1 hk).1
      rw [hv a (by simp [ha]), ← hP]
      simpa using hl₁ a ha
    · intro k hk
      rcases List.mem_cons.1 hk with rfl | hk'
      · rw [hv z (by simp)]; exact hkz
      · rw [List.pairwise_append, List.pairwise_cons] at hs
        have := hs.2.1.1 k hk'
        obtain ⟨a, ha, rfl⟩ := List.mem_map.1 (List.mem_filter.1 hk').1
        rw [hv a (by simp [ha]), hv z (by simp)] at this
        rw [hv a (by simp [ha])]
        exact keyLt_of_lt_of_le hn (hnl z (by simp)) (hnl a (by simp [ha])) hkz this
  · intro hz
    rw [List.find?_eq_none] at hz
    refine SortedIns.last ?_
    intro k hk
    obtain ⟨a, ha, rfl⟩ := List.mem_map.1 (List.mem_filter.1 hk).1
    rw [hv a ha, ← hP]
    simpa using hz a ha

/-! ### Sorted tables

A table seen from outside: a forest of primary keys, and the list of the stored keys and values. -/

/-- the values stored under a key -/
def valsIn (D : List (Nat × Vals)) (k : Nat) : Vals := (D.lookup k).getD []

/-- No null values in the order fields, and every group of siblings sorted. -/
structure SortedData (ob : List (Nat × Bool)) (F : Forest) (D : List (Nat × Vals)) : Prop where
  nonNull : ∀ e ∈ D, NonNull ob e.2
  sorted : F.SortedBy ob (valsIn D)

theorem valsIn_mem {D : List (Nat × Vals)} (hnd : (D.map Prod.fst).Nodup) {k : Nat} {v : Vals} (h : (k, v) ∈ D) : valsIn D k = v := by
  unfold valsIn
  induction D with
  | nil => cases h
  | cons e D ih =>
    rw [List.map_cons, List.nodup_cons] at hnd
    rw [List.lookup_cons]
    rcases List.mem_cons.1 h with rfl | h
    · simp
    · have : (k == e.1) = false := by
        simp only [beq_eq_false_iff_ne, ne_eq]
        rintro rfl
        exact hnd.1 (List.mem_map.2 ⟨_, h, rfl⟩)
      simp only [this]
      exact ih hnd.2 h

theorem valsIn_append_new {D : List (Nat × Vals)} {k : Nat} {v : Vals} (h : k ∉ D.map Prod.fst) : valsIn (D ++ [(k, v)]) k = v := by
  have hno : D.lookup k = none := by
    rw [List.lookup_eq_none_iff]
    intro p hp
    simpa using fun e => h (List.mem_map.2 ⟨p, hp, e.symm⟩)
  unfold valsIn
  rw [List.lookup_append, hno]
  simp

theorem valsIn_append_old {D : List (Nat × Vals)} {k a : Nat} {v : Vals} (h : a ∈ D.map Prod.fst) : valsIn (D ++ [(k, v)]) a = valsIn D a := by
  unfold valsIn
  rw [List.lookup_append]
  have : ∃ v, D.lookup a = some v := by
    cases hl : D.lookup a with
    | some v => exact ⟨v, rfl⟩
    | none =>
      rw [List.lookup_eq_none_iff] at hl
      obtain ⟨p, hp, rfl⟩ := List.mem_map.1 h
      simpa using hl p hp
  obtain ⟨v, e⟩ := this
  rw [e]; simp

theorem valsIn_filter {D : List (Nat × Vals)} (hnd : (D.map Prod.fst).Nodup) {q : Nat × Vals → Bool} {k : Nat}
    (h : k ∈ (D.filter q).map Prod.fst) : valsIn (D.filter q) k = valsIn D k := by
  obtain ⟨⟨k', v⟩, hm, rfl⟩ := List.mem_map.1 h
  have h1 := List.mem_of_mem_filter hm
  rw [valsIn_mem hnd h1, valsIn_mem (hnd.sublist (List.filter_sublist.map _)) hm]

/-- the slot before the first row of the query set, or at the end -/
def HeadSlot (ob : List (Nat × Bool)) (vals : ρ → Vals) (pk : ρ → Nat) (l : List ρ) (vx : Vals) (s : Slot) : Prop :=
  (∃ z, (sortedPosQueryset ob vals l vx).head? = some z ∧ s = .before (pk z)) ∨
    ((sortedPosQueryset ob vals l vx).head? = none ∧ s = .last)

/-- A new node put where `get_sorted_pos_queryset` says is put at its sorted place, and the tree stays sorted. -/
theorem SortedData.add {ob : List (Nat × Bool)} (hob : ob ≠ []) {F : Forest} {D : List (Nat × Vals)} (h : SortedData ob F D)
    (hnd : (D.map Prod.fst).Nodup) (hk : ∀ q, ∀ a ∈ F q, a ∈ D.map Prod.fst) {x : Nat} {vx : Vals} (hx : x ∉ D.map Prod.fst)
    (hn : NonNull ob vx) {vals : ρ → Vals} {pk : ρ → Nat} {l : List ρ} {p : Option Nat} (hl : l.map pk = F p)
    (hlnd : (F p).Nodup) (hD : ∀ r ∈ l, (pk r, vals r) ∈ D) {s : Slot} (hs : HeadSlot ob vals pk l vx s) :
    SortedData ob (F.put p s x) (D ++ [(x, vx)]) ∧ (F.put p s x).SortedAt ob (valsIn (D ++ [(x, vx)])) p x := by
  have hxF : x ∉ F p := fun hm => hx (hk p x hm)
  have hfil : (l.map pk).filter (fun k => decide (k ≠ x)) = F p := by
    rw [hl, List.filter_eq_self]
    intro k hm
    simp only [decide_eq_true_eq]
    rintro rfl
    exact hxF hm
  have hv : ∀ r ∈ l, valsIn D (pk r) = vals r := fun r hr => valsIn_mem hnd (hD r hr)
  have hh := sortedIns_head hob (v := valsIn D) hn (fun r hr => h.nonNull _ (hD r hr)) hv
    (fun r hr e => absurd (hl ▸ List.mem_map_of_mem hr) (e ▸ hxF)) (hl ▸ hlnd) (by rw [hfil]; exact h.sorted p)
  rw [hfil] at hh
  have hins : SortedIns ob (valsIn D) x vx (F p) (s.ins x (F p)) := by
    rcases hs with ⟨z, hz, rfl⟩ | ⟨hz, rfl⟩
    · exact (hh.1 z hz).2
    · exact hh.2 hz
  obtain ⟨h1, h2⟩ := SortedBy.put (v' := valsIn (D ++ [(x, vx)])) h.sorted hins
    (fun q a ha => valsIn_append_old (hk q a ha)) (valsIn_append_new hx)
  refine ⟨⟨?_, h1⟩, h2⟩
  intro e he
  rcases List.mem_append.1 he with he | he
  · exact h.nonNull e he
  · rw [List.mem_singleton.1 he]; exact hn

/-- A node moved where `get_sorted_pos_queryset` says is put at its sorted place, even if it was itself out of order. -/
theorem SortedData.move {ob : List (Nat × Bool)} (hob : ob ≠ []) {F : Forest} {D : List (Nat × Vals)} {x : Nat} {vx : Vals}
    (hnn : ∀ e ∈ D, NonNull ob e.2) (hs0 : (F.remove x).SortedBy ob (valsIn D)) (hnd : (D.map Prod.fst).Nodup)
    (hxD : (x, vx) ∈ D) {vals : ρ → Vals} {pk : ρ → Nat} {l : List ρ} {p : Option Nat} (hl : l.map pk = F p)
    (hlnd : (F p).Nodup) (hD : ∀ r ∈ l, (pk r, vals r) ∈ D) {s : Slot}
    (hs : (∀ z, (sortedPosQueryset ob vals l vx).head? = some z → pk z ≠ x → s = .before (pk z)))
    (hs' : (sortedPosQueryset ob vals l vx).head? = none → s = .last) :
    SortedData ob (F.move x p s) D ∧ (F.move x p s).SortedAt ob (valsIn D) p x := by
  have hv : ∀ r ∈ l, valsIn D (pk r) = vals r := fun r hr => valsIn_mem hnd (hD r hr)
  have hvx : valsIn D x = vx := valsIn_mem hnd hxD
  have hfil : (l.map pk).filter (fun k => decide (k ≠ x)) = F.remove x p := by rw [hl]; rfl
  have hh := sortedIns_head hob (v := valsIn D) (vx := vx) (hnn _ hxD) (fun r hr => hnn _ (hD r hr)) hv
    (fun r hr e => by rw [← hv r hr, e, hvx]) (hl ▸ hlnd) (by rw [hfil]; exact hs0 p)
  rw [hfil] at hh
  have hins : SortedIns ob (valsIn D) x (valsIn D x) (F.remove x p) (s.ins x (F.remove x p)) := by
    rw [hvx]
    cases hz : (sortedPosQueryset ob vals l vx).head? with
    | none => rw [hs' hz]; exact hh.2 hz
    | some z =>
      obtain ⟨hne, h1⟩ := hh.1 z hz
      rw [hs z hz hne]; exact h1
  obtain ⟨h1, h2⟩ := SortedBy.move hs0 hins
  exact ⟨⟨hnn, h1⟩, h2⟩

/-- deleting keeps a tree sorted -/
theorem SortedData.prune {ob : List (Nat × Bool)} {F : Forest} {D : List (Nat × Vals)} (h : SortedData ob F D)
    (hnd : (D.map Prod.fst).Nodup) (hk : ∀ q, ∀ a ∈ F q, a ∈ D.map Prod.fst) (K : Nat → Bool) :
    SortedData ob (F.prune K) (D.filter (fun e => !K e.1)) := by
  refine ⟨fun e he => h.nonNull e (List.mem_of_mem_filter he), ?_⟩
  have hmem : ∀ p, ∀ a ∈ F.prune K p, K a = false ∧ ∃ q, a ∈ F q := by
    intro p a ha
    cases p with
    | none =>
      obtain ⟨h1, h2⟩ := List.mem_filter.1 ha
      exact ⟨by simpa using h2, none, h1⟩
    | some q =>
      unfold Forest.prune at ha
      simp only at ha
      split at ha
      · cases ha
      · obtain ⟨h1, h2⟩ := List.mem_filter.1 ha
        exact ⟨by simpa using h2, some q, h1⟩
  intro p
  refine (SortedBy.prune h.sorted K p).imp_of_mem ?_
  intro a b ha hb hab
  have hva : ∀ a, a ∈ F.prune K p → valsIn (D.filter (fun e => !K e.1)) a = valsIn D a := by
    intro a ha
    obtain ⟨h1, q, h2⟩ := hmem p a ha
    apply valsIn_filter hnd
    obtain ⟨e, he, rfl⟩ := List.mem_map.1 (hk q a h2)
    exact List.mem_map.2 ⟨e, List.mem_filter.2 ⟨he, by simp [h1]⟩, rfl⟩
  rw [hva a ha, hva b hb]
  exact hab

theorem sortedBy_of_keys {ob : List (Nat × Bool)} {F : Forest} {v : Nat → Vals} (keys : List Nat) (hk : ∀ k, k ∉ keys → F (some k) = [])
    (h : ∀ p ∈ none :: keys.map some, (F p).Pairwise (fun a b => ¬ keyLt ob (v b) (v a))) : F.SortedBy ob v := by
  intro p
  cases p with
  | none => exact h none (by simp)
  | some k =>
    by_cases hm : k ∈ keys
    · exact h (some k) (by simp [hm])
    · rw [hk k hm]; exact List.Pairwise.nil

end Verif
