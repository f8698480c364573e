/-
Specification of sorted insertion among siblings with any values: the siblings need not be sorted, and values may be null.
-/
import Verif.SortedHead

namespace Verif

/-- `v` comes after `new`: the fields in which `new` has a value are compared one after the other, a null of `v` comes after
nothing; a `new` without any value comes before everything. -/
def Behind (ob : List (Nat × Bool)) (new v : Vals) : Prop :=
  (∀ e ∈ ob, fieldOf new e.1 = none) ∨ keyLt (ob.filter (fun e => (fieldOf new e.1).isSome)) new v

/-- `s` is the slot immediately before the first sibling that comes after `new`, or the last one if there is none. -/
def FirstBehind (ob : List (Nat × Bool)) (v : Nat → Vals) (new : Vals) (l : List Nat) (s : Slot) : Prop :=
  (∃ l₁ z l₂, l = l₁ ++ z :: l₂ ∧ (∀ a ∈ l₁, ¬ Behind ob new (v a)) ∧ Behind ob new (v z) ∧ s = .before z) ∨
  ((∀ a ∈ l, ¬ Behind ob new (v a)) ∧ s = .last)

/-- A sibling that does not come after `new` stands immediately to the right of one that does. -/
def OutOfOrder (ob : List (Nat × Bool)) (v : Nat → Vals) (new : Vals) (l : List Nat) : Prop :=
  ∃ l₁ a b l₂, l = l₁ ++ a :: b :: l₂ ∧ Behind ob new (v a) ∧ ¬ Behind ob new (v b)

instance (ob : List (Nat × Bool)) (new v : Vals) : Decidable (Behind ob new v) := by unfold Behind; infer_instance

theorem sortedFilters_skip (ob : List (Nat × Bool)) (new : Vals) : ∀ eqs,
    sortedFilters ob new eqs = sortedFilters (ob.filter (fun e => (fieldOf new e.1).isSome)) new eqs := by
  induction ob with
  | nil => intro eqs; rfl
  | cons e ob ih =>
    obtain ⟨f, d⟩ := e
    intro eqs
    cases hx : fieldOf new f with
    | none =>
      rw [List.filter_cons_of_neg (by simp [hx]), sortedFilters, hx]
      exact ih eqs
    | some x =>
      rw [List.filter_cons_of_pos (by simp [hx]), sortedFilters, sortedFilters, hx]
      simp only
      rw [ih]

theorem nonNull_skip (ob : List (Nat × Bool)) (new : Vals) : NonNull (ob.filter (fun e => (fieldOf new e.1).isSome)) new :=
  fun _ he => Option.isSome_iff_exists.1 (List.mem_filter.1 he).2

variable {ρ : Type} {ob : List (Nat × Bool)} {vals : ρ → Vals} {pk : ρ → Nat} {v : Nat → Vals} {l : List ρ} {new : Vals}

/-- the query keeps exactly the siblings that come after the new values -/
theorem sortedPos_behind (ob : List (Nat × Bool)) (vals : ρ → Vals) (l : List ρ) (new : Vals) :
    sortedPosQueryset ob vals l new = l.filter (fun r => decide (Behind ob new (vals r))) := by
  by_cases hall : ∀ e ∈ ob, fieldOf new e.1 = none
  · have h1 : ob.filter (fun e => (fieldOf new e.1).isSome) = [] := by
      rw [List.filter_eq_nil_iff]
      intro e he
      simp [hall e he]
    have h2 : l.filter (fun r => decide (Behind ob new (vals r))) = l := by
      rw [List.filter_eq_self]
      intro r _
      rw [decide_eq_true_eq]
      exact Or.inl hall
    unfold sortedPosQueryset
    rw [sortedFilters_skip, h1, h2]
    rfl
  · have hne : ob.filter (fun e => (fieldOf new e.1).isSome) ≠ [] := by
      intro h1
      rw [List.filter_eq_nil_iff] at h1
      exact hall (fun e he => by simpa using h1 e he)
    unfold sortedPosQueryset
    rw [sortedFilters_skip]
    simp only [sortedFilters_ne hne (nonNull_skip ob new), Bool.false_eq_true, if_false]
    apply List.filter_congr
    intro r _
    rw [Bool.eq_iff_iff, sortedFilters_any _ (nonNull_skip ob new), decide_eq_true_eq]
    unfold Behind
    constructor
    · exact fun h => Or.inr h.2
    · rintro (h | h)
      · exact absurd h hall
      · exact ⟨by simp, h⟩

theorem mem_behind (r : ρ) : r ∈ sortedPosQueryset ob vals l new ↔ r ∈ l ∧ Behind ob new (vals r) := by
  rw [sortedPos_behind, List.mem_filter, decide_eq_true_eq]

/-- the slot computed from the query is the one before the first sibling that comes after -/
theorem HeadSlot.firstBehind {s : Slot} (h : HeadSlot ob vals pk l new s) (hv : ∀ r ∈ l, v (pk r) = vals r) :
    FirstBehind ob v new (l.map pk) s := by
  rcases h with ⟨z, hz, rfl⟩ | ⟨hz, rfl⟩
  · rw [sortedPos_behind, List.head?_filter] at hz
    obtain ⟨hPz, l₁, l₂, rfl, hl₁⟩ := List.find?_eq_some_iff_append.1 hz
    refine Or.inl ⟨l₁.map pk, pk z, l₂.map pk, by simp, ?_, ?_, rfl⟩
    · intro a ha
      obtain ⟨r, hr, rfl⟩ := List.mem_map.1 ha
      rw [hv r (by simp [hr])]
      simpa using hl₁ r hr
    · rw [hv z (by simp)]
      simpa using hPz
  · rw [sortedPos_behind, List.head?_filter, List.find?_eq_none] at hz
    refine Or.inr ⟨?_, rfl⟩
    intro a ha
    obtain ⟨r, hr, rfl⟩ := List.mem_map.1 ha
    rw [hv r hr]
    simpa using hz r hr

/-- without null values this is the order of C39 -/
theorem behind_nonNull (hob : ob ≠ []) (hn : NonNull ob new) {w : Vals} : Behind ob new w ↔ keyLt ob new w := by
  have h1 : ob.filter (fun e => (fieldOf new e.1).isSome) = ob := by
    rw [List.filter_eq_self]
    intro e he
    exact Option.isSome_iff_exists.2 (hn e he)
  unfold Behind
  rw [h1]
  constructor
  · rintro (h | h)
    · cases ob with
      | nil => exact absurd rfl hob
      | cons e ob =>
        obtain ⟨x, hx⟩ := hn e (by simp)
        rw [h e (by simp)] at hx
        cases hx
    · exact h
  · exact Or.inr

/-- an object that comes after itself has no value at all, and then everything comes after it -/
theorem behind_self {w : Vals} (h : Behind ob new new) : Behind ob new w := by
  rcases h with h | h
  · exact Or.inl h
  · exact (keyLt_irrefl _ h).elim

/-- The slot before the first of all the siblings that come after `x`, as a slot among the others; if that first sibling is `x` itself,
then everything comes after `x`, and the slot is the first one. -/
theorem firstBehind_others {x : Nat} {s : Slot} (hv : ∀ r ∈ l, v (pk r) = vals r) (hx : ∀ r ∈ l, pk r = x → vals r = new)
    (h : (∃ z, (sortedPosQueryset ob vals l new).head? = some z ∧ (pk z ≠ x → s = .before (pk z)) ∧ (pk z = x → l.head? = some z → s = .first)) ∨
      ((sortedPosQueryset ob vals l new).head? = none ∧ s = .last)) :
    ∃ s', FirstBehind ob v new ((l.map pk).filter (· ≠ x)) s' ∧
      s'.ins x ((l.map pk).filter (· ≠ x)) = s.ins x ((l.map pk).filter (· ≠ x)) := by
  rcases h with ⟨z, hz, h1, h2⟩ | ⟨hz, rfl⟩
  · rw [sortedPos_behind, List.head?_filter] at hz
    obtain ⟨hPz, l₁, l₂, rfl, hl₁⟩ := List.find?_eq_some_iff_append.1 hz
    rw [decide_eq_true_eq] at hPz
    by_cases hzx : pk z = x
    · have hvz := hx z (by simp) hzx
      rw [hvz] at hPz
      have hnil : l₁ = [] := by
        rw [List.eq_nil_iff_forall_not_mem]
        intro a ha
        have := hl₁ a ha
        simp only [Bool.not_eq_true', decide_eq_false_iff_not] at this
        exact this (behind_self hPz)
      subst hnil
      rw [h2 hzx rfl]
      cases hc : ((([] : List ρ) ++ z :: l₂).map pk).filter (· ≠ x) with
      | nil => exact ⟨.last, Or.inr ⟨by simp, rfl⟩, rfl⟩
      | cons y ys => exact ⟨.before y, Or.inl ⟨[], y, ys, rfl, by simp, behind_self hPz, rfl⟩, by simp [Slot.ins, insertBefore]⟩
    · refine ⟨s, Or.inl ⟨(l₁.map pk).filter (· ≠ x), pk z, (l₂.map pk).filter (· ≠ x), ?_, ?_, ?_, h1 hzx⟩, rfl⟩
      · rw [List.map_append, List.map_cons, List.filter_append, List.filter_cons_of_pos (by simpa using hzx)]
      · intro a ha
        obtain ⟨r, hr, rfl⟩ := List.mem_map.1 (List.mem_filter.1 ha).1
        rw [hv r (by simp [hr])]
        simpa using hl₁ r hr
      · rw [hv z (by simp)]; exact hPz
  · rw [sortedPos_behind, List.head?_filter, List.find?_eq_none] at hz
    refine ⟨.last, Or.inr ⟨?_, rfl⟩, rfl⟩
    intro a ha
    obtain ⟨r, hr, rfl⟩ := List.mem_map.1 (List.mem_filter.1 ha).1
    rw [hv r hr]
    simpa using hz r hr

/-- slots that give the same list give the same move -/
theorem Forest.move_congr {F : Forest} {x : Nat} {p : Option Nat} {s s' : Slot} (h : s'.ins x ((F p).filter (· ≠ x)) = s.ins x ((F p).filter (· ≠ x))) :
    F.move x p s' = F.move x p s := by
  funext q
  unfold Forest.move Forest.put
  by_cases hq : q = p
  · subst hq
    simp only [if_true]
    exact h
  · simp only [hq, if_false]

end Verif
