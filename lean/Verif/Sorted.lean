/-
The order given by `node_order_by` and the sorted-position query.
-/
import Verif.Common

namespace Verif

/-- one field of `node_order_by`: `a` comes before `b` (null values compare with nothing) -/
def fieldLt (desc : Bool) (a b : Option Int) : Prop :=
  match a, b with
  | some a, some b => if desc then b < a else a < b
  | _, _ => False

/-- the order given by `node_order_by`: the fields compared one after the other -/
def keyLt : List (Nat × Bool) → Vals → Vals → Prop
  | [], _, _ => False
  | (f, desc) :: rest, a, b =>
    fieldLt desc (fieldOf a f) (fieldOf b f) ∨ (fieldOf a f = fieldOf b f ∧ keyLt rest a b)

/-- all the order fields have a value -/
def NonNull (ob : List (Nat × Bool)) (v : Vals) : Prop := ∀ e ∈ ob, ∃ x, fieldOf v e.1 = some x

theorem NonNull.tail {e : Nat × Bool} {ob : List (Nat × Bool)} {v : Vals} (h : NonNull (e :: ob) v) : NonNull ob v :=
  fun e he => h e (by simp [he])

theorem keyLt_cons {f : Nat} {d : Bool} {ob : List (Nat × Bool)} {a b : Vals} :
    keyLt ((f, d) :: ob) a b ↔
      fieldLt d (fieldOf a f) (fieldOf b f) ∨ (fieldOf a f = fieldOf b f ∧ keyLt ob a b) := Iff.rfl

theorem keyLt_asymm {ob : List (Nat × Bool)} {a b : Vals} (h : keyLt ob a b) : ¬ keyLt ob b a := by
  induction ob with
  | nil => exact fun h => h
  | cons e ob ih =>
    obtain ⟨f, d⟩ := e
    rw [keyLt_cons] at h ⊢
    cases ha : fieldOf a f <;> cases hb : fieldOf b f <;> simp [ha, hb, fieldLt] at h ⊢
    · exact ih h
    · split at h <;> simp_all
      all_goals rcases h with h | h
      all_goals first
        | omega
        | exact ⟨by omega, fun _ => ih h.2⟩

theorem keyLt_irrefl {ob : List (Nat × Bool)} (a : Vals) : ¬ keyLt ob a a := fun h => keyLt_asymm h h

/-- among rows without nulls, not being before is transitive -/
theorem keyLt_of_lt_of_le {ob : List (Nat × Bool)} {a b c : Vals} (ha : NonNull ob a) (hb : NonNull ob b)
    (hc : NonNull ob c) (h1 : keyLt ob a b) (h2 : ¬ keyLt ob c b) : keyLt ob a c := by
  induction ob with
  | nil => exact h1
  | cons e ob ih =>
    obtain ⟨f, d⟩ := e
    obtain ⟨x, hx⟩ := ha _ (List.mem_cons_self ..)
    obtain ⟨y, hy⟩ := hb _ (List.mem_cons_self ..)
    obtain ⟨z, hz⟩ := hc _ (List.mem_cons_self ..)
    simp only at hx hy hz
    have ih := ih ha.tail hb.tail hc.tail
    rw [keyLt_cons] at h1 h2 ⊢
    simp only [hx, hy, hz, fieldLt, Option.some.injEq] at h1 h2 ⊢
    cases d <;> simp only [if_true, if_false, Bool.false_eq_true] at h1 h2 ⊢
    · rcases h1 with h1 | ⟨h1, h1'⟩
      · left; omega
      · by_cases hxz : x = z
        · right; exact ⟨hxz, ih h1' (fun h => h2 (Or.inr ⟨by omega, h⟩))⟩
        · left; omega
    · rcases h1 with h1 | ⟨h1, h1'⟩
      · left; omega
      · by_cases hxz : x = z
        · right; exact ⟨hxz, ih h1' (fun h => h2 (Or.inr ⟨by omega, h⟩))⟩
        · left; omega

theorem keyLe_trans {ob : List (Nat × Bool)} {a b c : Vals} (ha : NonNull ob a) (hb : NonNull ob b)
    (hc : NonNull ob c) (h1 : ¬ keyLt ob b a) (h2 : ¬ keyLt ob c b) : ¬ keyLt ob c a :=
  fun h => h2 (keyLt_of_lt_of_le hc ha hb h h1)

/-- the filters of `get_sorted_pos_queryset`: equal on the fields seen so far, and after on the rest -/
theorem sortedFilters_any {ob : List (Nat × Bool)} {new v : Vals} : ∀ (eqs : List (Nat × Int)),
    NonNull ob new →
    ((sortedFilters ob new eqs).any (fun flt => filterHolds flt v) = true ↔
      (∀ e ∈ eqs, fieldOf v e.1 = some e.2) ∧ keyLt ob new v) := by
  induction ob with
  | nil => intro eqs _; simp [sortedFilters, keyLt]
  | cons e ob ih =>
    obtain ⟨f, d⟩ := e
    intro eqs hn
    obtain ⟨x, hx⟩ := hn _ (List.mem_cons_self ..)
    simp only at hx
    have ih := ih (eqs ++ [(f, x)]) hn.tail
    rw [sortedFilters, hx]
    simp only [List.any_cons, Bool.or_eq_true]
    rw [ih, keyLt_cons, hx]
    unfold filterHolds
    simp only [Bool.and_eq_true, List.all_eq_true, sqlEq, beq_iff_eq, List.mem_append, List.mem_singleton]
    have hcmp : sqlCmp d (fieldOf v f) x = true ↔ fieldLt d (some x) (fieldOf v f) := by
      unfold sqlCmp fieldLt
      cases fieldOf v f <;> cases d <;> simp
    rw [hcmp]
    constructor
    · rintro (⟨h1, h2⟩ | ⟨h1, h2⟩)
      · exact ⟨h1, Or.inl h2⟩
      · exact ⟨fun e he => h1 e (Or.inl he), Or.inr ⟨(h1 (f, x) (Or.inr rfl)).symm, h2⟩⟩
    · rintro ⟨h1, h2 | ⟨h2, h3⟩⟩
      · exact Or.inl ⟨h1, h2⟩
      · refine Or.inr ⟨?_, h3⟩
        rintro e (he | rfl)
        · exact h1 e he
        · exact h2.symm

theorem sortedFilters_ne {ob : List (Nat × Bool)} {new : Vals} (h : ob ≠ []) (hn : NonNull ob new)
    (eqs : List (Nat × Int)) : (sortedFilters ob new eqs).isEmpty = false := by
  cases ob with
  | nil => exact absurd rfl h
  | cons e ob =>
    obtain ⟨f, d⟩ := e
    obtain ⟨x, hx⟩ := hn _ (List.mem_cons_self ..)
    simp only at hx
    rw [sortedFilters, hx]
    rfl

/-- the query keeps exactly the siblings that come strictly after the new values, in the same order -/
theorem mem_sortedPos {ρ : Type} {ob : List (Nat × Bool)} {valsOf : ρ → Vals} {sibs : List ρ} {new : Vals}
    (h : ob ≠ []) (hn : NonNull ob new) (r : ρ) :
    r ∈ sortedPosQueryset ob valsOf sibs new ↔ r ∈ sibs ∧ keyLt ob new (valsOf r) := by
  unfold sortedPosQueryset
  simp only [sortedFilters_ne h hn, Bool.false_eq_true, if_false]
  rw [List.mem_filter, sortedFilters_any _ hn]
  simp

theorem sortedPos_sublist {ρ : Type} (ob : List (Nat × Bool)) (valsOf : ρ → Vals) (sibs : List ρ) (new : Vals) :
    (sortedPosQueryset ob valsOf sibs new).Sublist sibs := by
  unfold sortedPosQueryset
  simp only
  split
  · exact List.Sublist.refl _
  · exact List.filter_sublist

instance (d : Bool) (a b : Option Int) : Decidable (fieldLt d a b) := by
  unfold fieldLt; cases a <;> cases b <;> infer_instance

instance keyLtDec : (ob : List (Nat × Bool)) → (a b : Vals) → Decidable (keyLt ob a b)
  | [], _, _ => isFalse (fun h => h)
  | (f, d) :: rest, a, b => by
    unfold keyLt
    have := keyLtDec rest a b
    infer_instance

end Verif
