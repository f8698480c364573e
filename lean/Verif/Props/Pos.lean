/-
C38 and C39: position arguments and the sorted-position query.
-/
import Verif.MP.Model
import Verif.Sorted

namespace Verif

/-! ### C38 -/

/-- the position named by a string argument -/
def posOf (s : String) : Pos :=
  if s = "first-sibling" then .firstSibling
  else if s = "left" then .left
  else if s = "right" then .right
  else if s = "last-sibling" then .lastSibling
  else if s = "sorted-sibling" then .sortedSibling
  else if s = "first-child" then .firstChild
  else if s = "last-child" then .lastChild
  else if s = "sorted-child" then .sortedChild
  else .other s

/-- What the documentation says about the `pos` argument: `unsorted` and `sorted` are the documented names. -/
def documented (unsorted sorted : List String) (ordered : Bool) (arg : Option String) : Except Err Pos :=
  match arg with
  | none => .ok (if ordered then .sortedSibling else .lastSibling)
  | some s =>
    if s ∈ sorted then (if ordered then .ok (posOf s) else .error .missingNodeOrderBy)
    else if s ∈ unsorted then (if ordered then .error .invalidPosition else .ok (posOf s))
    else .error .invalidPosition

theorem posOf_cases (s : String) :
    s = "first-sibling" ∨ s = "left" ∨ s = "right" ∨ s = "last-sibling" ∨ s = "sorted-sibling" ∨ s = "first-child" ∨
    s = "last-child" ∨ s = "sorted-child" ∨
    (posOf s = .other s ∧ s ∉ ["first-sibling", "left", "right", "last-sibling", "sorted-sibling", "first-child", "last-child", "sorted-child"]) := by
  by_cases h1 : s = "first-sibling"; · exact Or.inl h1
  by_cases h2 : s = "left"; · simp [h2]
  by_cases h3 : s = "right"; · simp [h3]
  by_cases h4 : s = "last-sibling"; · simp [h4]
  by_cases h5 : s = "sorted-sibling"; · simp [h5]
  by_cases h6 : s = "first-child"; · simp [h6]
  by_cases h7 : s = "last-child"; · simp [h7]
  by_cases h8 : s = "sorted-child"; · simp [h8]
  simp [posOf, h1, h2, h3, h4, h5, h6, h7, h8]

/-- **C38, `add_sibling`.** For every string and `None`, with and without `node_order_by`. -/
theorem C38_add_sibling (ordered : Bool) (arg : Option String) :
    preparePosForAddSibling ordered (arg.map posOf) =
      documented ["first-sibling", "left", "right", "last-sibling"] ["sorted-sibling"] ordered arg := by
  cases arg with
  | none => cases ordered <;> decide
  | some s =>
    rcases posOf_cases s with rfl | rfl | rfl | rfl | rfl | rfl | rfl | rfl | ⟨e, hn⟩
    all_goals first
      | (cases ordered <;> decide)
      | skip
    simp only [List.mem_cons, List.not_mem_nil, or_false, not_or] at hn
    simp [documented, preparePosForAddSibling, preparePosVar, validPosForAddSibling, e, hn]

/-- **C38, `move`.** -/
theorem C38_move (ordered : Bool) (arg : Option String) :
    preparePosForMove ordered (arg.map posOf) =
      documented ["first-sibling", "left", "right", "last-sibling", "first-child", "last-child"]
        ["sorted-sibling", "sorted-child"] ordered arg := by
  cases arg with
  | none => cases ordered <;> decide
  | some s =>
    rcases posOf_cases s with rfl | rfl | rfl | rfl | rfl | rfl | rfl | rfl | ⟨e, hn⟩
    all_goals first
      | (cases ordered <;> decide)
      | skip
    simp only [List.mem_cons, List.not_mem_nil, or_false, not_or] at hn
    simp [documented, preparePosForMove, preparePosVar, validPosForMove, validPosForAddSibling, e, hn]

/-- **C38, MP**: a refused position makes the whole call raise the same error, before anything is read or written. -/
theorem C38_mp (cfg : MP.Cfg) (db : MP.DB) (x t new : MP.Row) (arg : Option String) (e : Err) :
    (documented ["first-sibling", "left", "right", "last-sibling"] ["sorted-sibling"] cfg.ordered arg = .error e →
      MP.addSibling cfg db t (arg.map posOf) new = .error e) ∧
    (documented ["first-sibling", "left", "right", "last-sibling", "first-child", "last-child"]
      ["sorted-sibling", "sorted-child"] cfg.ordered arg = .error e →
      MP.move cfg db x t (arg.map posOf) = .error e) := by
  constructor <;> intro h
  · rw [← C38_add_sibling] at h
    unfold MP.addSibling; rw [h]
  · rw [← C38_move] at h
    unfold MP.move; rw [h]

example : documented ["first-sibling", "left", "right", "last-sibling"] ["sorted-sibling"] false (some "sorted-sibling") =
    .error .missingNodeOrderBy := rfl
example : documented ["first-sibling", "left", "right", "last-sibling"] ["sorted-sibling"] true (some "left") =
    .error .invalidPosition := rfl
example : documented ["first-sibling", "left", "right", "last-sibling"] ["sorted-sibling"] false (some "first-child") =
    .error .invalidPosition := rfl

/-! ### C39 -/

/-- The lexicographic order on the values of the order fields, said directly: some field decides, and all the fields
before it are equal. -/
def LexAfter (ob : List (Nat × Bool)) (a b : Vals) : Prop :=
  ∃ pre f desc post, ob = pre ++ (f, desc) :: post ∧ (∀ e ∈ pre, fieldOf a e.1 = fieldOf b e.1) ∧
    ∃ x y, fieldOf a f = some x ∧ fieldOf b f = some y ∧ (if desc then y < x else x < y)

theorem keyLt_iff_lex {ob : List (Nat × Bool)} {a b : Vals} : keyLt ob a b ↔ LexAfter ob a b := by
  induction ob with
  | nil =>
    constructor
    · exact fun h => h.elim
    · rintro ⟨pre, f, d, post, e, _⟩
      simp at e
  | cons e ob ih =>
    obtain ⟨f, d⟩ := e
    rw [keyLt_cons, ih]
    constructor
    · rintro (h | ⟨h1, pre, g, d', post, rfl, h2, h3⟩)
      · refine ⟨[], f, d, ob, rfl, by simp, ?_⟩
        unfold fieldLt at h
        split at h
        · rename_i x y hx hy
          exact ⟨x, y, hx, hy, h⟩
        · exact h.elim
      · refine ⟨(f, d) :: pre, g, d', post, rfl, ?_, h3⟩
        intro e he
        rcases List.mem_cons.1 he with rfl | he
        · exact h1
        · exact h2 e he
    · rintro ⟨pre, g, d', post, e, h2, x, y, hx, hy, h3⟩
      cases pre with
      | nil =>
        simp only [List.nil_append, List.cons.injEq, Prod.mk.injEq] at e
        obtain ⟨⟨rfl, rfl⟩, rfl⟩ := e
        left
        rw [hx, hy]
        exact h3
      | cons e' pre =>
        simp only [List.cons_append, List.cons.injEq] at e
        obtain ⟨rfl, rfl⟩ := e
        right
        exact ⟨h2 (f, d) (by simp), pre, g, d', post, rfl, fun e he => h2 e (by simp [he]), x, y, hx, hy, h3⟩

/-- **C39.** `get_sorted_pos_queryset` keeps, in their order, exactly the siblings that come strictly after the new object,
for every list of order fields and directions and every new object without null values in them (nulls among the
siblings are allowed: they come after nothing). -/
theorem C39_sorted_pos {ρ : Type} (ob : List (Nat × Bool)) (hob : ob ≠ []) (valsOf : ρ → Vals) (sibs : List ρ) (new : Vals)
    (hn : NonNull ob new) :
    (sortedPosQueryset ob valsOf sibs new).Sublist sibs ∧
    ∀ r, r ∈ sortedPosQueryset ob valsOf sibs new ↔ r ∈ sibs ∧ LexAfter ob new (valsOf r) := by
  refine ⟨sortedPos_sublist ob valsOf sibs new, fun r => ?_⟩
  rw [mem_sortedPos hob hn, keyLt_iff_lex]

example : sortedPosQueryset [(0, false), (1, true)] id [[some 1, some 5], [some 1, some 2], [some 7, some 0], [none, some 1]]
    [some 1, some 3] = [[some 1, some 2], [some 7, some 0]] := by decide

/-- A new object whose order fields are all null is placed before all its siblings. -/
theorem C39_all_null {ρ : Type} (ob : List (Nat × Bool)) (valsOf : ρ → Vals) (sibs : List ρ) (new : Vals)
    (hn : ∀ e ∈ ob, fieldOf new e.1 = none) : sortedPosQueryset ob valsOf sibs new = sibs := by
  have : ∀ eqs, sortedFilters ob new eqs = [] := by
    induction ob with
    | nil => intro eqs; rfl
    | cons e ob ih =>
      obtain ⟨f, d⟩ := e
      intro eqs
      rw [sortedFilters, hn (f, d) (by simp)]
      exact ih (fun e he => hn e (by simp [he])) eqs
  unfold sortedPosQueryset
  simp [this]

end Verif
