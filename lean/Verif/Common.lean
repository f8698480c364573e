/-
Shared parts of the models: exceptions, sorting of query results.
-/
import Mathlib.Data.List.Sort

namespace Verif

/-- The exceptions the modelled code can raise (treebeard/exceptions.py, and Python/Django ones). -/
inductive Err where
  | valueError | zeroDivision | indexError | keyError | attributeError | typeError
  | pathOverflow | invalidPosition | missingNodeOrderBy | invalidMoveToDescendant
  | nodeAlreadySaved | doesNotExist | multipleObjectsReturned | fieldError | integrity | invalidLabelConstraints
  /-- not an exception: the Python code does not terminate -/
  | diverges
deriving DecidableEq, Repr

/-- The `pos` argument of `add_sibling` and `move`: the documented names, and any other string. -/
inductive Pos where
  | firstSibling | left | right | lastSibling | sortedSibling | firstChild | lastChild | sortedChild
  /-- a string that is none of the documented names -/
  | other (name : String)
deriving DecidableEq, Repr

/-- models.py:626-640 `_prepare_pos_var`.  `ordered` is the truth value of `node_order_by`. -/
def preparePosVar (ordered : Bool) (pos : Option Pos) (valid validSorted : List Pos) :
    Except Err Pos :=
  let pos := match pos with
    | none => if ordered then Pos.sortedSibling else Pos.lastSibling
    | some p => p
  if pos ∉ valid then .error .invalidPosition
  else if ordered = true ∧ pos ∉ validSorted then .error .invalidPosition
  else if pos ∈ validSorted ∧ ordered = false then .error .missingNodeOrderBy
  else .ok pos

/-- models.py:642 `_valid_pos_for_add_sibling` -/
def validPosForAddSibling : List Pos := [.firstSibling, .left, .right, .lastSibling, .sortedSibling]
/-- models.py:643 `_valid_pos_for_sorted_add_sibling` -/
def validPosForSortedAddSibling : List Pos := [.sortedSibling]
/-- models.py:645-648 `_prepare_pos_var_for_add_sibling` -/
def preparePosForAddSibling (ordered : Bool) (pos : Option Pos) : Except Err Pos :=
  preparePosVar ordered pos validPosForAddSibling validPosForSortedAddSibling
/-- models.py:650 `_valid_pos_for_move` -/
def validPosForMove : List Pos := validPosForAddSibling ++ [.firstChild, .lastChild, .sortedChild]
/-- models.py:651 `_valid_pos_for_sorted_move` -/
def validPosForSortedMove : List Pos := validPosForSortedAddSibling ++ [.sortedChild]
/-- models.py:653-654 `_prepare_pos_var_for_move` -/
def preparePosForMove (ordered : Bool) (pos : Option Pos) : Except Err Pos :=
  preparePosVar ordered pos validPosForMove validPosForSortedMove

/-! ### node_order_by

`node_order_by` is a list of `(field index, descending)`; the field values of a node are a list of
nullable integers (any totally ordered domain would do). -/

abbrev Vals := List (Option Int)

/-- `getattr(obj, field)`; a missing field is null -/
def fieldOf (v : Vals) (f : Nat) : Option Int := (v[f]?).join

/-- SQL `field = value`: never true for a null field -/
def sqlEq (x : Option Int) (v : Int) : Bool := x == some v
/-- SQL `field > value` (`gt`) or `field < value` (`lt`, for descending fields) -/
def sqlCmp (desc : Bool) (x : Option Int) (v : Int) : Bool :=
  match x with
  | none => false
  | some x => if desc then decide (x < v) else decide (v < x)

/-- models.py:670-688, the loop building `filters`: every filter is a list of equalities followed
by one comparison. -/
def sortedFilters (orderBy : List (Nat × Bool)) (new : Vals) (eqs : List (Nat × Int)) :
    List (List (Nat × Int) × (Nat × Bool × Int)) :=
  match orderBy with
  | [] => []
  | (f, desc) :: rest =>
    match fieldOf new f with
    | none => sortedFilters rest new eqs
    | some v => (eqs, (f, desc, v)) :: sortedFilters rest new (eqs ++ [(f, v)])

/-- one `Q` object of models.py:687 -/
def filterHolds (flt : List (Nat × Int) × (Nat × Bool × Int)) (v : Vals) : Bool :=
  flt.1.all (fun e => sqlEq (fieldOf v e.1) e.2) && sqlCmp flt.2.2.1 (fieldOf v flt.2.1) flt.2.2.2

/-- models.py:656-693 `get_sorted_pos_queryset` (the warning for null values is not modelled) -/
def sortedPosQueryset {ρ : Type} (orderBy : List (Nat × Bool)) (valsOf : ρ → Vals)
    (siblings : List ρ) (new : Vals) : List ρ :=
  let filters := sortedFilters orderBy new []
  if filters.isEmpty then siblings
  else siblings.filter (fun r => filters.any (fun flt => filterHolds flt (valsOf r)))

/-- `order_by`: a stable sort by a strict order given as a Boolean comparison. -/
def sortBy {ρ : Type} (lt : ρ → ρ → Bool) (l : List ρ) : List ρ :=
  l.insertionSort (fun a b => lt b a = false)

theorem mem_sortBy {ρ : Type} {lt : ρ → ρ → Bool} {l : List ρ} {r : ρ} :
    r ∈ sortBy lt l ↔ r ∈ l := (List.perm_insertionSort _ l).mem_iff

theorem sortBy_perm {ρ : Type} (lt : ρ → ρ → Bool) (l : List ρ) : (sortBy lt l).Perm l :=
  List.perm_insertionSort _ l

/-- `lt` is a strict weak order: the negation is total and transitive. -/
structure StrictWeak {ρ : Type} (lt : ρ → ρ → Bool) : Prop where
  total : ∀ a b, lt b a = false ∨ lt a b = false
  trans : ∀ a b c, lt b a = false → lt c b = false → lt c a = false

theorem sortBy_sorted {ρ : Type} {lt : ρ → ρ → Bool} (h : StrictWeak lt) (l : List ρ) :
    (sortBy lt l).Pairwise (fun a b => lt b a = false) := by
  have : Std.Total (fun a b : ρ => lt b a = false) := ⟨h.total⟩
  have : IsTrans ρ (fun a b => lt b a = false) := ⟨fun a b c => h.trans a b c⟩
  exact List.pairwise_insertionSort _ l

/-- If moreover different elements of the (duplicate free) list are comparable, the result is strictly
sorted. -/
theorem sortBy_strict {ρ : Type} {lt : ρ → ρ → Bool} (h : StrictWeak lt) {l : List ρ} (hn : l.Nodup)
    (ht : ∀ a ∈ l, ∀ b ∈ l, a ≠ b → lt a b = true ∨ lt b a = true) :
    (sortBy lt l).Pairwise (fun a b => lt a b = true) := by
  have h1 := sortBy_sorted h l
  have h2 : (sortBy lt l).Nodup := (sortBy_perm lt l).nodup_iff.2 hn
  have h3 := h1.and h2
  refine h3.imp_of_mem ?_
  rintro a b ha hb ⟨hab, hne⟩
  rcases ht a (mem_sortBy.1 ha) b (mem_sortBy.1 hb) hne with h | h
  · exact h
  · simp [h] at hab

end Verif
