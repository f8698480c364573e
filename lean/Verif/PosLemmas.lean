/-
What the checked position arguments are.
-/
import Verif.SpecPos

namespace Verif

theorem prepAdd_arg {arg : Option Pos} {pos : Pos} (h : preparePosForAddSibling false arg = .ok pos) :
    IsSibPos pos ∧ (arg = some pos ∨ (arg = none ∧ pos = .lastSibling)) := by
  unfold IsSibPos
  cases arg with
  | none =>
    revert h
    simp [preparePosForAddSibling, preparePosVar, validPosForAddSibling, validPosForSortedAddSibling]
    rintro rfl; simp
  | some q =>
    revert h
    cases q <;> simp [preparePosForAddSibling, preparePosVar, validPosForAddSibling, validPosForSortedAddSibling]
    all_goals rintro rfl; simp

theorem prepMove_arg {arg : Option Pos} {pos : Pos} (h : preparePosForMove false arg = .ok pos) :
    IsPlainPos pos ∧ (arg = some pos ∨ (arg = none ∧ pos = .lastSibling)) := by
  unfold IsPlainPos IsSibPos
  cases arg with
  | none =>
    revert h
    simp [preparePosForMove, preparePosVar, validPosForMove, validPosForSortedMove, validPosForAddSibling, validPosForSortedAddSibling]
    rintro rfl; simp
  | some q =>
    revert h
    cases q <;> simp [preparePosForMove, preparePosVar, validPosForMove, validPosForSortedMove, validPosForAddSibling, validPosForSortedAddSibling]
    all_goals rintro rfl; simp

theorem prepAddSorted_arg {arg : Option Pos} {pos : Pos} (h : preparePosForAddSibling true arg = .ok pos) :
    pos = .sortedSibling ∧ (arg = none ∨ arg = some .sortedSibling) := by
  cases arg with
  | none =>
    revert h
    simp [preparePosForAddSibling, preparePosVar, validPosForAddSibling, validPosForSortedAddSibling]
    rintro rfl; simp
  | some q =>
    revert h
    cases q <;> simp [preparePosForAddSibling, preparePosVar, validPosForAddSibling, validPosForSortedAddSibling]
    all_goals rintro rfl; simp

theorem prepMoveSorted_arg {arg : Option Pos} {pos : Pos} (h : preparePosForMove true arg = .ok pos) :
    pos = .sortedSibling ∨ pos = .sortedChild := by
  cases arg with
  | none =>
    revert h
    simp [preparePosForMove, preparePosVar, validPosForMove, validPosForSortedMove, validPosForAddSibling, validPosForSortedAddSibling]
    rintro rfl; simp
  | some q =>
    revert h
    cases q <;> simp [preparePosForMove, preparePosVar, validPosForMove, validPosForSortedMove, validPosForAddSibling, validPosForSortedAddSibling]
    all_goals rintro rfl; simp

end Verif
