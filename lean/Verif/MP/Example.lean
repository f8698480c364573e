/-
Concrete tables, used beside the property theorems to show that their hypotheses are met by non-trivial cases.
-/
import Verif.MP.Check
import Verif.MP.SortedTree
import Mathlib.Tactic.IntervalCases

namespace Verif.MP

/-- decimal steps of one character -/
def exCfg : Cfg := ⟨List.range' 48 10, 1, [], 10⟩

theorem exCfg_ok : exCfg.Ok := ⟨by decide, by decide, by decide⟩

/-- two roots; the first has two children with a hole before the second, which has one child:
```
1 ("1")          5 ("3")
├ 2 ("11")
└ 3 ("13")
  └ 4 ("131")
```
-/
def exDB : DB := { rows := [⟨4, [49, 51, 49], 3, 0, []⟩, ⟨1, [49], 1, 2, []⟩, ⟨5, [51], 1, 0, []⟩,
  ⟨2, [49, 49], 2, 0, []⟩, ⟨3, [49, 51], 2, 1, []⟩] }

theorem exDB_consistent : Consistent exCfg exDB :=
  ⟨by decide, by decide, by intro p; cases p <;> decide, by decide, by decide⟩

theorem exDB_forest : forest exCfg exDB none = [1, 5] ∧ forest exCfg exDB (some 1) = [2, 3] ∧
    forest exCfg exDB (some 3) = [4] ∧ forest exCfg exDB (some 5) = [] := by decide

/-- sorted by the first field ascending, then the second descending -/
def exCfgS : Cfg := ⟨List.range' 48 10, 1, [(0, false), (1, true)], 10⟩

theorem exCfgS_ok : exCfgS.Ok := ⟨by decide, by decide, by decide⟩

/-- three roots with values (1,5), (1,2), (7,0), and two children of the second -/
def exDBS : DB := { rows := [⟨1, [49], 1, 0, [some 1, some 5]⟩, ⟨2, [50], 1, 2, [some 1, some 2]⟩,
  ⟨3, [52], 1, 0, [some 7, some 0]⟩, ⟨4, [50, 49], 2, 0, [some 0, some 0]⟩, ⟨5, [50, 50], 2, 0, [some 3, some 3]⟩] }

theorem exDBS_consistent : Consistent exCfgS exDBS :=
  ⟨by decide, by decide, by intro p; cases p <;> decide, by decide, by decide⟩

theorem exDBS_sorted : AllNonNull exCfgS exDBS ∧ (forest exCfgS exDBS).SortedBy exCfgS.orderBy (valsOf exDBS) := by
  constructor
  · intro r hr e he
    simp only [exDBS, List.mem_cons, List.not_mem_nil, or_false] at hr
    simp only [exCfgS, List.mem_cons, List.not_mem_nil, or_false] at he
    rcases hr with rfl | rfl | rfl | rfl | rfl <;> rcases he with rfl | rfl <;> exact ⟨_, rfl⟩
  · have key : ∀ p : Option Nat, p ∈ [none, some 1, some 2, some 3, some 4, some 5] ∨ forest exCfgS exDBS p = [] := by
      intro p
      cases p with
      | none => simp
      | some k =>
        by_cases hk : k < 6
        · interval_cases k <;> first | (left; decide) | (right; decide)
        · right
          have : exDBS.get? k = none := by
            rw [get?_eq_none]
            intro r hr
            simp only [exDBS, List.mem_cons, List.not_mem_nil, or_false] at hr
            rcases hr with rfl | rfl | rfl | rfl | rfl <;> simp <;> omega
          simp [forest, this]
    intro p
    rcases key p with h | h
    · revert p
      decide
    · rw [h]; exact List.Pairwise.nil

end Verif.MP
