/-
The queries that models.py implements for several backends.
-/
import Verif.SpecNav
import Verif.ForestLemmas

namespace Verif

variable {ρ : Type}

/-- `qs.get(pk=k)` -/
def getIn (pk : ρ → Nat) (l : List ρ) (k : Nat) : Except Err (Option ρ) :=
  match l.find? (fun r => pk r == k) with
  | none => .error .doesNotExist
  | some r => .ok (some r)

/-- models.py:579-589 `get_prev_sibling`, from the list of siblings; `ids.index` raises ValueError -/
def prevIn (pk : ρ → Nat) (sibs : List ρ) (k : Nat) : Except Err (Option ρ) :=
  match (sibs.map pk).idxOf? k with
  | none => .error .valueError
  | some idx => if 0 < idx then getIn pk sibs ((sibs.map pk).getD (idx - 1) 0) else .ok none

/-- models.py:591-601 `get_next_sibling` -/
def nextIn (pk : ρ → Nat) (sibs : List ρ) (k : Nat) : Except Err (Option ρ) :=
  match (sibs.map pk).idxOf? k with
  | none => .error .valueError
  | some idx => if idx < (sibs.map pk).length - 1 then getIn pk sibs ((sibs.map pk).getD (idx + 1) 0) else .ok none

theorem getIn_of {pk : ρ → Nat} {l : List ρ} (hnd : (l.map pk).Nodup) {r : ρ} (hr : r ∈ l) : getIn pk l (pk r) = .ok (some r) := by
  unfold getIn
  have : l.find? (fun q => pk q == pk r) = some r := by
    obtain ⟨l₁, l₂, rfl⟩ := List.append_of_mem hr
    rw [List.find?_eq_some_iff_append]
    refine ⟨by simp, l₁, l₂, rfl, ?_⟩
    intro a ha
    rw [List.map_append, List.map_cons, List.nodup_append] at hnd
    have := hnd.2.2 (pk a) (List.mem_map_of_mem ha) (pk r) (by simp)
    simpa using this
  rw [this]

theorem idxOf?_split {l₁ l₂ : List Nat} {k : Nat} (h : k ∉ l₁) : (l₁ ++ k :: l₂).idxOf? k = some l₁.length := by
  induction l₁ with
  | nil => simp [List.idxOf?_cons]
  | cons a l₁ ih =>
    rw [List.mem_cons, not_or] at h
    rw [List.cons_append, List.idxOf?_cons]
    have : (a == k) = false := by simpa using fun e => h.1 e.symm
    simp [this, ih h.2]

theorem prevIn_split {pk : ρ → Nat} {l₁ l₂ : List ρ} {x : ρ} (hnd : ((l₁ ++ x :: l₂).map pk).Nodup) :
    prevIn pk (l₁ ++ x :: l₂) (pk x) = .ok l₁.getLast? := by
  have hx : pk x ∉ l₁.map pk := by
    rw [List.map_append, List.map_cons, List.nodup_append] at hnd
    intro hm
    exact hnd.2.2 _ hm (pk x) (by simp) rfl
  unfold prevIn
  rw [show (l₁ ++ x :: l₂).map pk = l₁.map pk ++ pk x :: l₂.map pk by simp, idxOf?_split hx]
  simp only [List.length_map]
  cases hl : l₁.getLast? with
  | none => rw [List.getLast?_eq_none_iff] at hl; simp [hl]
  | some z =>
    obtain ⟨l', rfl⟩ := List.getLast?_eq_some_iff.1 hl
    rw [if_pos (by simp)]
    have : ((l' ++ [z]).map pk ++ pk x :: l₂.map pk).getD ((l' ++ [z]).length - 1) 0 = pk z := by
      simp [List.getD_eq_getElem?_getD]
    rw [this]
    exact getIn_of hnd (by simp)

theorem nextIn_split {pk : ρ → Nat} {l₁ l₂ : List ρ} {x : ρ} (hnd : ((l₁ ++ x :: l₂).map pk).Nodup) :
    nextIn pk (l₁ ++ x :: l₂) (pk x) = .ok l₂.head? := by
  have hx : pk x ∉ l₁.map pk := by
    rw [List.map_append, List.map_cons, List.nodup_append] at hnd
    intro hm
    exact hnd.2.2 _ hm (pk x) (by simp) rfl
  unfold nextIn
  rw [show (l₁ ++ x :: l₂).map pk = l₁.map pk ++ pk x :: l₂.map pk by simp, idxOf?_split hx]
  simp only [List.length_map, List.length_append, List.length_cons]
  cases l₂ with
  | nil => simp
  | cons z l' =>
    rw [if_pos (by simp)]
    have : (l₁.map pk ++ pk x :: (z :: l').map pk).getD (l₁.length + 1) 0 = pk z := by
      simp [List.getD_eq_getElem?_getD]
    rw [this]
    exact getIn_of hnd (by simp)

/-- a depth-first listing of one branch starts with its top -/
theorem dfs_branch_cons {F : Forest} {x : Nat} {l : List Nat} (h : F.DFS [x] l) : ∃ l', l = x :: l' ∧ F.DFS (F (some x)) l' := by
  cases h with
  | cons h1 h2 =>
    cases h2
    exact ⟨_, by simp, h1⟩

end Verif
