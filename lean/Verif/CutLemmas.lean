/-
A branch that is dumped, deleted and loaded again is moved.
-/
import Verif.CopyLemmas
import Verif.SpecDeleteLoop
import Verif.ArrangeLemmas

namespace Verif

variable {F : Forest} {ids : List Nat} {x : Nat} {D : Nat → Bool}

/-- what goes is the branch -/
theorem goes_branch (hF : F.IsForestOn ids) (hx : x ∈ ids) (hD : F.Goes ids (fun k => k == x) D) (k : Nat) : D k = true ↔ F.Branch x k := by
  rw [hD k]
  constructor
  · rintro ⟨_, h | ⟨q, h1, h2⟩⟩
    · exact Or.inl (by simpa using h)
    · right; rwa [show q = x by simpa using h1] at h2
  · rintro (rfl | h)
    · exact ⟨hx, Or.inl (by simp)⟩
    · have : k ∈ ids := by
        cases h with
        | child h => exact hF.good.sub _ _ h
        | step _ h => exact hF.good.sub _ _ h
      exact ⟨this, Or.inr ⟨x, by simp, h⟩⟩

/-- outside of the branch, what is left is everything but the node -/
theorem prune_branch (hF : F.IsForestOn ids) (hx : x ∈ ids) (hD : F.Goes ids (fun k => k == x) D) {q : Option Nat} (hq : ∀ j, q = some j → D j = false) : F.prune D q = F.remove x q := by
  have hfil : (F q).filter (fun y => !D y) = (F q).filter (· ≠ x) := by
    refine List.filter_congr (fun k hk => ?_)
    rw [Bool.eq_iff_iff, decide_eq_true_eq, Bool.not_eq_true', ← Bool.not_eq_true, goes_branch hF hx hD]
    constructor
    · rintro h rfl; exact h (Or.inl rfl)
    · rintro h (h1 | h1)
      · exact h h1
      · cases h1 with
        | child h2 =>
          have := hq x (hF.good.one _ _ _ hk h2)
          rw [← Bool.not_eq_true, goes_branch hF hx hD] at this
          exact this (Or.inl rfl)
        | @step m _ h2 h3 =>
          have := hq m (hF.good.one _ _ _ hk h3)
          rw [← Bool.not_eq_true, goes_branch hF hx hD] at this
          exact this (Or.inr h2)
  cases q with
  | none => exact hfil
  | some j =>
    show (if D j then [] else _) = _
    rw [hq j rfl]
    exact hfil

/-- **The branch attached to what is left** is the branch moved to the last place. -/
theorem cut_grafted (hF : F.IsForestOn ids) (hx : x ∈ ids) {v : Nat → Vals} {d : Nest Item} (hd : Dumps F v true [x] d) (hD : F.Goes ids (fun k => k == x) D)
    {p : Option Nat} (hp : ∀ q, p = some q → ¬ F.Branch x q) (keys : Nat → Nat) :
    ∃ n : Nest Nat, prepare true keys 0 d = .ok (n.map (fun k => (k, v k)), 0) ∧ n.labels.Nodup ∧ n.tops = [x] ∧ (∀ k, k ∈ n.labels ↔ D k = true) ∧
      Grafted (F.prune D) (F.move x p .last) p n := by
  obtain ⟨n, hn, rfl⟩ := hd
  obtain ⟨l, hl, hlnd, hsub, hbr⟩ := hF.branch hx
  have hlab : n.labels = l := by
    obtain ⟨n', hn', e⟩ := Nest.shown_of_dfs hl
    rw [← e, hn.unique hn']
  have hmem : ∀ k, k ∈ n.labels ↔ D k = true := fun k => by rw [hlab, hbr k, goes_branch hF hx hD]
  have hpD : ∀ q, p = some q → D q = false := by
    intro q e
    rw [← Bool.not_eq_true, goes_branch hF hx hD]
    exact hp q e
  refine ⟨n, prepare_keep v keys n 0, by rw [hlab]; exact hlnd, hn.tops_eq, hmem, ?_, ?_, ?_⟩
  · rw [prune_branch hF hx hD hpD, hn.tops_eq]
    unfold Forest.move Forest.put
    rw [if_pos rfl]
    rfl
  · rw [hn.tops_eq]
    refine hn.congr (fun k hk => ?_)
    have hk' := (goes_branch hF hx hD k).1 ((hmem k).1 hk)
    show F.move x p .last (some k) = F (some k)
    unfold Forest.move Forest.put
    rw [if_neg (fun e => hp k e.symm hk')]
    exact List.filter_eq_self.2 (fun a ha => by
      rw [decide_eq_true_eq]
      rintro rfl
      rcases hk' with rfl | hk'
      · exact hF.irrefl _ (.child ha)
      · exact hF.irrefl _ (.step hk' ha))
  · intro q hq hql
    rw [prune_branch hF hx hD (fun j e => by
      rw [← Bool.not_eq_true, ← hmem j]
      exact fun hj => hql j hj e)]
    unfold Forest.move Forest.put
    rw [if_neg hq]

/-- the data are the same in another order -/
theorem cut_data {DD : List (Nat × Vals)} (hnd : (DD.map Prod.fst).Nodup) {v : Nat → Vals} (hv : ∀ e ∈ DD, v e.1 = e.2) {l : List Nat} (hl : l.Nodup) (hm : ∀ k, k ∈ l ↔ D k = true)
    (hsub : ∀ k ∈ l, k ∈ DD.map Prod.fst) : (DD.filter (fun e => !D e.1) ++ l.map (fun k => (k, v k))).Perm DD := by
  have h1 : l.Perm ((DD.filter (fun e => D e.1)).map Prod.fst) := by
    rw [List.perm_ext_iff_of_nodup hl (hnd.sublist (List.filter_sublist.map _))]
    intro k
    rw [List.mem_map]
    constructor
    · intro hk
      obtain ⟨e, he, rfl⟩ := List.mem_map.1 (hsub k hk)
      exact ⟨e, List.mem_filter.2 ⟨he, (hm _).1 hk⟩, rfl⟩
    · rintro ⟨e, he, rfl⟩
      exact (hm _).2 (List.mem_filter.1 he).2
  have h2 : ((DD.filter (fun e => D e.1)).map Prod.fst).map (fun k => (k, v k)) = DD.filter (fun e => D e.1) := by
    rw [List.map_map]
    conv => rhs; rw [← List.map_id (DD.filter (fun e => D e.1))]
    exact List.map_congr_left (fun e he => by
      show (e.1, v e.1) = e
      rw [hv e (List.mem_filter.1 he).1])
  have h3 := h1.map (fun k => (k, v k))
  rw [h2] at h3
  refine (List.Perm.append_left _ h3).trans ?_
  exact (List.perm_append_comm).trans (List.filter_append_perm _ _)

end Verif
