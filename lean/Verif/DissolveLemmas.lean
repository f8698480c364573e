/-
The children of a node moved right behind it, the last one first.
-/
import Verif.SpecDissolve
import Verif.ArrangeLemmas
import Verif.ForestLemmas

namespace Verif
namespace Forest

variable {F G : Forest} {ids : List Nat}

theorem flatMap_same {f : Nat → List Nat} {l : List Nat} (h : ∀ k ∈ l, f k = [k]) : l.flatMap f = l := by
  induction l with
  | nil => rfl
  | cons a l ih => rw [List.flatMap_cons, h a (List.mem_cons_self ..), ih (fun k hk => h k (List.mem_cons_of_mem _ hk))]; rfl

/-- `x` has one place, and its children are no one else's -/
structure OwnKids (F : Forest) (x : Nat) : Prop where
  nodup : (F (some x)).Nodup
  own : ∀ q, q ≠ some x → ∀ a ∈ F (some x), a ∉ F q
  irrefl : x ∉ F (some x)
  one : ∀ p q, x ∈ F p → x ∈ F q → p = q
  once : ∀ q, x ∈ F q → ∃ l1 l2, F q = l1 ++ x :: l2 ∧ x ∉ l1 ∧ x ∉ l2

theorem IsForestOn.ownKids (h : F.IsForestOn ids) (x : Nat) : F.OwnKids x := by
  refine ⟨h.kids_nodup _, fun q hq a ha hc => hq (h.good.one _ _ _ hc ha), fun hx => h.irrefl x (.child hx), fun p q hp hq => h.good.one _ _ _ hp hq, fun q hq => ?_⟩
  obtain ⟨l1, l2, e⟩ := List.append_of_mem hq
  have hn := h.kids_nodup q
  rw [e, List.nodup_append] at hn
  exact ⟨l1, l2, e, fun hm => hn.2.2 x hm x (List.mem_cons_self ..) rfl, (List.nodup_cons.1 hn.2.1).1⟩

theorem released_nil (h : F.OwnKids x) : F.released x (F (some x)) [] = F := by
  funext q
  unfold released
  split
  · rename_i e; rw [e]
  · refine flatMap_same (fun k _ => ?_)
    split
    · rename_i e; rw [e]
    · rfl

/-- one child -/
theorem move_released (h : F.OwnKids x) {p : Option Nat} (hx : x ∈ F p) {l : List Nat} {c : Nat} (e : F (some x) = l ++ [c]) :
    F.moveAsked c p x .right = F.released x l [c] := by
  have hc : c ∈ F (some x) := by rw [e]; simp
  have hne : x ≠ c := fun e' => h.irrefl (by rw [e'] at hc ⊢; exact e' ▸ hc)
  have hp : p ≠ some x := fun e' => h.irrefl (e' ▸ hx)
  have hrem : ∀ q, q ≠ some x → F.remove c q = F q := by
    intro q hq
    unfold remove
    rw [List.filter_eq_self]
    intro a ha
    simp only [ne_eq, decide_eq_true_eq]
    rintro rfl
    exact h.own q hq _ hc ha
  have hasked : F.moveAsked c p x .right = F.move c p (.after x) := by simp [moveAsked, sibMove, hne]
  rw [hasked]
  funext q
  unfold move put released
  by_cases hq : q = some x
  · rw [if_neg (by rw [hq]; exact fun e' => hp e'.symm), if_pos hq, hq]
    unfold remove
    have hn := h.nodup
    rw [e, List.nodup_append] at hn
    rw [e, List.filter_append]
    have h1 : l.filter (fun y => decide (y ≠ c)) = l := by
      rw [List.filter_eq_self]
      intro a ha
      simp only [ne_eq, decide_eq_true_eq]
      exact fun e' => hn.2.2 a ha c (by simp) e'
    rw [h1]
    simp
  · rw [if_neg hq, hrem q hq]
    by_cases hqp : q = p
    · subst hqp
      rw [if_pos rfl]
      obtain ⟨l1, l2, e1, h1, h2⟩ := h.once q hx
      rw [e1, List.flatMap_append, List.flatMap_cons, if_pos rfl]
      rw [flatMap_same (fun k hk => if_neg (fun e' : k = x => h1 (e' ▸ hk))), flatMap_same (fun k hk => if_neg (fun e' : k = x => h2 (e' ▸ hk)))]
      unfold Slot.ins
      simp only
      rw [insertAfter_append h1]
      rfl
    · rw [if_neg hqp]
      refine (flatMap_same (fun k hk => if_neg ?_)).symm
      rintro rfl
      exact hqp (h.one _ _ hk hx)

theorem mem_released {l g : List Nat} {q : Option Nat} {k : Nat} : k ∈ F.released x l g q ↔ (q = some x ∧ k ∈ l) ∨ (q ≠ some x ∧ (k ∈ F q ∨ (x ∈ F q ∧ k ∈ g))) := by
  unfold released
  split
  · rename_i hq; simp [hq]
  · rename_i hq
    rw [List.mem_flatMap]
    constructor
    · rintro ⟨a, ha, hk⟩
      refine Or.inr ⟨hq, ?_⟩
      split at hk
      · rename_i e
        subst e
        rcases List.mem_cons.1 hk with rfl | hk
        · exact Or.inl ha
        · exact Or.inr ⟨ha, hk⟩
      · rw [List.mem_singleton] at hk
        exact Or.inl (hk ▸ ha)
    · rintro (⟨h, _⟩ | ⟨_, h | ⟨h1, h2⟩⟩)
      · exact absurd h hq
      · refine ⟨k, h, ?_⟩
        split
        · rename_i e; simp [e]
        · simp
      · exact ⟨x, h1, by simp [h2]⟩

theorem OwnKids.released (h : F.OwnKids x) {l : List Nat} {c : Nat} (e : F (some x) = l ++ [c]) : (F.released x l [c]).OwnKids x := by
  have hc : c ∈ F (some x) := by rw [e]; simp
  have hne : x ≠ c := fun e' => h.irrefl (by rw [e'] at hc ⊢; exact e' ▸ hc)
  have hself : F.released x l [c] (some x) = l := by unfold Forest.released; rw [if_pos rfl]
  have hn := h.nodup
  rw [e, List.nodup_append] at hn
  have hsub : ∀ a ∈ l, a ∈ F (some x) := fun a ha => by rw [e]; simp [ha]
  have hxm : ∀ q, x ∈ F.released x l [c] q → x ∈ F q := by
    intro q hx
    rcases mem_released.1 hx with ⟨_, hx⟩ | ⟨_, hx | ⟨hx, _⟩⟩
    · exact absurd (hsub x hx) h.irrefl
    · exact hx
    · exact hx
  refine ⟨by rw [hself]; exact hn.1, ?_, by rw [hself]; exact fun hx => h.irrefl (hsub x hx), fun p q hp hq => h.one _ _ (hxm p hp) (hxm q hq), fun q hq => ?_⟩
  · intro q hq a ha
    rw [hself] at ha
    intro hm
    rcases mem_released.1 hm with ⟨hm, _⟩ | ⟨_, hm | ⟨_, hm⟩⟩
    · exact hq hm
    · exact h.own q hq a (hsub a ha) hm
    · exact hn.2.2 a ha c (by simp) (by simpa using hm)
  · have hx := hxm q hq
    have hqx : q ≠ some x := fun e' => h.irrefl (e' ▸ hx)
    obtain ⟨l1, l2, e1, h1, h2⟩ := h.once q hx
    refine ⟨l1, c :: l2, ?_, h1, by simp [hne, h2]⟩
    unfold Forest.released
    rw [if_neg hqx, e1, List.flatMap_append, List.flatMap_cons, if_pos rfl]
    rw [flatMap_same (fun k hk => if_neg (fun e' : k = x => h1 (e' ▸ hk))), flatMap_same (fun k hk => if_neg (fun e' : k = x => h2 (e' ▸ hk)))]
    rfl

/-- the moves, the last child first -/
theorem movedAll_released {x : Nat} {cs : List Nat} (h : MovedAll .right x cs F G) : ∀ {l : List Nat}, F.OwnKids x → F (some x) = l ++ cs.reverse → G = F.released x l cs.reverse := by
  induction h with
  | nil F =>
    intro l ho e
    rw [List.reverse_nil, List.append_nil] at e
    rw [List.reverse_nil, ← e]
    exact (released_nil ho).symm
  | @cons c cs F G p hp hr _ ih =>
    intro l ho e
    rw [List.reverse_cons, ← List.append_assoc] at e
    rw [move_released ho hp e] at ih
    have hc : c ∈ F (some x) := by rw [e]; simp
    have hne : c ≠ x := fun e' => ho.irrefl (by rw [e'] at hc; exact hc)
    rw [ih (l := l) (ho.released e) (by unfold released; rw [if_pos rfl])]
    funext q
    unfold released
    by_cases hq : q = some x
    · rw [if_pos hq, if_pos hq]
    · rw [if_neg hq, if_neg hq, if_neg hq, List.flatMap_assoc]
      congr 1
      funext k
      by_cases hk : k = x
      · rw [if_pos hk, if_pos hk, List.flatMap_cons, if_pos rfl, List.flatMap_cons, if_neg hne]
        simp
      · rw [if_neg hk, if_neg hk, List.flatMap_cons, if_neg hk]
        rfl

/-- the loop over all the children -/
theorem LoopOut.released (hF : F.IsForestOn ids) {ids' : List Nat} (hG : G.IsForestOn ids') {x : Nat} {p : Option Nat} (hx : x ∈ F p) {err : Option Err} {Why : Nat → Err → Prop}
    (h : LoopOut .right x (F (some x)).reverse F G err Why) :
    ∃ kept gone, F (some x) = kept ++ gone ∧ G = F.released x kept gone ∧ if kept = [] then err = none else ∃ e c, err = some e ∧ Why c e := by
  obtain ⟨done, rest, e, hm, hend⟩ := h
  have e' : F (some x) = rest.reverse ++ done.reverse := by
    rw [← List.reverse_append, ← e, List.reverse_reverse]
  have hg := movedAll_released hm (hF.ownKids x) e'
  refine ⟨rest.reverse, done.reverse, e', hg, ?_⟩
  cases rest with
  | nil => rw [if_pos List.reverse_nil]; exact hend
  | cons c rest =>
    rw [if_neg (by simp)]
    obtain ⟨er, he, h1 | h1⟩ := hend
    · exfalso
      have hc : c ∈ G (some x) := by
        rw [hg, mem_released]
        exact Or.inl ⟨rfl, by simp⟩
      have hd : G.Desc x c := .child hc
      rcases h1.2 with h2 | ⟨h2, _⟩
      · exact hG.irrefl _ (Desc.trans h2 hd)
      · cases h2
    · exact ⟨er, c, he, h1⟩

/-- when all children are behind `x`, only `x` goes -/
theorem dissolved_prune (hF : F.IsForestOn ids) {x : Nat} (hx : x ∈ ids) {D : Nat → Bool} (hD : (F.released x [] (F (some x))).Goes ids (fun k => k == x) D) :
    (F.released x [] (F (some x))).prune D = F.dissolved x ∧ ∀ k, D k = (k == x) := by
  have hnil : F.released x [] (F (some x)) (some x) = [] := by unfold Forest.released; rw [if_pos rfl]
  have hDa : ∀ k, D k = (k == x) := by
    intro k
    rw [Bool.eq_iff_iff, hD k]
    constructor
    · rintro ⟨_, h | ⟨q, hq, h⟩⟩
      · exact h
      · exfalso
        rw [beq_iff_eq] at hq
        subst hq
        have : ∀ {k}, ¬ (F.released q [] (F (some q))).Desc q k := by
          intro k h
          induction h with
          | child h => rw [hnil] at h; cases h
          | step _ _ ih => exact ih
        exact this h
    · intro h
      exact ⟨by rw [beq_iff_eq] at h; rw [h]; exact hx, Or.inl h⟩
  refine ⟨?_, hDa⟩
  have hxx : x ∉ F (some x) := fun h => hF.irrefl x (.child h)
  have hfil : ∀ l : List Nat, (l.flatMap (fun k => if k = x then x :: F (some x) else [k])).filter (fun y => !D y) = l.flatMap (fun k => if k = x then F (some x) else [k]) := by
    intro l
    induction l with
    | nil => rfl
    | cons a l ih =>
      rw [List.flatMap_cons, List.flatMap_cons, List.filter_append, ih]
      congr 1
      by_cases ha : a = x
      · rw [if_pos ha, if_pos ha, List.filter_cons_of_neg (by rw [hDa]; simp), List.filter_eq_self]
        intro k hk
        rw [hDa]
        simp only [Bool.not_eq_eq_eq_not, Bool.not_true, beq_eq_false_iff_ne, ne_eq]
        exact fun e => hxx (e ▸ hk)
      · rw [if_neg ha, if_neg ha, List.filter_cons_of_pos (by rw [hDa]; simpa using ha)]
        rfl
  funext q
  cases q with
  | none =>
    unfold prune
    dsimp only
    unfold Forest.released Forest.dissolved
    rw [if_neg (by simp), if_neg (by simp)]
    exact hfil _
  | some q =>
    unfold prune
    dsimp only
    by_cases hq : q = x
    · rw [if_pos (by rw [hDa]; simpa using hq)]
      unfold Forest.dissolved
      rw [if_pos (by rw [hq])]
    · rw [if_neg (by rw [hDa]; simpa using hq)]
      have hqa : ¬ (some q = some x) := by simpa using hq
      unfold Forest.released Forest.dissolved
      rw [if_neg hqa, if_neg hqa]
      exact hfil _

end Forest
end Verif
