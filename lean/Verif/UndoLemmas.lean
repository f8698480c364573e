/-
A move back to the former place gives the former forest.
-/
import Verif.SpecUndo
import Verif.ArrangeLemmas
import Verif.ForestLemmas
import Verif.MP.Reorder

namespace Verif

namespace Forest

variable {F G : Forest} {ids : List Nat} {x s : Nat} {q : Option Nat} {pos : Pos}

theorem remove_remove (F : Forest) (x : Nat) : (F.remove x).remove x = F.remove x := by
  funext p
  unfold remove
  rw [List.filter_filter]
  simp

theorem remove_move (F : Forest) (x : Nat) (p : Option Nat) (s : Slot) : (F.move x p s).remove x = F.remove x := by
  rw [← remove_remove F x]
  funext q
  show ((F.move x p s) q).filter _ = _
  unfold move put
  split
  · rw [Slot.filter_ins]; rfl
  · rfl

theorem remove_moveAsked (F : Forest) (x : Nat) (p : Option Nat) (t : Nat) (pos : Pos) : (F.moveAsked x p t pos).remove x = F.remove x := by
  cases pos <;> unfold moveAsked <;> (try unfold sibMove) <;> (try simp only [remove_move]) <;> split <;> simp only [remove_move]

/-- a move depends on the other nodes only -/
theorem move_of_remove (h : G.remove x = F.remove x) (p : Option Nat) (s : Slot) : G.move x p s = F.move x p s := by
  unfold move; rw [h]

theorem filter_ne_append {l r : List Nat} (hl : x ∉ l) (hr : x ∉ r) : (l ++ x :: r).filter (· ≠ x) = l ++ r := by
  rw [List.filter_append, List.filter_cons_of_neg (by simp), List.filter_eq_self.2 (fun a ha => by rw [decide_eq_true_eq]; rintro rfl; exact hl ha),
    List.filter_eq_self.2 (fun a ha => by rw [decide_eq_true_eq]; rintro rfl; exact hr ha)]

/-- a node taken out and put where it was -/
theorem move_same (hF : F.IsForestOn ids) {l r : List Nat} (e : F q = l ++ x :: r) {sl : Slot} (h : sl.ins x (l ++ r) = l ++ x :: r) : F.move x q sl = F := by
  have hn := hF.kids_nodup q
  rw [e] at hn
  have h1 := List.nodup_append.1 hn
  have h2 := List.nodup_cons.1 h1.2.1
  have hl : x ∉ l := fun hl => h1.2.2 x hl x (.head _) rfl
  funext p
  unfold move put
  split
  · rename_i hp
    subst hp
    unfold remove
    rw [e, filter_ne_append hl h2.1, h]
  · rename_i hp
    unfold remove
    exact List.filter_eq_self.2 (fun a ha => by
      rw [decide_eq_true_eq]
      rintro rfl
      exact hp (hF.good.one _ _ _ ha (by rw [e]; simp)))

theorem WasAt.mem (h : F.WasAt x q s pos) : x ∈ F q := by
  cases h with
  | right e => rw [e]; simp
  | left e => rw [e]; simp
  | firstSibling e _ => rw [e]; simp
  | lastSibling e _ => rw [e]; simp
  | firstChild e => rw [e]; simp
  | lastChild e => rw [e]; simp

/-- the other node is a sibling, or the parent -/
theorem WasAt.other (h : F.WasAt x q s pos) : (pos.isChild = false ∧ s ∈ F q) ∨ (pos.isChild = true ∧ q = some s) := by
  cases h with
  | right e => exact Or.inl ⟨rfl, by rw [e]; simp⟩
  | left e => exact Or.inl ⟨rfl, by rw [e]; simp⟩
  | firstSibling e h => exact Or.inl ⟨rfl, by rw [e]; exact .tail _ h⟩
  | lastSibling e h => exact Or.inl ⟨rfl, by rw [e]; exact List.mem_append_left _ h⟩
  | firstChild e => exact Or.inr ⟨rfl, rfl⟩
  | lastChild e => exact Or.inr ⟨rfl, rfl⟩

theorem WasAt.ne (hF : F.IsForestOn ids) (h : F.WasAt x q s pos) : s ≠ x := by
  have hn := hF.kids_nodup q
  cases h with
  | right e => rw [e] at hn; have := List.nodup_append.1 hn; rintro rfl; exact (List.nodup_cons.1 this.2.1).1 (.head _)
  | left e => rw [e] at hn; have := List.nodup_append.1 hn; rintro rfl; exact (List.nodup_cons.1 this.2.1).1 (.head _)
  | firstSibling e h => rw [e] at hn; rintro rfl; exact (List.nodup_cons.1 hn).1 h
  | lastSibling e h => rw [e] at hn; rintro rfl; exact (List.nodup_append.1 hn).2.2 _ h _ (.head _) rfl
  | firstChild e => rintro rfl; exact hF.irrefl _ (.child (by rw [e]; simp))
  | lastChild e => rintro rfl; exact hF.irrefl _ (.child (by rw [e]; simp))

/-- the other node is not below the node -/
theorem WasAt.not_desc (hF : F.IsForestOn ids) (h : F.WasAt x q s pos) : ¬ F.Desc x s := by
  rcases h.other with ⟨_, hs⟩ | ⟨_, rfl⟩
  · exact sib_not_desc hF.good.one hF.irrefl h.mem hs
  · intro hd
    exact hF.irrefl x (.step hd h.mem)

/-- asked to go where it is, a node stays -/
theorem WasAt.stays (hF : F.IsForestOn ids) (h : F.WasAt x q s pos) : F.moveAsked x q s pos = F := by
  have hne := h.ne hF
  have hn := hF.kids_nodup q
  cases h with
  | right e =>
    show (if s = x then F else _) = F
    rw [if_neg hne]
    rename_i l r
    rw [e] at hn
    have h1 := List.nodup_append.1 hn
    refine move_same hF (l := l ++ [s]) (r := r) (by rw [e]; simp) ?_
    show insertAfter s x (l ++ [s] ++ r) = _
    rw [List.append_assoc, List.singleton_append, insertAfter_append (fun hl => h1.2.2 s hl s (.head _) rfl)]
    simp
  | left e =>
    show (if s = x then F else _) = F
    rw [if_neg hne]
    rename_i l r
    rw [e] at hn
    have h1 := List.nodup_append.1 hn
    refine move_same hF (l := l) (r := s :: r) e ?_
    show insertBefore s x (l ++ s :: r) = _
    rw [insertBefore_append (fun hl => h1.2.2 s hl s (.tail _ (.head _)) rfl)]
  | firstSibling e _ => exact move_same hF (l := []) e rfl
  | lastSibling e _ => exact move_same hF (r := []) e (by show _ ++ [] ++ [x] = _; simp)
  | firstChild e => exact move_same hF (l := []) e rfl
  | lastChild e => exact move_same hF (r := []) e (by show _ ++ [] ++ [x] = _; simp)

/-- the move back -/
theorem WasAt.back (hF : F.IsForestOn ids) (h : F.WasAt x q s pos) (hg : G.remove x = F.remove x) : G.moveAsked x q s pos = F := by
  have hne := h.ne hF
  rw [← h.stays hF]
  cases pos <;> unfold moveAsked <;> (try unfold sibMove) <;> (try simp only [if_neg hne]) <;> (try simp only [move_of_remove hg]) <;> cases h

/-- a move brings nothing new below the node -/
theorem desc_of_remove (hG : G.IsForestOn ids) (hg : G.remove x = F.remove x) {d : Nat} (h : G.Desc x d) : F.Desc x d := by
  have hsub : ∀ m, x ∉ G (some m) → ∀ k ∈ G (some m), k ∈ F (some m) := by
    intro m hx k hk
    have : k ∈ G.remove x (some m) := List.mem_filter.2 ⟨hk, by rw [decide_eq_true_eq]; rintro rfl; exact hx hk⟩
    rw [hg] at this
    exact (List.mem_filter.1 this).1
  induction h with
  | child h => exact .child (hsub _ (fun hx => hG.irrefl x (.child hx)) _ h)
  | step h1 h2 ih => exact .step ih (hsub _ (fun hx => hG.irrefl x (.step h1 hx)) _ h2)

/-- the move back is not refused -/
theorem WasAt.not_refused (hF : F.IsForestOn ids) {ids' : List Nat} (hG : G.IsForestOn ids') (h : F.WasAt x q s pos) (hg : G.remove x = F.remove x) : ¬ G.MoveRefused x s pos := by
  rintro (hd | ⟨_, e⟩)
  · exact h.not_desc hF (desc_of_remove hG hg hd)
  · exact h.ne hF e

/-- where the other node is after the move away, as far as it matters -/
theorem WasAt.parent (hF : F.IsForestOn ids) {ids' : List Nat} (hG : G.IsForestOn ids') (h : F.WasAt x q s pos) (hg : G.remove x = F.remove x) {p : Option Nat} (hp : s ∈ G p) :
    G.moveAsked x p s pos = G.moveAsked x q s pos ∧ pos.dest p s = q := by
  rcases h.other with ⟨hc, hs⟩ | ⟨hc, rfl⟩
  · have : s ∈ G.remove x q := by
      rw [hg]
      exact List.mem_filter.2 ⟨hs, by rw [decide_eq_true_eq]; exact h.ne hF⟩
    obtain rfl := hG.good.one _ _ _ hp (List.mem_filter.1 this).1
    exact ⟨rfl, by unfold Pos.dest; rw [hc]; rfl⟩
  · cases pos <;> first | exact ⟨rfl, rfl⟩ | cases hc

theorem WasAt.prep (h : F.WasAt x q s pos) : preparePosForMove false (some pos) = .ok pos ∧ IsPlainPos pos := by
  unfold IsPlainPos IsSibPos
  cases h <;> exact ⟨rfl, by simp⟩

end Forest

end Verif
