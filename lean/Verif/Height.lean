/-
What additions and moves do to the levels of a forest.
-/
import Verif.ForestLemmas
import Verif.SpecHeight
import Verif.SpecPos

namespace Verif
namespace Forest

variable {F : Forest}

theorem Below.desc {x y e : Nat} (h : F.Below x y e) : y = x ∨ F.Desc x y := by
  induction h with
  | self => exact Or.inl rfl
  | child _ hy ih =>
    rcases ih with rfl | ih
    · exact Or.inr (.child hy)
    · exact Or.inr (.step ih hy)

theorem Below.level {x y e d : Nat} (h : F.Below x y e) (hl : F.Level x d) : F.Level y (d + e) := by
  induction h with
  | self => exact hl
  | child _ hy ih => exact .child ih hy

theorem level_functional (hu : ∀ p q k, k ∈ F p → k ∈ F q → p = q) {k a : Nat} (h : F.Level k a) : ∀ {b}, F.Level k b → a = b := by
  induction h with
  | root hr =>
    intro b hb
    cases hb with
    | root => rfl
    | child _ hc => cases hu _ _ _ hr hc
  | child _ hc ih =>
    intro b hb
    cases hb with
    | root hr => cases hu _ _ _ hr hc
    | child h2 hc2 =>
      cases hu _ _ _ hc hc2
      rw [ih h2]

theorem mem_insertBefore {t x y : Nat} {l : List Nat} (h : y ∈ insertBefore t x l) : y = x ∨ y ∈ l := by
  induction l with
  | nil => simp [insertBefore] at h
  | cons a l ih =>
    unfold insertBefore at h
    split at h
    · simpa using h
    · rcases List.mem_cons.1 h with rfl | h
      · exact Or.inr (by simp)
      · rcases ih h with h | h
        exacts [Or.inl h, Or.inr (by simp [h])]

theorem mem_insertAfter {t x y : Nat} {l : List Nat} (h : y ∈ insertAfter t x l) : y = x ∨ y ∈ l := by
  induction l with
  | nil => simp [insertAfter] at h
  | cons a l ih =>
    unfold insertAfter at h
    split at h
    · simp only [List.mem_cons] at h ⊢
      rcases h with h | h | h <;> simp [h]
    · rcases List.mem_cons.1 h with rfl | h
      · exact Or.inr (by simp)
      · rcases ih h with h | h
        exacts [Or.inl h, Or.inr (by simp [h])]

theorem mem_ins {s : Slot} {x y : Nat} {l : List Nat} (h : y ∈ s.ins x l) : y = x ∨ y ∈ l := by
  cases s with
  | first => simpa [Slot.ins] using h
  | last => simp only [Slot.ins, List.mem_append, List.mem_singleton] at h; exact h.symm
  | before t => exact mem_insertBefore h
  | after t => exact mem_insertAfter h

theorem subset_insertBefore {t x y : Nat} {l : List Nat} (h : y ∈ l) : y ∈ insertBefore t x l := by
  induction l with
  | nil => simp at h
  | cons a l ih =>
    unfold insertBefore
    split
    · simp only [List.mem_cons] at h ⊢; exact Or.inr h
    · simp only [List.mem_cons] at h ⊢
      exact h.imp id ih

theorem subset_insertAfter {t x y : Nat} {l : List Nat} (h : y ∈ l) : y ∈ insertAfter t x l := by
  induction l with
  | nil => simp at h
  | cons a l ih =>
    unfold insertAfter
    split
    · simp only [List.mem_cons] at h ⊢; exact h.imp id Or.inr
    · simp only [List.mem_cons] at h ⊢
      exact h.imp id ih

theorem subset_ins {s : Slot} {x y : Nat} {l : List Nat} (h : y ∈ l) : y ∈ s.ins x l := by
  cases s with
  | first => simp [Slot.ins, h]
  | last => simp [Slot.ins, h]
  | before t => exact subset_insertBefore h
  | after t => exact subset_insertAfter h

theorem mem_put {p q : Option Nat} {s : Slot} {x y : Nat} (h : y ∈ F.put p s x q) : (y = x ∧ q = p) ∨ y ∈ F q := by
  unfold put at h
  split at h
  · next e => rcases mem_ins h with h | h; exacts [Or.inl ⟨h, e⟩, Or.inr h]
  · exact Or.inr h

theorem subset_put {p q : Option Nat} {s : Slot} {x y : Nat} (h : y ∈ F q) : y ∈ F.put p s x q := by
  unfold put
  split
  · exact subset_ins h
  · exact h

theorem mem_move {p q : Option Nat} {s : Slot} {x y : Nat} (h : y ∈ F.move x p s q) : (y = x ∧ q = p) ∨ (y ≠ x ∧ y ∈ F q) := by
  rcases mem_put h with h | h
  · exact Or.inl h
  · simp only [remove, List.mem_filter, decide_eq_true_eq] at h
    exact Or.inr ⟨h.2, h.1⟩

theorem subset_move {p q : Option Nat} {s : Slot} {x y : Nat} (hy : y ≠ x) (h : y ∈ F q) : y ∈ F.move x p s q :=
  subset_put (by simp [remove, h, hy])

/-- a new node without children -/
theorem HeightLE.put {n : Nat} (h : F.HeightLE n) {p : Option Nat} {s : Slot} {x : Nat} (hx : F (some x) = []) (hp : p ≠ some x)
    (hroom : ∀ d, F.LevelOf p d → d + 1 ≤ n) : (F.put p s x).HeightLE n := by
  have key : ∀ k d, (F.put p s x).Level k d → F.Level k d ∨ (k = x ∧ d ≤ n) := by
    intro k d hl
    induction hl with
    | root hr =>
      rcases mem_put hr with ⟨e, e'⟩ | hr
      · subst e'; exact Or.inr ⟨e, hroom 0 rfl⟩
      · exact Or.inl (.root hr)
    | @child q y k _ hc ih =>
      rcases mem_put hc with ⟨e, e'⟩ | hc
      · subst e'
        rcases ih with ih | ⟨rfl, _⟩
        · exact Or.inr ⟨e, hroom k ih⟩
        · exact absurd rfl hp
      · rcases ih with ih | ⟨e, _⟩
        · exact Or.inl (.child ih hc)
        · rw [e, hx] at hc; simp at hc
  intro k d hl
  rcases key k d hl with h1 | ⟨_, h1⟩
  exacts [h k d h1, h1]

/-- where the nodes are after a move -/
theorem move_level (hu : ∀ p q k, k ∈ F p → k ∈ F q → p = q) {x : Nat} {p : Option Nat} {s : Slot} (hp : ∀ q, p = some q → ∀ e, ¬ F.Below x q e)
    {k d : Nat} (hl : (F.move x p s).Level k d) :
    (F.Level k d ∧ ∀ e, ¬ F.Below x k e) ∨ ∃ e n, F.Below x k e ∧ F.LevelOf p n ∧ d = n + 1 + e := by
  have hout : ∀ {q : Option Nat} {y : Nat}, y ≠ x → y ∈ F q → (∀ m, q = some m → ∀ e, ¬ F.Below x m e) → ∀ e, ¬ F.Below x y e := by
    intro q y hy hyq hq e hb
    cases hb with
    | self => exact hy rfl
    | child hb hm => exact hq _ (hu _ _ _ hyq hm) _ hb
  induction hl with
  | root hr =>
    rcases mem_move hr with ⟨rfl, rfl⟩ | ⟨hne, hr⟩
    · exact Or.inr ⟨0, 0, .self, rfl, rfl⟩
    · exact Or.inl ⟨.root hr, hout hne hr (by simp)⟩
  | @child q y k _ hc ih =>
    rcases mem_move hc with ⟨rfl, rfl⟩ | ⟨hne, hc⟩
    · rcases ih with ⟨ih, _⟩ | ⟨e, _, hb, _⟩
      · exact Or.inr ⟨0, k, .self, ih, rfl⟩
      · exact absurd hb (hp q rfl e)
    · rcases ih with ⟨ih, hb⟩ | ⟨e, n, hb, hn, rfl⟩
      · exact Or.inl ⟨.child ih hc, hout hne hc (by intro m hm; cases hm; exact hb)⟩
      · exact Or.inr ⟨e + 1, n, .child hb hc, hn, by omega⟩

theorem level_move {x : Nat} {p : Option Nat} {s : Slot} {k d : Nat} (hl : F.Level k d) (hk : ∀ e, ¬ F.Below x k e) : (F.move x p s).Level k d := by
  induction hl with
  | root hr => exact .root (subset_move (fun e => hk 0 (e ▸ .self)) hr)
  | @child q y k _ hc ih =>
    exact .child (ih (fun e hb => hk (e + 1) (.child hb hc))) (subset_move (fun e => hk 0 (e ▸ .self)) hc)

/-- the branch of a moved node -/
theorem level_branch (hu : ∀ p q k, k ∈ F p → k ∈ F q → p = q) {x : Nat} {p : Option Nat} {s : Slot} (hp : ∀ q, p = some q → ∀ e, ¬ F.Below x q e)
    {dx : Nat} (hdx : F.Level x dx) (hx : x ∈ F.move x p s p) {n : Nat} (hn : F.LevelOf p n) {y e : Nat} (hb : F.Below x y e) :
    (F.move x p s).Level y (n + 1 + e) := by
  induction hb with
  | self =>
    cases p with
    | none => cases hn; exact .root hx
    | some q => exact .child (level_move hn (hp q rfl)) hx
  | @child m y e hb hy ih =>
    refine .child ih (subset_move ?_ hy)
    rintro rfl
    have := level_functional hu hdx ((Below.child hb hy).level hdx)
    omega

theorem heightLE_move (hu : ∀ p q k, k ∈ F p → k ∈ F q → p = q) {x : Nat} {p : Option Nat} {s : Slot} (hp : ∀ q, p = some q → ∀ e, ¬ F.Below x q e)
    {dx : Nat} (hdx : F.Level x dx) (hx : x ∈ F.move x p s p) {m : Nat} (hm : F.HeightLE m) :
    (F.move x p s).HeightLE m ↔ ∀ n, F.LevelOf p n → ∀ y e, F.Below x y e → n + 1 + e ≤ m := by
  constructor
  · intro h n hn y e hb
    exact h y _ (level_branch hu hp hdx hx hn hb)
  · intro h k d hl
    rcases move_level hu hp hl with ⟨h1, _⟩ | ⟨e, n, hb, hn, rfl⟩
    · exact hm k d h1
    · exact h n hn k e hb

theorem self_insertBefore {t x : Nat} {l : List Nat} (h : t ∈ l) : x ∈ insertBefore t x l := by
  induction l with
  | nil => simp at h
  | cons a l ih =>
    unfold insertBefore
    split
    · simp
    · next hne => exact List.mem_cons_of_mem _ (ih (List.mem_of_ne_of_mem (Ne.symm hne) h))

theorem self_insertAfter {t x : Nat} {l : List Nat} (h : t ∈ l) : x ∈ insertAfter t x l := by
  induction l with
  | nil => simp at h
  | cons a l ih =>
    unfold insertAfter
    split
    · simp
    · next hne => exact List.mem_cons_of_mem _ (ih (List.mem_of_ne_of_mem (Ne.symm hne) h))

/-- what is asked for is a move, or nothing -/
theorem asked_move {x t : Nat} {p : Option Nat} (ht : t ∈ F p) {pos : Pos} (hpos : IsPlainPos pos) :
    (F.moveAsked x p t pos = F ∧ x ∈ F (pos.dest p t)) ∨
    ∃ s, F.moveAsked x p t pos = F.move x (pos.dest p t) s ∧ x ∈ F.moveAsked x p t pos (pos.dest p t) := by
  rcases hpos with (rfl | rfl | rfl | rfl) | rfl | rfl <;> simp only [moveAsked, sibMove, Pos.dest, Pos.isChild, Bool.false_eq_true, if_true, if_false]
  · exact Or.inr ⟨.first, rfl, by simp [move, put, Slot.ins]⟩
  · split
    · next e => exact Or.inl ⟨rfl, e ▸ ht⟩
    · next hne =>
      refine Or.inr ⟨.before t, rfl, ?_⟩
      simp only [move, put, if_true, Slot.ins]
      exact self_insertBefore (by simp [remove, ht, hne])
  · split
    · next e => exact Or.inl ⟨rfl, e ▸ ht⟩
    · next hne =>
      refine Or.inr ⟨.after t, rfl, ?_⟩
      simp only [move, put, if_true, Slot.ins]
      exact self_insertAfter (by simp [remove, ht, hne])
  · exact Or.inr ⟨.last, rfl, by simp [move, put, Slot.ins]⟩
  · exact Or.inr ⟨.first, rfl, by simp [move, put, Slot.ins]⟩
  · exact Or.inr ⟨.last, rfl, by simp [move, put, Slot.ins]⟩

end Forest
end Verif
