/-
Lexicographic order on lists over a linear order: the facts used for paths.
-/
import Mathlib.Order.Defs.LinearOrder
import Mathlib.Data.List.Lex

namespace Verif

variable {κ : Type} [LinearOrder κ]

theorem plt_irrefl (a : List κ) : ¬ a < a := List.lt_irrefl a

theorem plt_trans {a b c : List κ} (h : a < b) (h' : b < c) : a < c := List.lt_trans h h'

theorem plt_asymm {a b : List κ} (h : a < b) : ¬ b < a := List.lt_asymm h

theorem plt_trichotomy : ∀ a b : List κ, a < b ∨ a = b ∨ b < a
  | [], [] => by simp
  | [], e :: E => by simp
  | d :: D, [] => by simp
  | d :: D, e :: E => by
    simp only [List.cons_lt_cons_iff, List.cons.injEq]
    rcases lt_trichotomy d e with h | h | h
    · simp [h]
    · subst h
      rcases plt_trichotomy D E with h | h | h <;> simp [h]
    · simp [h]

theorem plt_append_left (p a b : List κ) : p ++ a < p ++ b ↔ a < b := by
  induction p with
  | nil => simp
  | cons c p ih =>
    rw [List.cons_append, List.cons_append, List.cons_lt_cons_iff]
    simp [ih]

theorem plt_append_of_lt : ∀ {u v : List κ}, u.length = v.length → u < v → ∀ (x y : List κ), u ++ x < v ++ y
  | [], [], _, h, _, _ => absurd h (by simp)
  | c :: u, d :: v, hl, h, x, y => by
    rw [List.cons_lt_cons_iff] at h
    rw [List.cons_append, List.cons_append, List.cons_lt_cons_iff]
    rcases h with h | ⟨rfl, h⟩
    · exact Or.inl h
    · exact Or.inr ⟨rfl, plt_append_of_lt (by simpa using hl) h x y⟩

theorem plt_append_iff {u v : List κ} (hl : u.length = v.length) (hne : u ≠ v) (x y : List κ) :
    u ++ x < v ++ y ↔ u < v := by
  constructor
  · intro h
    rcases plt_trichotomy u v with h' | h' | h'
    · exact h'
    · exact absurd h' hne
    · exact absurd h (plt_asymm (plt_append_of_lt hl.symm h' y x))
  · intro h; exact plt_append_of_lt hl h x y

theorem plt_prefix {a b : List κ} (h : a <+: b) (hne : a ≠ b) : a < b := by
  obtain ⟨t, rfl⟩ := h
  cases t with
  | nil => simp at hne
  | cons c t =>
    have : a ++ [] < a ++ c :: t := (plt_append_left a [] (c :: t)).2 (by simp)
    simpa using this

theorem plt_le_trans {a b c : List κ} (h : a < b) (h' : ¬ c < b) : a < c := by
  rcases plt_trichotomy b c with h2 | h2 | h2
  · exact plt_trans h h2
  · exact h2 ▸ h
  · exact absurd h2 h'

theorem plt_of_le_of_lt {a b c : List κ} (h : ¬ b < a) (h' : b < c) : a < c := by
  rcases plt_trichotomy a b with h2 | h2 | h2
  · exact plt_trans h2 h'
  · exact h2 ▸ h'
  · exact absurd h2 h

theorem ple_trans {a b c : List κ} (h : ¬ b < a) (h' : ¬ c < b) : ¬ c < a := by
  intro h2
  exact h' (plt_le_trans h2 h)

theorem ple_total (a b : List κ) : ¬ b < a ∨ ¬ a < b := by
  rcases plt_trichotomy a b with h | h | h
  · exact Or.inl (plt_asymm h)
  · subst h; exact Or.inl (plt_irrefl a)
  · exact Or.inr (plt_asymm h)

theorem ple_antisymm {a b : List κ} (h : ¬ b < a) (h' : ¬ a < b) : a = b := by
  rcases plt_trichotomy a b with h2 | h2 | h2
  · exact absurd h2 h'
  · exact h2
  · exact absurd h2 h

end Verif
