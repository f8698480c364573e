/-
C33 and C34: the labels of the LT backend.
-/
import Verif.LT.Labels

namespace Verif.LT

/-- a label: one or more of the characters 0-9 and A-Z -/
def IsLabel (l : Label) : Prop := l ≠ [] ∧ ∀ c ∈ l, (48 ≤ c ∧ c ≤ 57) ∨ (65 ≤ c ∧ c ≤ 90)

theorem mem_allChars (c : Nat) : c ∈ allChars ↔ (48 ≤ c ∧ c ≤ 57) ∨ (65 ≤ c ∧ c ≤ 90) := by
  constructor
  · have : ∀ c ∈ allChars, (48 ≤ c ∧ c ≤ 57) ∨ (65 ≤ c ∧ c ≤ 90) := by decide
    exact this c
  · intro h
    have : ∀ d < 91, ((48 ≤ d ∧ d ≤ 57) ∨ (65 ≤ d ∧ d ≤ 90)) → d ∈ allChars := by decide
    exact this c (by omega) h

theorem isLabel_iff {l : Label} : IsLabel l ↔ LabelOk l := by
  unfold IsLabel LabelOk
  simp only [mem_allChars]

/-- `l` lies strictly between the bounds -/
def Between (before after : Option Label) (l : Label) : Prop :=
  (∀ a, after = some a → a < l) ∧ ∀ b, before = some b → l < b

/-- **C33.** Every label that `generate_label` returns is a label, is not one of those to skip, and lies strictly between the bounds
(an upper bound is a label, so it is not the empty string, which Python takes for no bound). -/
theorem C33_label {skip : List Label} {before after : Option Label} (hb : before ≠ some []) {l : Label}
    (h : generateLabel skip before after = .ok l) : IsLabel l ∧ l ∉ skip ∧ Between before after l := by
  obtain ⟨h1, h2, h3, h4⟩ := generateLabel_ok h
  refine ⟨isLabel_iff.2 h1, h2, ?_, ?_⟩
  · rintro a rfl
    by_cases ha : a = []
    · subst ha
      exact List.lt_iff_exists.2 (Or.inl ⟨by simp, by simpa using List.length_pos_iff.2 h1.1⟩)
    · exact h3 (truthy_some.2 ha)
  · rintro b rfl
    exact h4 (truthy_some.2 (fun e => hb (by rw [e])))

/-- "A" and "AA" are siblings, "A0" is taken: the label found is "A1"; between "A" and "B" it is "A0" -/
example : generateLabel [[65], [65, 48], [65, 65]] (some [65, 65]) (some [65, 48]) = .ok [65, 49] ∧
    generateLabel [[65], [66]] (some [66]) (some [65]) = .ok [65, 48] := ⟨rfl, rfl⟩

/-- nothing to skip lies strictly between the bounds: they are neighbours -/
def Adjacent (skip : List Label) (before after : Option Label) : Prop := ∀ s ∈ skip, ¬ Between before after s

/-- what C34 asks for: a label is returned, or InvalidLabelConstraints is raised and then no label fits -/
def FoundOrImpossible (before after : Option Label) (out : Except Err Label) : Prop :=
  (∃ l, out = .ok l) ∨ (out = .error .invalidLabelConstraints ∧ ∀ l, IsLabel l → ¬ Between before after l)

/-- **C34 with a lower bound**, and an upper bound or none. -/
theorem C34_after {skip : List Label} {before : Option Label} {a : Label} (ha : IsLabel a) (hb : ∀ b, before = some b → IsLabel b)
    (hadj : Adjacent skip before (some a)) : FoundOrImpossible before (some a) (generateLabel skip before (some a)) := by
  rcases generateLabel_after (isLabel_iff.1 ha) (fun b e => isLabel_iff.1 (hb b e)) (skip := skip) (by
    intro s hs hlt
    by_contra hc
    push Not at hc
    exact hadj s hs ⟨fun a' e => by cases e; exact hlt, fun b e => hc b e⟩) with ⟨b, rfl, hgap, he⟩ | ⟨_, hl⟩
  · right
    refine ⟨he, ?_⟩
    intro l hl hlb
    have h1 := hlb.1 a rfl
    have h2 := hlb.2 b rfl
    rcases hgap with hgap | hgap
    · exact hgap (plt_trans h1 h2)
    · subst hgap
      by_cases hc : l = a ++ [48]
      · rw [hc] at h2; exact plt_irrefl _ h2
      · exact plt_asymm h2 (lt_succ_label (isLabel_iff.1 hl).2 h1 hc)
  · exact Or.inl hl

example : IsLabel [65] ∧ Adjacent [[65], [66]] (some [66]) (some [65]) ∧ generateLabel [[65], [65, 48]] (some [65, 48]) (some [65]) =
    .error .invalidLabelConstraints ∧ generateLabel [[90]] none (some [90]) = .ok [90, 48] := by
  refine ⟨by unfold IsLabel; decide, ?_, rfl, rfl⟩
  intro s hs hb
  have h1 := hb.1 _ rfl
  have h2 := hb.2 _ rfl
  simp only [List.mem_cons, List.not_mem_nil, or_false] at hs
  rcases hs with rfl | rfl
  · exact plt_irrefl _ h1
  · exact plt_irrefl _ h2

/-- **C34 with an upper bound only**: it holds unless the upper bound is "00".  The label found is always "0". -/
theorem C34_before_partial {skip : List Label} {b : Label} (hb : IsLabel b) (hne : b ≠ [48, 48])
    (hadj : Adjacent skip (some b) none) : FoundOrImpossible (some b) none (generateLabel skip (some b) none) := by
  rcases generateLabel_before (skip := skip) (isLabel_iff.1 hb) with ⟨h1, he⟩ | ⟨h1, _, h2⟩
  · right
    refine ⟨he, ?_⟩
    rcases h1 with rfl | h1
    · intro l hl hlb
      exact zero_le (isLabel_iff.1 hl) (hlb.2 _ rfl)
    · exact absurd h1 hne
  · left
    refine ⟨_, h2 ?_⟩
    intro hm
    exact hadj _ hm ⟨fun a e => (by cases e), fun b' e => by cases e; exact h1⟩

example : IsLabel [65] ∧ generateLabel [[65]] (some [65]) none = .ok [48] ∧ generateLabel [[48]] (some [48]) none =
    .error .invalidLabelConstraints := ⟨by unfold IsLabel; decide, rfl, rfl⟩

/-- **C34 fails for the upper bound "00"**: the label "0" fits, but InvalidLabelConstraints is raised.  (`_get_new_path` then shifts the
siblings, so the caller does not see it.) -/
theorem C34_before_fails : ∃ (skip : List Label) (b : Label), IsLabel b ∧ Adjacent skip (some b) none ∧
    ¬ FoundOrImpossible (some b) none (generateLabel skip (some b) none) := by
  refine ⟨[[48, 48]], [48, 48], by unfold IsLabel; decide, ?_, ?_⟩
  · intro s hs hb
    rw [List.mem_singleton] at hs
    subst hs
    exact plt_irrefl _ (hb.2 _ rfl)
  · rintro (⟨l, hl⟩ | ⟨_, h⟩)
    · rw [show generateLabel [[48, 48]] (some [48, 48]) none = .error .invalidLabelConstraints from rfl] at hl
      cases hl
    · refine h [48] (by unfold IsLabel; decide) ⟨fun a e => (by cases e), ?_⟩
      intro b e
      cases e
      exact lt_snoc [48] 48

/-- **C34 without bounds**: neighbours without bounds means an only child, and a label is found. -/
theorem C34_empty {skip : List Label} (hadj : Adjacent skip none none) : FoundOrImpossible none none (generateLabel skip none none) := by
  have : skip = [] := by
    rw [List.eq_nil_iff_forall_not_mem]
    intro s hs
    exact hadj s hs ⟨fun a e => (by cases e), fun b e => by cases e⟩
  subst this
  exact Or.inl ⟨_, generateLabel_free⟩

/-- Without bounds but with labels to skip (as `add_root` calls it) a label is found unless all labels of one or two letters are
taken: then the "should never happen" ValueError is raised. -/
theorem C34_unbounded {skip : List Label} :
    (∃ l, generateLabel skip none none = .ok l) ∨
    (generateLabel skip none none = .error .valueError ∧
      (∀ c, 65 ≤ c → c ≤ 90 → [c] ∈ skip) ∧ ∀ c d, 65 ≤ c → c ≤ 90 → 65 ≤ d → d ≤ 90 → [c, d] ∈ skip) := by
  have hu : ∀ c, 65 ≤ c → c ≤ 90 → c ∈ upper := by
    have : ∀ d < 91, 65 ≤ d → d ∈ upper := by decide
    intro c h1 h2
    exact this c (by omega) h1
  rcases generateLabel_none (skip := skip) with h | ⟨h, h1, h2⟩
  · exact Or.inl h
  · exact Or.inr ⟨h, fun c a b => h1 c (hu c a b), fun c d a b a' b' => h2 c (hu c a b) d (hu d a' b')⟩

end Verif.LT
