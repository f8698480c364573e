/-
Depth-first listings: members, no repetitions, composition.
-/
import Verif.Nav

namespace Verif.Forest

variable {F : Forest}

theorem DFS.mem {cs l : List Nat} (h : F.DFS cs l) (y : Nat) : y ∈ l ↔ ∃ c ∈ cs, y = c ∨ F.Desc c y := by
  induction h with
  | nil => simp
  | @cons c cs l₁ l₂ h1 h2 ih1 ih2 =>
    rw [List.mem_cons, List.mem_append, ih1, ih2]
    constructor
    · rintro (rfl | ⟨d, hd, e⟩ | ⟨d, hd, e⟩)
      · exact ⟨y, by simp, Or.inl rfl⟩
      · refine ⟨c, by simp, Or.inr ?_⟩
        rcases e with rfl | e
        · exact .child hd
        · exact Desc.trans (.child hd) e
      · exact ⟨d, by simp [hd], e⟩
    · rintro ⟨d, hd, e⟩
      rcases List.mem_cons.1 hd with rfl | hd
      · rcases e with rfl | e
        · exact Or.inl rfl
        · obtain ⟨m, hm, e⟩ := e.cases_head
          exact Or.inr (Or.inl ⟨m, hm, e⟩)
      · exact Or.inr (Or.inr ⟨d, hd, e⟩)

theorem DFS.append {c : Nat} {cs l₁ l₂ : List Nat} (h1 : F.DFS [c] l₁) (h2 : F.DFS cs l₂) : F.DFS (c :: cs) (l₁ ++ l₂) := by
  obtain ⟨l, rfl, h⟩ := dfs_branch_cons h1
  exact .cons h h2

/-- two ancestors of a node are in line -/
theorem Desc.line (hu : ∀ p q k, k ∈ F p → k ∈ F q → p = q) {a b y : Nat} (ha : F.Desc a y) (hb : F.Desc b y) :
    a = b ∨ F.Desc a b ∨ F.Desc b a := by
  induction ha with
  | child h1 =>
    cases hb with
    | child h2 => exact Or.inl (Option.some.inj (hu _ _ _ h1 h2))
    | step h2 h3 =>
      have := Option.some.inj (hu _ _ _ h1 h3)
      subst this
      exact Or.inr (Or.inr h2)
  | @step m y h0 h1 ih =>
    cases hb with
    | child h2 =>
      have := Option.some.inj (hu _ _ _ h1 h2)
      subst this
      exact Or.inr (Or.inl h0)
    | step h2 h3 =>
      have := Option.some.inj (hu _ _ _ h1 h3)
      subst this
      exact ih h2

/-- siblings are not below each other -/
theorem sib_not_desc (hu : ∀ p q k, k ∈ F p → k ∈ F q → p = q) (hirr : ∀ a, ¬ F.Desc a a) {p : Option Nat} {a b : Nat} (ha : a ∈ F p)
    (hb : b ∈ F p) : ¬ F.Desc a b := by
  intro hd
  cases hd with
  | child h =>
    have := hu _ _ _ hb h
    subst this
    exact hirr a (.child ha)
  | @step m _ h1 h2 =>
    have := hu _ _ _ hb h2
    subst this
    exact hirr a (.step h1 ha)

theorem DFS.nodup (hu : ∀ p q k, k ∈ F p → k ∈ F q → p = q) (hirr : ∀ a, ¬ F.Desc a a) (hnd : ∀ p, (F p).Nodup) {cs l : List Nat}
    (h : F.DFS cs l) (hcs : cs.Nodup) (hun : ∀ a ∈ cs, ∀ b ∈ cs, ¬ F.Desc a b) : l.Nodup := by
  induction h with
  | nil => exact hcs
  | @cons c cs l₁ l₂ h1 h2 ih1 ih2 =>
    rw [List.nodup_cons] at hcs
    have hn1 := ih1 (hnd _) (fun a ha b hb => sib_not_desc hu hirr ha hb)
    have hn2 := ih2 hcs.2 (fun a ha b hb => hun a (by simp [ha]) b (by simp [hb]))
    have hm1 : ∀ y ∈ l₁, F.Desc c y := by
      intro y hy
      obtain ⟨d, hd, e⟩ := (h1.mem y).1 hy
      rcases e with rfl | e
      · exact .child hd
      · exact Desc.trans (.child hd) e
    rw [List.nodup_cons, List.mem_append, List.nodup_append]
    refine ⟨?_, hn1, hn2, ?_⟩
    · rintro (hc | hc)
      · exact hirr c (hm1 c hc)
      · obtain ⟨d, hd, e⟩ := (h2.mem c).1 hc
        rcases e with rfl | e
        · exact hcs.1 hd
        · exact hun d (by simp [hd]) c (by simp) e
    · rintro y hy z hz rfl
      have h3 := hm1 y hy
      obtain ⟨d, hd, e⟩ := (h2.mem y).1 hz
      rcases e with rfl | e
      · exact hun c (by simp) _ (by simp [hd]) h3
      · rcases h3.line hu e with rfl | h4 | h4
        · exact hcs.1 hd
        · exact hun c (by simp) d (by simp [hd]) h4
        · exact hun d (by simp [hd]) c (by simp) h4

end Verif.Forest
