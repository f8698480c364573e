/-
Specification of sorted trees, and how sorted insertions keep them sorted.
-/
import Verif.ForestLemmas
import Verif.Sorted

namespace Verif

/-- every group of siblings is in the order given by `ob`; `v` gives the values of the nodes -/
def Forest.SortedBy (F : Forest) (ob : List (Nat × Bool)) (v : Nat → Vals) : Prop :=
  ∀ p, (F p).Pairwise (fun a b => ¬ keyLt ob (v b) (v a))

/-- `x` stands below `p` after every sibling that is not greater (so also after the equal ones) and before
every greater one -/
def Forest.SortedAt (F : Forest) (ob : List (Nat × Bool)) (v : Nat → Vals) (p : Option Nat) (x : Nat) : Prop :=
  ∃ l₁ l₂, F p = l₁ ++ x :: l₂ ∧ (∀ a ∈ l₁, ¬ keyLt ob (v x) (v a)) ∧ ∀ b ∈ l₂, keyLt ob (v x) (v b)

/-- `l'` is `l` with `x`, whose values are `vx`, inserted at its sorted place -/
def SortedIns (ob : List (Nat × Bool)) (v : Nat → Vals) (x : Nat) (vx : Vals) (l l' : List Nat) : Prop :=
  ∃ l₁ l₂, l = l₁ ++ l₂ ∧ l' = l₁ ++ x :: l₂ ∧ (∀ a ∈ l₁, ¬ keyLt ob vx (v a)) ∧ ∀ b ∈ l₂, keyLt ob vx (v b)

theorem SortedIns.pairwise {ob : List (Nat × Bool)} {v v' : Nat → Vals} {x : Nat} {vx : Vals} {l l' : List Nat}
    (h : SortedIns ob v x vx l l') (hl : l.Pairwise (fun a b => ¬ keyLt ob (v b) (v a)))
    (hv : ∀ a ∈ l, v' a = v a) (hx : v' x = vx) : l'.Pairwise (fun a b => ¬ keyLt ob (v' b) (v' a)) := by
  obtain ⟨l₁, l₂, rfl, rfl, h1, h2⟩ := h
  rw [List.pairwise_append] at hl
  rw [List.pairwise_append, List.pairwise_cons]
  refine ⟨hl.1.imp_of_mem ?_, ⟨?_, hl.2.1.imp_of_mem ?_⟩, ?_⟩
  · intro a b ha hb h; rw [hv a (by simp [ha]), hv b (by simp [hb])]; exact h
  · intro b hb; rw [hx, hv b (by simp [hb])]; exact keyLt_asymm (h2 b hb)
  · intro a b ha hb h; rw [hv a (by simp [ha]), hv b (by simp [hb])]; exact h
  · intro a ha b hb
    rcases List.mem_cons.1 hb with rfl | hb
    · rw [hx, hv a (by simp [ha])]; exact h1 a ha
    · rw [hv a (by simp [ha]), hv b (by simp [hb])]; exact hl.2.2 a ha b hb

theorem SortedIns.at {ob : List (Nat × Bool)} {v v' : Nat → Vals} {x : Nat} {vx : Vals} {F : Forest} {p : Option Nat}
    {l : List Nat} (h : SortedIns ob v x vx l (F p)) (hv : ∀ a ∈ l, v' a = v a) (hx : v' x = vx) :
    F.SortedAt ob v' p x := by
  obtain ⟨l₁, l₂, rfl, e, h1, h2⟩ := h
  refine ⟨l₁, l₂, e, ?_, ?_⟩
  · intro a ha; rw [hx, hv a (by simp [ha])]; exact h1 a ha
  · intro b hb; rw [hx, hv b (by simp [hb])]; exact h2 b hb

/-- putting a new node at its sorted place keeps the forest sorted -/
theorem SortedBy.put {ob : List (Nat × Bool)} {v v' : Nat → Vals} {F : Forest} {p : Option Nat} {s : Slot} {x : Nat}
    {vx : Vals} (h : F.SortedBy ob v) (hi : SortedIns ob v x vx (F p) (s.ins x (F p)))
    (hv : ∀ q, ∀ a ∈ F q, v' a = v a) (hx : v' x = vx) :
    (F.put p s x).SortedBy ob v' ∧ (F.put p s x).SortedAt ob v' p x := by
  constructor
  · intro q
    unfold Forest.put
    split
    · rename_i e; subst e; exact hi.pairwise (h q) (hv q) hx
    · exact (h q).imp_of_mem (fun ha hb hab => by rw [hv q _ ha, hv q _ hb]; exact hab)
  · refine SortedIns.at (l := F p) (v := v) (vx := vx) ?_ (hv p) hx
    unfold Forest.put
    rw [if_pos rfl]
    exact hi

/-- moving a node to its sorted place keeps the forest sorted, even if it was itself out of order before -/
theorem SortedBy.move {ob : List (Nat × Bool)} {v : Nat → Vals} {F : Forest} {p : Option Nat} {s : Slot} {x : Nat}
    (h : (F.remove x).SortedBy ob v) (hi : SortedIns ob v x (v x) (F.remove x p) (s.ins x (F.remove x p))) :
    (F.move x p s).SortedBy ob v ∧ (F.move x p s).SortedAt ob v p x :=
  SortedBy.put h hi (fun _ _ _ => rfl) rfl

theorem SortedBy.remove {ob : List (Nat × Bool)} {v : Nat → Vals} {F : Forest} (h : F.SortedBy ob v) (x : Nat) :
    (F.remove x).SortedBy ob v := fun p => (h p).sublist List.filter_sublist

theorem SortedBy.prune {ob : List (Nat × Bool)} {v : Nat → Vals} {F : Forest} (h : F.SortedBy ob v) (D : Nat → Bool) :
    (F.prune D).SortedBy ob v := by
  intro p
  unfold Forest.prune
  cases p with
  | none => exact (h none).sublist List.filter_sublist
  | some q =>
    simp only
    split
    · exact List.Pairwise.nil
    · exact (h _).sublist List.filter_sublist

theorem SortedIns.last {ob : List (Nat × Bool)} {v : Nat → Vals} {x : Nat} {vx : Vals} {l : List Nat}
    (h : ∀ a ∈ l, ¬ keyLt ob vx (v a)) : SortedIns ob v x vx l (Slot.last.ins x l) :=
  ⟨l, [], by simp, rfl, h, by simp⟩

/-- two different elements of a sorted list are in order, one way or the other -/
theorem pairwise_or {ρ : Type} {R : ρ → ρ → Prop} {l : List ρ} (h : l.Pairwise R) {a b : ρ} (ha : a ∈ l) (hb : b ∈ l)
    (hne : a ≠ b) : R a b ∨ R b a := by
  induction l with
  | nil => simp at ha
  | cons c l ih =>
    rw [List.pairwise_cons] at h
    rcases List.mem_cons.1 ha with e1 | h1 <;> rcases List.mem_cons.1 hb with e2 | h2
    · exact absurd (e1.trans e2.symm) hne
    · exact Or.inl (e1 ▸ h.1 b h2)
    · exact Or.inr (e2 ▸ h.1 a h1)
    · exact ih h.2 h1 h2

theorem SortedIns.before {ρ : Type} {ob : List (Nat × Bool)} {v : Nat → Vals} {x : Nat} {vx : Vals} {pk : ρ → Nat}
    {lt : ρ → ρ → Prop} {l : List ρ} (hs : l.Pairwise lt) (hpk : ∀ a ∈ l, ∀ b ∈ l, pk a = pk b → a = b)
    (hirr : ∀ a ∈ l, ¬ lt a a) (hasym : ∀ a ∈ l, ∀ b ∈ l, lt a b → ¬ lt b a) {t : ρ} (ht : t ∈ l)
    (h : ∀ r ∈ l, (keyLt ob vx (v (pk r)) ↔ ¬ lt r t)) :
    SortedIns ob v x vx (l.map pk) ((Slot.before (pk t)).ins x (l.map pk)) := by
  obtain ⟨l₁, l₂, rfl⟩ := List.append_of_mem ht
  rw [List.pairwise_append, List.pairwise_cons] at hs
  refine ⟨l₁.map pk, (t :: l₂).map pk, by simp, ?_, ?_, ?_⟩
  · have hne : pk t ∉ l₁.map pk := by
      intro hm
      obtain ⟨a, ha, e⟩ := List.mem_map.1 hm
      have : a = t := hpk a (by simp [ha]) t (by simp) e
      subst this
      exact hirr a (by simp) (hs.2.2 a ha a (by simp))
    simp only [Slot.ins, List.map_append, List.map_cons]
    exact insertBefore_append hne
  · intro k hk
    obtain ⟨a, ha, rfl⟩ := List.mem_map.1 hk
    rw [h a (by simp [ha]), not_not]
    exact hs.2.2 a ha t (by simp)
  · intro k hk
    obtain ⟨a, ha, rfl⟩ := List.mem_map.1 hk
    have hal : a ∈ l₁ ++ t :: l₂ := by simp at ha ⊢; tauto
    rw [h a hal]
    rcases List.mem_cons.1 ha with rfl | ha
    · exact hirr _ (by simp)
    · exact hasym _ (by simp) _ hal (hs.2.1.1 a ha)

end Verif
