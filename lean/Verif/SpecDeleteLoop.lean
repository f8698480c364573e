/-
Deletions one after the other: what any sequence of them leaves, from what a single one leaves.
-/
import Verif.ForestLemmas
import Verif.SpecHistory

namespace Verif

/-- the nodes that belong to one of the sets -/
def AnyOf (Ss : List (Nat → Bool)) (k : Nat) : Bool := Ss.any (fun S => S k)

/-- `D` are the nodes, out of `ids`, that go when those of `S` are deleted: these nodes and everything below them -/
def Forest.Goes (F : Forest) (ids : List Nat) (S D : Nat → Bool) : Prop := ∀ k, D k = true ↔ k ∈ ids ∧ Tree.Doomed F S k

namespace Forest

variable {F : Forest} {ids : List Nat} {S S' D D' : Nat → Bool}

theorem Goes.unique (h : F.Goes ids S D) (h' : F.Goes ids S D') : D = D' := by
  funext k
  rw [Bool.eq_iff_iff, h k, h' k]

theorem Goes.down (h : F.Goes ids S D) (hs : ∀ p, ∀ k ∈ F p, k ∈ ids) {q k : Nat} (hq : D q = true) (hk : k ∈ F (some q)) : D k = true := by
  refine (h k).2 ⟨hs _ k hk, ?_⟩
  rcases ((h q).1 hq).2 with h1 | ⟨a, h1, h2⟩
  · exact Or.inr ⟨q, h1, .child hk⟩
  · exact Or.inr ⟨a, h1, .step h2 hk⟩

theorem mem_prune {p : Option Nat} {k : Nat} (h : k ∈ F.prune D p) : k ∈ F p ∧ D k = false := by
  unfold prune at h
  cases p with
  | none => simpa using h
  | some q =>
    dsimp only at h
    split at h
    · cases h
    · simpa using h

theorem desc_of_prune {a k : Nat} (h : (F.prune D).Desc a k) : F.Desc a k := by
  induction h with
  | child h => exact .child (mem_prune h).1
  | step _ h ih => exact .step ih (mem_prune h).1

theorem Goes.desc_prune (h : F.Goes ids S D) (hs : ∀ p, ∀ k ∈ F p, k ∈ ids) {a k : Nat} (hd : F.Desc a k) (hk : D k = false) : (F.prune D).Desc a k := by
  have up : ∀ {q k : Nat}, k ∈ F (some q) → D k = false → D q = false ∧ k ∈ F.prune D (some q) := by
    intro q k hm hk
    have hq : D q = false := by
      cases e : D q with
      | false => rfl
      | true => rw [h.down hs e hm] at hk; cases hk
    refine ⟨hq, ?_⟩
    unfold prune
    simp [hq, hm, hk]
  induction hd with
  | child hm => exact .child (up hm hk).2
  | step _ hm ih => exact .step (ih (up hm hk).1) (up hm hk).2

theorem prune_prune : (F.prune D).prune D' = F.prune (fun k => D k || D' k) := by
  funext p
  unfold prune
  cases p with
  | none =>
    simp only [List.filter_filter]
    refine List.filter_congr (fun k _ => ?_)
    cases D k <;> cases D' k <;> rfl
  | some q =>
    dsimp only
    by_cases e : D q = true
    · simp [e]
    · by_cases e' : D' q = true
      · simp [e']
      · rw [if_neg e, if_neg e', if_neg (by simp [e, e']), List.filter_filter]
        refine List.filter_congr (fun k _ => ?_)
        cases D k <;> cases D' k <;> rfl

/-- two deletions in sequence are one -/
theorem Goes.comp (h : F.Goes ids S D) (hs : ∀ p, ∀ k ∈ F p, k ∈ ids) (h' : (F.prune D).Goes (ids.filter (fun k => !D k)) S' D') :
    F.Goes ids (fun k => S k || S' k) (fun k => D k || D' k) := by
  intro k
  rw [Bool.or_eq_true]
  unfold Tree.Doomed
  constructor
  · rintro (hd | hd)
    · obtain ⟨h1, h2⟩ := (h k).1 hd
      refine ⟨h1, h2.imp (fun e => Bool.or_eq_true_iff.2 (Or.inl e)) ?_⟩
      rintro ⟨q, e, hq⟩
      exact ⟨q, Bool.or_eq_true_iff.2 (Or.inl e), hq⟩
    · obtain ⟨h1, h2⟩ := (h' k).1 hd
      refine ⟨(List.mem_filter.1 h1).1, h2.imp (fun e => Bool.or_eq_true_iff.2 (Or.inr e)) ?_⟩
      rintro ⟨q, e, hq⟩
      exact ⟨q, Bool.or_eq_true_iff.2 (Or.inr e), desc_of_prune hq⟩
  · rintro ⟨hk, hd⟩
    cases e : D k with
    | true => exact Or.inl rfl
    | false =>
      refine Or.inr ((h' k).2 ⟨List.mem_filter.2 ⟨hk, by rw [e]; rfl⟩, ?_⟩)
      have no : ¬ Tree.Doomed F S k := fun hc => by rw [(h k).2 ⟨hk, hc⟩] at e; cases e
      rcases hd with hd | ⟨q, hq, hd⟩
      · rcases Bool.or_eq_true_iff.1 hd with hd | hd
        · exact (no (Or.inl hd)).elim
        · exact Or.inl hd
      · rcases Bool.or_eq_true_iff.1 hq with hq | hq
        · exact (no (Or.inr ⟨q, hq, hd⟩)).elim
        · exact Or.inr ⟨q, hq, h.desc_prune hs hd e⟩

end Forest

/-- What a single deletion does to the tree `forest` and to the stored `data`. -/
structure Deletes {σ δ : Type} (del : σ → (Nat → Bool) → σ) (Ok : σ → Prop) (forest : σ → Forest) (data : σ → List δ) (key : δ → Nat) : Prop where
  sub : ∀ {s}, Ok s → ∀ p, ∀ k ∈ forest s p, k ∈ (data s).map key
  step : ∀ {s}, Ok s → ∀ S, ∃ D, (forest s).Goes ((data s).map key) S D ∧ Ok (del s S) ∧ forest (del s S) = (forest s).prune D ∧
    data (del s S) = (data s).filter (fun e => !D (key e))

section
variable {σ δ : Type} {del : σ → (Nat → Bool) → σ} {Ok : σ → Prop} {forest : σ → Forest} {data : σ → List δ} {key : δ → Nat}

/-- any sequence of deletions removes what was chosen by one of them, and everything below it -/
theorem Deletes.loop (H : Deletes del Ok forest data key) : ∀ (Ss : List (Nat → Bool)) {s : σ}, Ok s →
    ∃ D, (forest s).Goes ((data s).map key) (AnyOf Ss) D ∧ Ok (Ss.foldl del s) ∧ forest (Ss.foldl del s) = (forest s).prune D ∧
      data (Ss.foldl del s) = (data s).filter (fun e => !D (key e)) := by
  intro Ss
  induction Ss with
  | nil =>
    intro s hs
    refine ⟨fun _ => false, ?_, hs, ?_, ?_⟩
    · intro k
      unfold Tree.Doomed AnyOf
      simp
    · funext p
      unfold Forest.prune
      cases p <;> simp
    · simp
  | cons S Ss ih =>
    intro s hs
    obtain ⟨D, h1, h2, h3, h4⟩ := H.step hs S
    obtain ⟨D', i1, i2, i3, i4⟩ := ih h2
    have hids : (data (del s S)).map key = ((data s).map key).filter (fun k => !D k) := by
      rw [h4, List.filter_map]
      rfl
    rw [h3, hids] at i1
    refine ⟨fun k => D k || D' k, ?_, i2, ?_, ?_⟩
    · have := h1.comp (H.sub hs) i1
      have e : AnyOf (S :: Ss) = fun k => S k || AnyOf Ss k := by funext k; rfl
      rw [e]; exact this
    · rw [List.foldl_cons, i3, h3, Forest.prune_prune]
    · rw [List.foldl_cons, i4, h4, List.filter_filter]
      refine List.filter_congr (fun e _ => ?_)
      dsimp only
      cases D (key e) <;> cases D' (key e) <;> rfl

/-- and leaves what a single deletion of all that was chosen leaves -/
theorem Deletes.one (H : Deletes del Ok forest data key) (Ss : List (Nat → Bool)) {s : σ} (hs : Ok s) :
    forest (Ss.foldl del s) = forest (del s (AnyOf Ss)) ∧ data (Ss.foldl del s) = data (del s (AnyOf Ss)) := by
  obtain ⟨D, h1, _, h3, h4⟩ := H.loop Ss hs
  obtain ⟨D', i1, _, i3, i4⟩ := H.step hs (AnyOf Ss)
  rw [h3, h4, i3, i4, h1.unique i1]
  exact ⟨rfl, rfl⟩

end

end Verif
