/-
Lemmas for C97.
-/
import Verif.SpecLoadRoom
import Verif.LoadSortedLemmas
import Verif.Height

namespace Verif

/-- A load of a structure that keeps within the bounds `B` (for the rows) and `H` (for the levels) succeeds if every single addition within them does. -/
theorem LoadsTo.room {σ ρ : Type} {add : σ → Option ρ → Nat × Vals → Except Err (σ × ρ)} {pk : ρ → Nat} {R : σ → Forest → Prop}
    {data : σ → List (Nat × Vals)} {Handle : σ → Option ρ → Option Nat → Prop} {Keep : Option ρ → Option ρ → Prop} {ok : Vals → Prop} {Fails : Err → Prop}
    (L : LoadsTo add pk R data Handle Keep ok Fails) {dep : Option ρ → Nat} {H B : Nat}
    (hs : ∀ {s G h p k v}, R s G → Handle s h p → k ∉ (data s).map Prod.fst → ok v → (data s).length < B → dep h < H →
      ∀ r, add s h (k, v) = r → ∃ s' obj, r = .ok (s', obj) ∧ dep (some obj) = dep h + 1)
    {V : Nat → Vals} : ∀ (n : Nest Nat) {s G h p}, R s G → Handle s h p → n.labels.Nodup →
    (∀ k ∈ n.labels, k ∉ (data s).map Prod.fst) → (∀ k ∈ n.labels, ok (V k)) → (data s).length + n.labels.length ≤ B → dep h + n.height ≤ H →
    ∀ e, loadNest add pk s h (n.map (fun k => (k, V k))) ≠ .error e := by
  intro n
  induction n with
  | nil => intro s G h p _ _ _ _ _ _ _ e he; cases he
  | cons k c r ih1 ih2 =>
    intro s G h p hr hh hnd hfresh hok hB hH e
    simp only [Nest.labels, List.nodup_cons, List.mem_append, not_or, List.nodup_append] at hnd
    obtain ⟨⟨hkc, hkr⟩, hc, hrr, hd⟩ := hnd
    simp only [Nest.labels, List.mem_cons, List.mem_append] at hfresh hok
    simp only [Nest.labels, List.length_cons, List.length_append] at hB
    simp only [Nest.height] at hH
    simp only [Nest.map, loadNest]
    obtain ⟨s1', obj', e1', hdep⟩ := hs (v := V k) hr hh (hfresh k (Or.inl rfl)) (hok k (Or.inl rfl)) (by omega) (by omega) _ rfl
    rcases L.step (v := V k) hr hh (hfresh k (Or.inl rfl)) (hok k (Or.inl rfl)) with ⟨s1, obj, e1, r1, d1, k1, h1, hk1, m1⟩ | ⟨e, e1, f⟩
    · have hdep : dep (some obj) = dep h + 1 := by
        rw [e1] at e1'
        cases e1'
        exact hdep
      simp only [e1]
      have hf1 : ∀ x ∈ c.labels, x ∉ (data s1).map Prod.fst := by
        intro x hx hm
        rw [d1, List.map_append, List.mem_append] at hm
        rcases hm with hm | hm
        · exact hfresh x (Or.inr (Or.inl hx)) hm
        · simp only [List.map_cons, List.map_nil, List.mem_singleton] at hm
          subst hm; exact hkc hx
      have hl1 : (data s1).length = (data s).length + 1 := by rw [d1]; simp
      have n1 := ih1 r1 h1 hc hf1 (fun x hx => hok x (Or.inr (Or.inl hx))) (by omega) (by omega)
      rcases L.load (V := V) c r1 h1 hc hf1 (fun x hx => hok x (Or.inr (Or.inl hx))) with ⟨s2, e2, r2, d2, m2⟩ | ⟨e, e2, f⟩
      · simp only [e2]
        have hl2 : (data s2).length = (data s1).length + c.labels.length := by rw [d2]; simp
        have n2 := ih2 r2 (m2 _ _ (m1 _ _ hh (L.refl h)) hk1) hrr (by
          intro x hx hm
          rw [d2, d1, List.map_append, List.map_append, List.mem_append, List.mem_append] at hm
          rcases hm with (hm | hm) | hm
          · exact hfresh x (Or.inr (Or.inr hx)) hm
          · simp only [List.map_cons, List.map_nil, List.mem_singleton] at hm
            subst hm; exact hkr hx
          · simp only [List.map_map, Function.comp_def, List.map_id'] at hm
            exact hd _ hm _ hx rfl) (fun x hx => hok x (Or.inr (Or.inr hx))) (by omega) (by omega)
        cases e3 : loadNest add pk s2 h (r.map (fun k => (k, V k))) with
        | ok _ => nofun
        | error e => exact absurd e3 (n2 e)
      · exact absurd e2 (n1 e)
    · rw [e1] at e1'; cases e1'

theorem Forest.Below.below_child {F : Forest} {a b k e : Nat} (hb : b ∈ F (some a)) (h : F.Below b k e) : F.Below a k (e + 1) := by
  induction h with
  | self => exact .child .self hb
  | child _ hy ih => exact .child ih hy

/-- the nodes `e` levels below the top -/
theorem Nest.Shown.height_le {F : Forest} {n : Nest Nat} {cs : List Nat} (h : Nest.Shown (fun k => F (some k)) cs n) {m : Nat}
    (hm : ∀ c ∈ cs, ∀ k e, F.Below c k e → e < m) : n.height ≤ m := by
  induction h generalizing m with
  | nil => exact Nat.zero_le _
  | @cons a cs c r _ _ ih1 ih2 =>
    have h0 := hm a (by simp) a 0 .self
    have h1 : c.height ≤ m - 1 := ih1 (fun b hb k e hbe => by
      have : e + 1 < m := hm a (by simp) k (e + 1) (Forest.Below.below_child hb hbe)
      omega)
    have h2 : r.height ≤ m := ih2 (fun b hb => hm b (by simp [hb]))
    simp only [Nest.height]
    omega

theorem Nest.height_map {α β : Type} (f : α → β) : ∀ n : Nest α, (n.map f).height = n.height
  | .nil => rfl
  | .cons a c r => by simp only [Nest.map, Nest.height, Nest.height_map f c, Nest.height_map f r]

/-- the preparation keeps the shape -/
theorem prepare_shape {keep : Bool} {keys : Nat → Nat} : ∀ {d : Nest Item} {i j : Nat} {m : Nest (Nat × Vals)}, prepare keep keys i d = .ok (m, j) →
    m.height = d.height ∧ m.labels.length = d.labels.length := by
  intro d
  induction d with
  | nil => intro i j m e; cases e; exact ⟨rfl, rfl⟩
  | cons a c r ih1 ih2 =>
    intro i j m e
    simp only [prepare] at e
    split at e
    · cases e
    · split at e
      · cases e
      · rename_i e1
        split at e
        · cases e
        · rename_i e2
          cases e
          obtain ⟨a1, b1⟩ := ih1 e1
          obtain ⟨a2, b2⟩ := ih2 e2
          simp only [Nest.height, Nest.labels, List.length_cons, List.length_append, a1, a2, b1, b2, and_self]

end Verif
