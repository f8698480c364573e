/-
Loading a dump into an empty table, for any backend.
-/
import Verif.RoundTrip
import Verif.SortedHead

namespace Verif

theorem Forest.Renamed.pairwise {F F' : Forest} {ks : List Nat} {f : Nat → Nat} (h : F.Renamed F' ks f) (hF : ∀ p, ∀ k ∈ F p, k ∈ ks)
    {v V : Nat → Vals} (hv : ∀ a ∈ ks, V (f a) = v a) {R : Vals → Vals → Prop} (hs : ∀ p, (F p).Pairwise (fun a b => R (v a) (v b))) (q : Option Nat) :
    (F' q).Pairwise (fun a b => R (V a) (V b)) := by
  have hlist : ∀ p, ((F p).map f).Pairwise (fun a b => R (V a) (V b)) := by
    intro p
    rw [List.pairwise_map]
    refine List.Pairwise.imp_of_mem ?_ (hs p)
    intro a b ha hb hab
    rw [hv a (hF p a ha), hv b (hF p b hb)]
    exact hab
  cases q with
  | none => rw [h.roots]; exact hlist none
  | some k =>
    by_cases hk : k ∈ ks.map f
    · obtain ⟨a, ha, rfl⟩ := List.mem_map.1 hk
      rw [h.kids a ha]; exact hlist _
    · rw [h.outside k hk]; exact List.Pairwise.nil

theorem Forest.Renamed.sorted {F F' : Forest} {ks : List Nat} {f : Nat → Nat} (h : F.Renamed F' ks f) (hF : ∀ p, ∀ k ∈ F p, k ∈ ks)
    {ob : List (Nat × Bool)} {v V : Nat → Vals} (hv : ∀ a ∈ ks, V (f a) = v a) (hs : F.SortedBy ob v) : F'.SortedBy ob V :=
  h.pairwise hF hv (R := fun a b => ¬ keyLt ob b a) hs

theorem Forest.Renamed.mem {F F' : Forest} {ks : List Nat} {f : Nat → Nat} (h : F.Renamed F' ks f) (hF : ∀ p, ∀ k ∈ F p, k ∈ ks) {q : Option Nat} {k : Nat}
    (hk : k ∈ F' q) : ∃ a ∈ ks, f a = k := by
  cases q with
  | none =>
    rw [h.roots] at hk
    obtain ⟨a, ha, e⟩ := List.mem_map.1 hk
    exact ⟨a, hF _ a ha, e⟩
  | some j =>
    by_cases hj : j ∈ ks.map f
    · obtain ⟨b, hb, rfl⟩ := List.mem_map.1 hj
      rw [h.kids b hb] at hk
      obtain ⟨a, ha, e⟩ := List.mem_map.1 hk
      exact ⟨a, hF _ a ha, e⟩
    · rw [h.outside j hj] at hk; simp at hk

/-- With a sorted tree as the aim, no sibling sorts after the node that comes next. -/
theorem sortedPos_nil {ρ : Type} {ob : List (Nat × Bool)} (hob : ob ≠ []) {pk : ρ → Nat} {vals : ρ → Vals} {l : List ρ} {V : Nat → Vals} {k : Nat} {T : List Nat}
    (hn : NonNull ob (V k)) (hs : T.Pairwise (fun a b => ¬ keyLt ob (V b) (V a))) (hpre : l.map pk ++ [k] <+: T) (hv : ∀ r ∈ l, V (pk r) = vals r) :
    sortedPosQueryset ob vals l (V k) = [] := by
  rw [List.eq_nil_iff_forall_not_mem]
  intro r hr
  rw [mem_sortedPos hob hn] at hr
  obtain ⟨rest, e⟩ := hpre
  rw [← e, List.append_assoc, List.pairwise_append] at hs
  have := hs.2.2 (pk r) (List.mem_map_of_mem hr.1) k (by simp)
  rw [hv r hr.1] at this
  exact this hr.2

/-- If the backend can load every renamed copy of the tree, it restores the tree. -/
theorem roundtrip_loads {σ ρ : Type} {add : σ → Option ρ → Nat × Vals → Except Err (σ × ρ)} {pk : ρ → Nat} {I : Forest → (Nat → Vals) → σ → Prop}
    {forest : σ → Forest} {data : σ → List (Nat × Vals)} {Handle : σ → Option ρ → Option Nat → Prop} {F : Forest} {D : List (Nat × Vals)}
    (hF : F.IsForestOn (D.map Prod.fst)) {v : Nat → Vals} (hv : ∀ e ∈ D, v e.1 = e.2) {keep : Bool} {d : Nest Item} (hd : Dumps F v keep (F none) d)
    {keys : Nat → Nat} (hkeys : keep = false → ∀ i j, keys i = keys j → i = j) {s₀ : σ} (hf0 : forest s₀ = fun _ => []) (hd0 : data s₀ = [])
    (hH : Handle s₀ none none)
    (hL : ∀ T V f, F.Renamed T (D.map Prod.fst) f → (∀ e ∈ D, V (f e.1) = e.2) → I T V s₀ ∧ Loads add pk (I T V) forest data Handle T V) :
    ∃ m i s' added T V, prepare keep keys 0 d = .ok (m, i) ∧ loadBulk add pk s₀ none m = .ok (s', added) ∧ I T V s' ∧
      (forest s').DFS (forest s' none) added ∧ Restored keep F (forest s') D (data s') := by
  obtain ⟨m, V, i, f, ep, hnd, _, hV, hren, _, hrest⟩ := roundtrip hF hv hd hkeys
  have hT : Grafted (fun _ => []) (graft (fun _ => []) none m) none m := graft_grafted hnd (by simp)
  obtain ⟨hI, L⟩ := hL _ V f (hren _ hT) hV
  have hI' := hI
  rw [← hf0] at L hI'
  obtain ⟨s', el, hi, hg, hdata⟩ := L.grafted hI' hH hnd (by simp [hd0]) (by intro k _; rw [hf0])
  rw [hf0] at hg
  refine ⟨_, i, s', _, _, V, ep, el, hi, by rw [hg.tops, List.nil_append]; exact hg.inside.dfs, hrest _ _ hg ?_⟩
  rw [hdata, hd0, List.nil_append]

end Verif
