/-
The round trip through a dump, for all backends: what is left to show for a backend is that its dump shows the forest and that loading
attaches the structure.
-/
import Verif.DumpForest

namespace Verif

/-- the same nested structure, renamed, shows the renamed lists -/
theorem Nest.Shown.renamed {kids : α → List α} {kids' : β → List β} {f : α → β} {cs : List α} {cs' : List β} {n : Nest α} (h : Shown kids cs n)
    (h' : Shown kids' cs' (n.map f)) : cs' = cs.map f ∧ ∀ a ∈ n.labels, kids' (f a) = (kids a).map f := by
  induction h generalizing cs' with
  | nil => cases h'; exact ⟨rfl, by simp [Nest.labels]⟩
  | @cons a cs c r _ _ ih1 ih2 =>
    rw [Nest.map] at h'
    cases h' with
    | cons h1 h2 =>
      obtain ⟨e1, k1⟩ := ih1 h1
      obtain ⟨e2, k2⟩ := ih2 h2
      refine ⟨by rw [e2]; rfl, ?_⟩
      intro b hb
      simp only [Nest.labels, List.mem_cons, List.mem_append] at hb
      rcases hb with rfl | hb | hb
      · exact e1
      · exact k1 b hb
      · exact k2 b hb

theorem Nest.number_comm (keys : Nat → Nat) (g : α → β) (n : Nest α) (i : Nat) :
    Nest.number keys i (n.map g) = ((Nest.number keys i n).1.map (fun x => (x.1, g x.2)), (Nest.number keys i n).2) := by
  induction n generalizing i with
  | nil => rfl
  | cons a c r ihc ihr => simp only [Nest.map, Nest.number, ihc, ihr]

theorem Nest.map_inj_labels {f : α → β} {n m : Nest α} (h : n.map f = m.map f) (hinj : ∀ a ∈ n.labels, ∀ b ∈ m.labels, f a = f b → a = b) : n = m := by
  induction n generalizing m with
  | nil => cases m with
    | nil => rfl
    | cons => simp [Nest.map] at h
  | cons a c r ihc ihr =>
    cases m with
    | nil => simp [Nest.map] at h
    | cons b c' r' =>
      simp only [Nest.map, Nest.cons.injEq] at h
      obtain ⟨h1, h2, h3⟩ := h
      simp only [Nest.labels, List.mem_cons, List.mem_append] at hinj
      rw [hinj a (Or.inl rfl) b (Or.inl rfl) h1, ihc h2 (fun x hx y hy => hinj x (Or.inr (Or.inl hx)) y (Or.inr (Or.inl hy))),
        ihr h3 (fun x hx y hy => hinj x (Or.inr (Or.inr hx)) y (Or.inr (Or.inr hy)))]

/-- pairs with different second components are a function of these -/
theorem pairs_fun (l : List (Nat × Nat)) (hnd : (l.map Prod.snd).Nodup) : ∃ f : Nat → Nat, ∀ x ∈ l, x.1 = f x.2 := by
  induction l with
  | nil => exact ⟨id, by simp⟩
  | cons a l ih =>
    simp only [List.map_cons, List.nodup_cons] at hnd
    obtain ⟨f, hf⟩ := ih hnd.2
    refine ⟨fun k => if k = a.2 then a.1 else f k, ?_⟩
    intro x hx
    rcases List.mem_cons.1 hx with rfl | hx
    · simp
    · have : x.2 ≠ a.2 := fun e => hnd.1 (e ▸ List.mem_map_of_mem hx)
      simp only [this, if_false]
      exact hf x hx

/-- The prepared structure is the dumped one with the keys that the nodes will have. -/
theorem prepare_dump (keep : Bool) {keys : Nat → Nat} (hkeys : keep = false → ∀ i j, keys i = keys j → i = j) (n : Nest Nat) (hnd : n.labels.Nodup)
    (v : Nat → Vals) :
    ∃ (f : Nat → Nat) (i : Nat), prepare keep keys 0 (n.map (fun k => (if keep then some k else none, v k))) = .ok (n.map (fun k => (f k, v k)), i) ∧
      (∀ a ∈ n.labels, ∀ b ∈ n.labels, f a = f b → a = b) ∧ (keep = true → f = id) ∧
      (keep = false → ∀ a ∈ n.labels, ∃ i, f a = keys i) := by
  cases keep with
  | true =>
    refine ⟨id, 0, ?_, fun a _ b _ e => e, fun _ => rfl, by simp⟩
    have := prepare_keep v keys n 0
    simpa using this
  | false =>
    have hsnd : ((Nest.number keys 0 n).1.labels.map Prod.snd) = n.labels := by
      rw [← Nest.labels_map, Nest.number_map]
    obtain ⟨f, hf⟩ := pairs_fun (Nest.number keys 0 n).1.labels (by rw [hsnd]; exact hnd)
    have hfst := (Nest.number_labels keys n 0).1
    have hfl : n.labels.map f = (List.range' 0 n.labels.length).map keys := by
      rw [← hfst, ← hsnd, List.map_map]
      exact List.map_congr_left (fun x hx => (hf x hx).symm)
    refine ⟨f, (Nest.number keys 0 n).2, ?_, ?_, by simp, ?_⟩
    · rw [prepare_drop, Nest.number_comm, Nest.map_map]
      have : (Nest.number keys 0 n).1.map (fun x => (f x.2, v x.2)) = n.map (fun k => (f k, v k)) := by
        conv_rhs => rw [← Nest.number_map keys n 0, Nest.map_map]
        rfl
      rw [← this]
      refine congrArg (fun z => Except.ok (z, _)) (Nest.map_congr (fun x hx => ?_))
      simp [hf x hx]
    · have hnd' : (n.labels.map f).Nodup := by
        rw [hfl]
        exact (List.nodup_range').map_on (fun a _ b _ e => hkeys rfl a b e)
      intro a ha b hb e
      exact List.inj_on_of_nodup_map hnd' ha hb e
    · intro _ a ha
      have : f a ∈ n.labels.map f := List.mem_map_of_mem ha
      rw [hfl, List.mem_map] at this
      obtain ⟨i, _, e⟩ := this
      exact ⟨i, e.symm⟩

/-- What loading a dump into an empty table has to do: attach `m` with the data `V`; then the tree is restored. -/
theorem roundtrip {F : Forest} {D : List (Nat × Vals)} (hF : F.IsForestOn (D.map Prod.fst)) {v : Nat → Vals}
    (hv : ∀ e ∈ D, v e.1 = e.2) {keep : Bool} {d : Nest Item}
    (hd : Dumps F v keep (F none) d) {keys : Nat → Nat} (hkeys : keep = false → ∀ i j, keys i = keys j → i = j) :
    ∃ (m : Nest Nat) (V : Nat → Vals) (i : Nat) (f : Nat → Nat), prepare keep keys 0 d = .ok (m.map (fun k => (k, V k)), i) ∧
      m.labels.Nodup ∧ m.labels.Perm (D.map (fun e => f e.1)) ∧ (∀ e ∈ D, V (f e.1) = e.2) ∧
      (∀ F', Grafted (fun _ => []) F' none m → F.Renamed F' (D.map Prod.fst) f) ∧
      (keep = true → f = id ∧ V = v) ∧
      ∀ F' D', Grafted (fun _ => []) F' none m → D'.Perm (m.labels.map (fun k => (k, V k))) → Restored keep F F' D D' := by
  obtain ⟨n, hn, rfl⟩ := hd
  obtain ⟨l, hl, hlnd, hperm⟩ := hF.listing
  have hlab : n.labels = l := by
    obtain ⟨n', hn', e⟩ := Nest.shown_of_dfs hl
    rw [← e, hn.unique hn']
  have hnd : n.labels.Nodup := by rw [hlab]; exact hlnd
  have hmem : ∀ k, k ∈ n.labels ↔ k ∈ D.map Prod.fst := fun k => by rw [hlab]; exact hperm.mem_iff
  obtain ⟨f, i, e, hinj, hid, _⟩ := prepare_dump keep hkeys n hnd v
  -- values of the renamed nodes
  have hV : ∃ V : Nat → Vals, (∀ a ∈ n.labels, V (f a) = v a) ∧ (keep = true → V = v) := by
    by_cases hk : keep = true
    · exact ⟨v, fun a _ => by rw [hid hk]; rfl, fun _ => rfl⟩
    · classical
      refine ⟨fun k => if h : ∃ a ∈ n.labels, f a = k then v h.choose else [], ?_, fun h => absurd h hk⟩
      intro a ha
      have h : ∃ b ∈ n.labels, f b = f a := ⟨a, ha, rfl⟩
      show (if h : ∃ b ∈ n.labels, f b = f a then v h.choose else []) = v a
      rw [dif_pos h]
      rw [hinj _ h.choose_spec.1 _ ha h.choose_spec.2]
  obtain ⟨V, hV, hVk⟩ := hV
  have hren : ∀ F', Grafted (fun _ => []) F' none (n.map f) → F.Renamed F' (D.map Prod.fst) f := by
    intro F' hG
    have h1 := hG.inside
    rw [Nest.tops_map, hn.tops_eq] at h1
    obtain ⟨_, h2⟩ := hn.renamed h1
    refine ⟨fun a ha b hb => hinj a ((hmem a).2 ha) b ((hmem b).2 hb), ?_, fun k hk => h2 k ((hmem k).2 hk), ?_⟩
    · rw [hG.tops, Nest.tops_map, hn.tops_eq]; simp
    · intro k hk
      refine hG.others _ (by simp) ?_
      rintro j hj ⟨⟩
      rw [Nest.labels_map, List.mem_map] at hj
      obtain ⟨a, ha, rfl⟩ := hj
      exact hk (List.mem_map_of_mem ((hmem a).1 ha))
  have hlp : (n.map f).labels.Perm (D.map (fun e => f e.1)) := by
    rw [Nest.labels_map, hlab]
    have := hperm.map f
    rwa [List.map_map] at this
  refine ⟨n.map f, V, i, f, ?_, ?_, hlp, ?_, hren, fun hk => ⟨hid hk, hVk hk⟩, ?_⟩
  · rw [e, Nest.map_map]
    congr 2
    exact Nest.map_congr (fun a ha => by simp [hV a ha])
  · rw [Nest.labels_map]
    exact hnd.map_on (fun a ha b hb e => hinj a ha b hb e)
  · intro e' he'
    have := List.mem_map_of_mem (f := Prod.fst) he'
    rw [hV _ ((hmem _).2 this), hv e' he']
  · intro F' D' hG hD'
    have hr := hren F' hG
    have hp : D'.Perm (D.map (fun e => (f e.1, e.2))) := by
      refine hD'.trans ((hlp.map _).trans ?_)
      rw [List.map_map]
      refine List.Perm.of_eq (List.map_congr_left (fun e he => ?_))
      have := List.mem_map_of_mem (f := Prod.fst) he
      simp [hV _ ((hmem _).2 this), hv e he]
    refine ⟨⟨f, hr, hp⟩, fun hk => ?_⟩
    have hf := hid hk
    subst hf
    refine ⟨?_, by simpa using hp⟩
    funext q
    cases q with
    | none => rw [hr.roots]; simp
    | some k =>
      by_cases h : k ∈ D.map Prod.fst
      · have := hr.kids k h
        simpa using this
      · rw [hF.outside k h, hr.outside k (by simpa using h)]

/-- in a renamed forest, levels are the same -/
theorem Forest.Renamed.level {F F' : Forest} {ks : List Nat} {f : Nat → Nat} (h : F.Renamed F' ks f)
    (hF : ∀ p, ∀ k ∈ F p, k ∈ ks) {k : Nat} (hk : k ∈ ks) {l : Nat} (hl : F'.Level (f k) l) : F.Level k l := by
  generalize hj : f k = j at hl
  induction hl generalizing k with
  | root hr =>
    subst hj
    rw [h.roots, List.mem_map] at hr
    obtain ⟨a, ha, e⟩ := hr
    rw [← h.inj a (hF _ a ha) k hk e]
    exact .root ha
  | @child p x i _ hx ih =>
    subst hj
    have hp : p ∈ ks.map f := by
      by_contra hc
      rw [h.outside p hc] at hx
      simp at hx
    obtain ⟨a, ha, rfl⟩ := List.mem_map.1 hp
    rw [h.kids a ha, List.mem_map] at hx
    obtain ⟨b, hb, e⟩ := hx
    rw [← h.inj b (hF _ b hb) k hk e]
    exact .child (ih ha rfl) hb

/-- the graft on nothing -/
theorem graft_grafted {F : Forest} {p : Option Nat} {n : Nest Nat} (hnd : n.labels.Nodup) (hp : ∀ k ∈ n.labels, p ≠ some k) : Grafted F (graft F p n) p n :=
  ⟨graft_at F p n, graft_shown hnd hp, fun _ hq h => graft_out hq h⟩

/-- the nodes of a forest with a structure attached -/
theorem Grafted.mem {F T : Forest} {p : Option Nat} {n : Nest Nat} (h : Grafted F T p n) {q : Option Nat} {k : Nat} (hk : k ∈ T q) :
    k ∈ F q ∨ k ∈ n.labels := by
  by_cases hq : q = p
  · rw [hq, h.tops, List.mem_append] at hk
    rw [hq]
    exact hk.imp_right Nest.tops_sub
  · by_cases hl : ∃ j ∈ n.labels, q = some j
    · obtain ⟨j, hj, rfl⟩ := hl
      exact Or.inr (h.inside.kids_mem hj hk)
    · rw [h.others q hq (fun j hj e => hl ⟨j, hj, e⟩)] at hk
      exact Or.inl hk

end Verif
