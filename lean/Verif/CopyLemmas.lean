/-
Dumping a branch and loading it at another place of the same tree: what is left to show for a backend is that it dumps and loads.
-/
import Verif.SpecCopy
import Verif.DFS
import Verif.RoundTrip

namespace Verif

variable {F : Forest}

/-- the listing of a branch is a part of the whole listing -/
theorem Forest.DFS.part {cs L : List Nat} (h : F.DFS cs L) {x : Nat} (hx : x ∈ L) : ∃ l, F.DFS (F (some x)) l ∧ (x :: l).Sublist L := by
  induction h with
  | nil => cases hx
  | @cons c cs l₁ l₂ h1 _ ih1 ih2 =>
    rcases List.mem_cons.1 hx with rfl | hx
    · exact ⟨l₁, h1, (List.sublist_append_left _ _).cons_cons _⟩
    · rcases List.mem_append.1 hx with hx | hx
      · obtain ⟨l, h, hs⟩ := ih1 hx
        exact ⟨l, h, (hs.trans (List.sublist_append_left _ _)).cons _⟩
      · obtain ⟨l, h, hs⟩ := ih2 hx
        exact ⟨l, h, (hs.trans (List.sublist_append_right _ _)).cons _⟩

theorem Forest.IsForestOn.branch {ids : List Nat} (h : F.IsForestOn ids) {x : Nat} (hx : x ∈ ids) :
    ∃ l, F.DFS [x] l ∧ l.Nodup ∧ (∀ a ∈ l, a ∈ ids) ∧ ∀ a, a ∈ l ↔ F.Branch x a := by
  obtain ⟨L, hL, hnd, hp⟩ := h.listing
  obtain ⟨l, hl, hs⟩ := hL.part (hp.mem_iff.2 hx)
  have hd : F.DFS [x] (x :: l) := by
    have := Forest.DFS.cons hl .nil
    rwa [List.append_nil] at this
  refine ⟨x :: l, hd, hnd.sublist hs, fun a ha => hp.mem_iff.1 (hs.subset ha), fun a => ?_⟩
  rw [hd.mem]
  simp [Forest.Branch]

/-- the levels in a tree with a copy: the nodes that were there keep theirs, and the copy of `a` is as far below `p` as `a` is below the parent of `x` -/
theorem Copied.level {F' : Forest} {D D' : List (Nat × Vals)} {v : Nat → Vals} {x : Nat} {p : Option Nat} {f : Nat → Nat} (h : Copied F F' D D' v x p f)
    (hsub : ∀ q, ∀ k ∈ F q, k ∈ D.map Prod.fst) (hirr : ¬ F.Desc x x)
    (hp : ∀ q, p = some q → q ∈ D.map Prod.fst) {lev : Nat → Nat} (hlev : ∀ k ∈ D.map Prod.fst, ∀ l, F.Level k l → l = lev k)
    (hstep : ∀ q k, k ∈ F (some q) → lev k = lev q + 1) {k l : Nat} (hl : F'.Level k l) :
    (k ∈ D.map Prod.fst → F.Level k l) ∧ ∀ a, F.Branch x a → k = f a → l + lev x = (p.map lev).getD 0 + lev a + 1 := by
  have hsrc : ∀ q k, k ∈ F' q → (k ∈ F q ∧ ∀ a, F.Branch x a → q ≠ some (f a)) ∨ (q = p ∧ k = f x) ∨ ∃ a b, F.Branch x a ∧ q = some (f a) ∧ b ∈ F (some a) ∧ k = f b := by
    intro q k hk
    by_cases hq : q = p
    · subst hq
      rw [h.top, List.mem_append, List.mem_singleton] at hk
      rcases hk with hk | hk
      · left
        refine ⟨hk, ?_⟩
        rintro a ha rfl
        exact h.new a ha (hp _ rfl)
      · exact Or.inr (Or.inl ⟨rfl, hk⟩)
    · by_cases hc : ∃ a, F.Branch x a ∧ q = some (f a)
      · obtain ⟨a, ha, rfl⟩ := hc
        rw [h.inside a ha] at hk
        obtain ⟨b, hb, e⟩ := List.mem_map.1 hk
        exact Or.inr (Or.inr ⟨a, b, ha, rfl, hb, e.symm⟩)
      · have hc' : ∀ a, F.Branch x a → q ≠ some (f a) := fun a ha e => hc ⟨a, ha, e⟩
        rw [h.others q hq hc'] at hk
        exact Or.inl ⟨hk, hc'⟩
  have hbr : ∀ a b, F.Branch x a → b ∈ F (some a) → F.Branch x b ∧ b ≠ x := by
    rintro a b (rfl | ha) hb
    · exact ⟨Or.inr (.child hb), by rintro rfl; exact hirr (.child hb)⟩
    · exact ⟨Or.inr (.step ha hb), by rintro rfl; exact hirr (.step ha hb)⟩
  induction hl with
  | @root k hk =>
    rcases hsrc none k hk with ⟨h1, _⟩ | ⟨h1, h2⟩ | ⟨a, b, _, h2, _⟩
    · refine ⟨fun _ => .root h1, ?_⟩
      rintro a ha rfl
      exact (h.new a ha (hsub _ _ h1)).elim
    · refine ⟨fun hm => ?_, ?_⟩
      · rw [h2] at hm; exact (h.new x (Or.inl rfl) hm).elim
      · intro a ha e
        rw [h2] at e
        have := h.inj _ _ (Or.inl rfl) ha e
        subst this
        rw [← h1]
        simp
        omega
    · cases h2
  | @child q k n hq hk ih =>
    rcases hsrc (some q) k hk with ⟨h1, h2⟩ | ⟨h1, h2⟩ | ⟨a, b, ha, h2, hb, e⟩
    · have hqm : F'.Level q n := hq
      refine ⟨fun hm => ?_, ?_⟩
      · by_cases hqD : q ∈ D.map Prod.fst
        · exact .child (ih.1 hqD) h1
        · exfalso
          -- the parent of a stored node is stored or a copy
          cases hq with
          | root hr =>
            rcases hsrc none q hr with ⟨g, _⟩ | ⟨_, g⟩ | ⟨_, _, _, g, _⟩
            · exact hqD (hsub _ _ g)
            · exact h2 x (Or.inl rfl) (by rw [g])
            · cases g
          | child _ hr =>
            rcases hsrc _ q hr with ⟨g, _⟩ | ⟨_, g⟩ | ⟨a, b, g1, _, g2, g3⟩
            · exact hqD (hsub _ _ g)
            · exact h2 x (Or.inl rfl) (by rw [g])
            · exact h2 b (hbr a b g1 g2).1 (by rw [g3])
      · rintro a ha rfl
        exact (h.new a ha (hsub _ _ h1)).elim
    · refine ⟨fun hm => ?_, ?_⟩
      · rw [h2] at hm; exact (h.new x (Or.inl rfl) hm).elim
      · intro a ha e
        rw [h2] at e
        have := h.inj _ _ (Or.inl rfl) ha e
        subst this
        have hqD := hp q h1.symm
        have := hlev q hqD n (ih.1 hqD)
        rw [← h1]
        simp only [Option.map_some, Option.getD_some]
        omega
    · have hqa : q = f a := by cases h2; rfl
      have hbb := (hbr a b ha hb).1
      refine ⟨fun hm => ?_, ?_⟩
      · rw [e] at hm; exact (h.new b hbb hm).elim
      · intro c hc e'
        rw [e] at e'
        have := h.inj _ _ hbb hc e'
        subst this
        have h1 := ih.2 a ha hqa
        have h2 := hstep a b hb
        omega

/-- What `prepare` makes of the dump of a branch, and what attaching it means. -/
theorem copy_prepared {D : List (Nat × Vals)} (hF : F.IsForestOn (D.map Prod.fst)) {v : Nat → Vals} {x : Nat} (hx : x ∈ D.map Prod.fst) {d : Nest Item}
    (hd : Dumps F v false [x] d) {keys : Nat → Nat} (hkeys : ∀ i j, keys i = keys j → i = j) (hnew : ∀ i, keys i ∉ D.map Prod.fst) :
    ∃ (m : Nest Nat) (V : Nat → Vals) (i : Nat) (f : Nat → Nat), prepare false keys 0 d = .ok (m.map (fun k => (k, V k)), i) ∧ m.labels.Nodup ∧
      m.tops = [f x] ∧ (∀ k ∈ m.labels, k ∉ D.map Prod.fst ∧ ∃ a, F.Branch x a ∧ k = f a) ∧ (∀ k ∈ D.map Prod.fst, V k = v k) ∧
      ∀ F' D' p, Grafted F F' p m → D' = D ++ m.labels.map (fun k => (k, V k)) → Copied F F' D D' v x p f := by
  obtain ⟨n, hn, rfl⟩ := hd
  obtain ⟨l, hl, hlnd, hsub, hbr⟩ := hF.branch hx
  have hlab : n.labels = l := by
    obtain ⟨n', hn', e⟩ := Nest.shown_of_dfs hl
    rw [← e, hn.unique hn']
  have hnd : n.labels.Nodup := by rw [hlab]; exact hlnd
  obtain ⟨f, i, e, hinj, _, hks⟩ := prepare_dump false (fun _ => hkeys) n hnd v
  have hmem : ∀ a, a ∈ n.labels ↔ F.Branch x a := fun a => by rw [hlab]; exact hbr a
  have hfresh : ∀ a ∈ n.labels, f a ∉ D.map Prod.fst := by
    intro a ha
    obtain ⟨j, hj⟩ := hks rfl a ha
    rw [hj]; exact hnew j
  classical
  let V : Nat → Vals := fun k => if h : ∃ a ∈ n.labels, f a = k then v h.choose else v k
  have hV : ∀ a ∈ n.labels, V (f a) = v a := by
    intro a ha
    have h : ∃ b ∈ n.labels, f b = f a := ⟨a, ha, rfl⟩
    show (if h : ∃ b ∈ n.labels, f b = f a then v h.choose else v (f a)) = v a
    rw [dif_pos h, hinj _ h.choose_spec.1 _ ha h.choose_spec.2]
  have hmapn : n.map (fun k => (f k, v k)) = (n.map f).map (fun k => (k, V k)) := by
    rw [Nest.map_map]
    exact Nest.map_congr (fun a ha => by show (f a, v a) = (f a, V (f a)); rw [hV a ha])
  refine ⟨n.map f, V, i, f, by rw [← hmapn]; exact e, ?_, ?_, ?_, ?_, ?_⟩
  · rw [Nest.labels_map]
    exact hnd.map_on (fun a ha b hb e => hinj a ha b hb e)
  · rw [Nest.tops_map, hn.tops_eq]; rfl
  · intro k hk
    rw [Nest.labels_map] at hk
    obtain ⟨a, ha, rfl⟩ := List.mem_map.1 hk
    exact ⟨hfresh a ha, a, (hmem a).1 ha, rfl⟩
  · intro k hk
    show (if h : ∃ b ∈ n.labels, f b = k then v h.choose else v k) = v k
    rw [dif_neg]
    rintro ⟨a, ha, rfl⟩
    exact hfresh a ha hk
  · rintro F' D' p hG rfl
    have h1 := hG.inside
    rw [Nest.tops_map, hn.tops_eq] at h1
    obtain ⟨_, h2⟩ := hn.renamed h1
    refine ⟨fun a ha => hfresh a ((hmem a).2 ha), fun a b ha hb => hinj a ((hmem a).2 ha) b ((hmem b).2 hb), ?_, fun a ha => h2 a ((hmem a).2 ha), ?_, l, hl, hlnd, ?_⟩
    · rw [hG.tops, Nest.tops_map, hn.tops_eq]; rfl
    · intro q hq hk
      refine hG.others q hq ?_
      intro k hk'
      rw [Nest.labels_map] at hk'
      obtain ⟨a, ha, rfl⟩ := List.mem_map.1 hk'
      exact hk a ((hmem a).1 ha)
    · rw [Nest.labels_map, List.map_map, hlab]
      refine congrArg _ (List.map_congr_left (fun a ha => ?_))
      show (f a, V (f a)) = (f a, v a)
      rw [hV a (by rw [hlab]; exact ha)]

end Verif
