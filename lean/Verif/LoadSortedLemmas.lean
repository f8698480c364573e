/-
C91: loading as a sequence of additions, each of which may put the node anywhere among its siblings.
-/
import Verif.SpecLoadSorted
import Verif.SpecSorted
import Verif.SpecSortedHistory
import Verif.SpecShuffle
import Verif.DumpLemmas

namespace Verif

/-- the structure attached node by node, always behind the siblings -/
def putNest : Forest → Option Nat → Nest Nat → Forest
  | F, _, .nil => F
  | F, p, .cons k c r => putNest (putNest (F.put p .last k) (some k) c) p r

theorem put_last_at (F : Forest) (p : Option Nat) (k : Nat) : F.put p .last k p = F p ++ [k] := by simp [Forest.put, Slot.ins]

theorem put_last_ne (F : Forest) {p q : Option Nat} (k : Nat) (h : q ≠ p) : F.put p .last k q = F q := by simp [Forest.put, h]

/-- That attaches the structure. -/
theorem grafted_putNest : ∀ (n : Nest Nat) {F : Forest} {p : Option Nat}, n.labels.Nodup → (∀ k ∈ n.labels, p ≠ some k) →
    (∀ k ∈ n.labels, F (some k) = []) → Grafted F (putNest F p n) p n := by
  intro n
  induction n with
  | nil => intro F p _ _ _; exact ⟨by simp [putNest, Nest.tops], .nil, fun _ _ _ => rfl⟩
  | cons k c r ih1 ih2 =>
    intro F p hnd hp hF
    simp only [Nest.labels, List.nodup_cons, List.mem_append, not_or, List.nodup_append] at hnd
    obtain ⟨⟨hkc, hkr⟩, hc, hr, hd⟩ := hnd
    simp only [Nest.labels, List.mem_cons, List.mem_append] at hp hF
    have hpk : p ≠ some k := hp k (Or.inl rfl)
    have g1 := ih1 (F := F.put p .last k) (p := some k) hc (by rintro x hx e; cases e; exact hkc hx) (by
      intro x hx
      rw [put_last_ne _ _ (Ne.symm (hp x (Or.inr (Or.inl hx))))]
      exact hF x (Or.inr (Or.inl hx)))
    have o1 : ∀ q, q ≠ some k → (∀ x ∈ c.labels, q ≠ some x) → putNest (F.put p .last k) (some k) c q = F.put p .last k q := g1.others
    have g2 := ih2 (F := putNest (F.put p .last k) (some k) c) (p := p) hr (fun x hx => hp x (Or.inr (Or.inr hx))) (by
      intro x hx
      rw [o1 _ (by rintro e; cases e; exact hkr hx) (by rintro y hy e; cases e; exact hd _ hy _ hx rfl),
        put_last_ne _ _ (Ne.symm (hp x (Or.inr (Or.inr hx))))]
      exact hF x (Or.inr (Or.inr hx)))
    show Grafted F (putNest (putNest (F.put p .last k) (some k) c) p r) p (.cons k c r)
    have keep : ∀ x, x = k ∨ x ∈ c.labels → putNest (putNest (F.put p .last k) (some k) c) p r (some x) = putNest (F.put p .last k) (some k) c (some x) := by
      intro x hx
      refine g2.others _ (Ne.symm (hp x ?_)) ?_
      · rcases hx with rfl | hx
        · exact Or.inl rfl
        · exact Or.inr (Or.inl hx)
      · rintro y hy e
        cases e
        rcases hx with rfl | hx
        · exact hkr hy
        · exact hd _ hx _ hy rfl
    refine ⟨?_, ?_, ?_⟩
    · rw [g2.tops, o1 p hpk (fun x hx => hp x (Or.inr (Or.inl hx))), put_last_at]
      simp [Nest.tops]
    · have hk : putNest (putNest (F.put p .last k) (some k) c) p r (some k) = c.tops := by
        rw [keep k (Or.inl rfl), g1.tops, put_last_ne _ _ (Ne.symm hpk), hF k (Or.inl rfl), List.nil_append]
      refine .cons ?_ g2.inside
      simp only [hk]
      exact g1.inside.congr (fun x hx => keep x (Or.inr hx))
    · intro q hq hx
      simp only [Nest.labels, List.mem_cons, List.mem_append] at hx
      rw [g2.others q hq (fun x h => hx x (Or.inr (Or.inr h))), o1 q (hx k (Or.inl rfl)) (fun x h => hx x (Or.inr (Or.inl h))),
        put_last_ne _ _ hq]

/-- What such loading needs from a backend: `R s G` relates the table `s` to the forest `G` with all nodes behind their earlier siblings.
An addition below `h` must not spoil the objects `h'` with `Keep h' h`. -/
structure LoadsTo {σ ρ : Type} (add : σ → Option ρ → Nat × Vals → Except Err (σ × ρ)) (pk : ρ → Nat) (R : σ → Forest → Prop)
    (data : σ → List (Nat × Vals)) (Handle : σ → Option ρ → Option Nat → Prop) (Keep : Option ρ → Option ρ → Prop) (ok : Vals → Prop) (Fails : Err → Prop) : Prop where
  refl : ∀ h, Keep h h
  trans : ∀ {a b c}, Keep a b → Keep b c → Keep a c
  step : ∀ {s G h p k v}, R s G → Handle s h p → k ∉ (data s).map Prod.fst → ok v →
    (∃ s' obj, add s h (k, v) = .ok (s', obj) ∧ R s' (G.put p .last k) ∧ data s' = data s ++ [(k, v)] ∧
      pk obj = k ∧ Handle s' (some obj) (some k) ∧ Keep h (some obj) ∧ ∀ h' p', Handle s h' p' → Keep h' h → Handle s' h' p') ∨
    ∃ e, add s h (k, v) = .error e ∧ Fails e

theorem LoadsTo.load {σ ρ : Type} {add : σ → Option ρ → Nat × Vals → Except Err (σ × ρ)} {pk : ρ → Nat} {R : σ → Forest → Prop}
    {data : σ → List (Nat × Vals)} {Handle : σ → Option ρ → Option Nat → Prop} {Keep : Option ρ → Option ρ → Prop} {ok : Vals → Prop} {Fails : Err → Prop}
    (L : LoadsTo add pk R data Handle Keep ok Fails) {V : Nat → Vals} : ∀ (n : Nest Nat) {s G h p}, R s G → Handle s h p → n.labels.Nodup →
    (∀ k ∈ n.labels, k ∉ (data s).map Prod.fst) → (∀ k ∈ n.labels, ok (V k)) →
    (∃ s', loadNest add pk s h (n.map (fun k => (k, V k))) = .ok (s', n.labels) ∧ R s' (putNest G p n) ∧
      data s' = data s ++ n.labels.map (fun k => (k, V k)) ∧ ∀ h' p', Handle s h' p' → Keep h' h → Handle s' h' p') ∨
    ∃ e, loadNest add pk s h (n.map (fun k => (k, V k))) = .error e ∧ Fails e := by
  intro n
  induction n with
  | nil => intro s G h p hr _ _ _ _; exact Or.inl ⟨s, rfl, hr, by simp [Nest.labels], fun _ _ h _ => h⟩
  | cons k c r ih1 ih2 =>
    intro s G h p hr hh hnd hfresh hok
    simp only [Nest.labels, List.nodup_cons, List.mem_append, not_or, List.nodup_append] at hnd
    obtain ⟨⟨hkc, hkr⟩, hc, hrr, hd⟩ := hnd
    simp only [Nest.labels, List.mem_cons, List.mem_append] at hfresh hok
    simp only [Nest.map, loadNest]
    rcases L.step (v := V k) hr hh (hfresh k (Or.inl rfl)) (hok k (Or.inl rfl)) with ⟨s1, obj, e1, r1, d1, k1, h1, hk1, m1⟩ | ⟨e, e1, f⟩
    · simp only [e1]
      rcases ih1 r1 h1 hc (by
        intro x hx hm
        rw [d1, List.map_append, List.mem_append] at hm
        rcases hm with hm | hm
        · exact hfresh x (Or.inr (Or.inl hx)) hm
        · simp only [List.map_cons, List.map_nil, List.mem_singleton] at hm
          subst hm; exact hkc hx) (fun x hx => hok x (Or.inr (Or.inl hx))) with ⟨s2, e2, r2, d2, m2⟩ | ⟨e, e2, f⟩
      · simp only [e2]
        rcases ih2 r2 (m2 _ _ (m1 _ _ hh (L.refl h)) hk1) hrr (by
          intro x hx hm
          rw [d2, d1, List.map_append, List.map_append, List.mem_append, List.mem_append] at hm
          rcases hm with (hm | hm) | hm
          · exact hfresh x (Or.inr (Or.inr hx)) hm
          · simp only [List.map_cons, List.map_nil, List.mem_singleton] at hm
            subst hm; exact hkr hx
          · simp only [List.map_map, Function.comp_def, List.map_id'] at hm
            exact hd _ hm _ hx rfl) (fun x hx => hok x (Or.inr (Or.inr hx))) with ⟨s3, e3, r3, d3, m3⟩ | ⟨e, e3, f⟩
        · refine Or.inl ⟨s3, by simp only [e3, k1, Nest.labels], r3, ?_, fun h' p' hh' hk' => m3 _ _ (m2 _ _ (m1 _ _ hh' hk') (L.trans hk' hk1)) hk'⟩
          rw [d3, d2, d1]
          simp [Nest.labels]
        · exact Or.inr ⟨e, by simp only [e3], f⟩
      · exact Or.inr ⟨e, by simp only [e2], f⟩
    · exact Or.inr ⟨e, by simp only [e1], f⟩

theorem LoadsTo.bulk {σ ρ : Type} {add : σ → Option ρ → Nat × Vals → Except Err (σ × ρ)} {pk : ρ → Nat} {R : σ → Forest → Prop}
    {data : σ → List (Nat × Vals)} {Handle : σ → Option ρ → Option Nat → Prop} {Keep : Option ρ → Option ρ → Prop} {ok : Vals → Prop} {Fails : Err → Prop}
    (L : LoadsTo add pk R data Handle Keep ok Fails) {V : Nat → Vals} {n : Nest Nat} {s : σ} {G : Forest} {h : Option ρ} {p : Option Nat}
    (hr : R s G) (hh : Handle s h p) (hnd : n.labels.Nodup) (hfresh : ∀ k ∈ n.labels, k ∉ (data s).map Prod.fst)
    (hok : ∀ k ∈ n.labels, ok (V k)) (hp : ∀ k, p = some k → k ∈ (data s).map Prod.fst)
    (hempty : ∀ k, k ∉ (data s).map Prod.fst → G (some k) = []) :
    (∃ s' T, loadBulk add pk s h (n.map (fun k => (k, V k))) = .ok (s', n.labels) ∧ Grafted G T p n ∧ R s' T ∧
      data s' = data s ++ n.labels.map (fun k => (k, V k))) ∨
    ∃ e, loadBulk add pk s h (n.map (fun k => (k, V k))) = .error e ∧ Fails e := by
  rw [loadBulk_eq]
  rcases L.load (V := V) n hr hh hnd hfresh hok with ⟨s', e, r, d, _⟩ | h
  · exact Or.inl ⟨s', _, e, grafted_putNest n hnd (by rintro k hk rfl; exact hfresh k hk (hp k rfl)) (fun k hk => hempty k (hfresh k hk)), r, d⟩
  · exact Or.inr h

/-! ### The order -/

theorem Forest.SortedBy.stably {ob : List (Nat × Bool)} {v : Nat → Vals} {F : Forest} (h : F.SortedBy ob v) : F.StablySorted ob v F := by
  intro q
  refine ⟨.refl _, ?_⟩
  have := h q
  rw [List.pairwise_iff_forall_sublist] at this ⊢
  exact fun hs => Or.inr ⟨this hs, hs⟩

theorem Forest.StablySorted.sorted {ob : List (Nat × Bool)} {v : Nat → Vals} {G F : Forest} (h : F.StablySorted ob v G) : G.SortedBy ob v := by
  intro q
  refine (h q).2.imp ?_
  rintro a b (h1 | ⟨h1, _⟩)
  · exact fun h2 => keyLt_asymm h1 h2
  · exact h1

theorem precedes_append {ob : List (Nat × Bool)} {v v' : Nat → Vals} {ks l : List Nat} {a b : Nat} (h : Precedes ob v ks a b)
    (ha : v' a = v a) (hb : v' b = v b) : Precedes ob v' (ks ++ l) a b := by
  unfold Precedes at h ⊢
  rw [ha, hb]
  rcases h with h | ⟨h1, h2⟩
  · exact Or.inl h
  · exact Or.inr ⟨h1, h2.trans (List.sublist_append_left _ _)⟩

/-- the siblings of a node that was inserted -/
theorem split_of_ins {s : Slot} {x : Nat} {F l r : List Nat} (hx : x ∉ F) (e : s.ins x F = l ++ x :: r) (hl : x ∉ l) (hr : x ∉ r) : F = l ++ r := by
  have hkeep : ∀ {l : List Nat}, x ∉ l → l.filter (fun y => decide (y ≠ x)) = l := by
    intro l hl
    rw [List.filter_eq_self]
    intro y hy
    simp only [decide_eq_true_eq]
    rintro rfl
    exact hl hy
  have h3 := filter_ins (s := s) hx
  rw [e, List.filter_append, List.filter_cons, hkeep hl, hkeep hr] at h3
  simpa using h3.symm

/-- the siblings of a node that was inserted, when those behind it may have changed their order -/
theorem perm_of_upToRight {F F' : Forest} {p : Option Nat} {s : Slot} {x : Nat} (hx : x ∉ F p) (hu : (F.put p s x).UpToRight F' p x)
    (hnd : (F' p).Nodup) : (F' p).Perm (x :: F p) := by
  obtain ⟨_, l, r, r', e, e', hp⟩ := hu
  have hn := List.nodup_middle.1 (e' ▸ hnd)
  rw [List.nodup_cons, List.mem_append, not_or] at hn
  have := split_of_ins hx (s := s) (l := l) (r := r) (by rw [← e]; simp [Forest.put]) hn.1.1 (fun h => hn.1.2 (hp.mem_iff.2 h))
  rw [e', this]
  exact List.perm_middle.trans ((hp.append_left l).cons x)

/-- One more node at its sorted place. -/
theorem Forest.StablySorted.put {ob : List (Nat × Bool)} {v v' : Nat → Vals} {G F F' : Forest} (h : G.StablySorted ob v F) {p : Option Nat} {s : Slot}
    {k : Nat} (hk : k ∉ F p) (hF : F' = F.put p s k) (hnd : (F' p).Nodup) (hv : ∀ q, ∀ a ∈ F q, v' a = v a) (hs : F'.SortedAt ob v' p k) :
    (G.put p .last k).StablySorted ob v' F' := by
  obtain ⟨l₁, l₂, e, h1, h2⟩ := hs
  intro q
  by_cases hq : q = p
  · subst hq
    rw [e] at hnd
    have hn := List.nodup_middle.1 hnd
    rw [List.nodup_cons, List.mem_append, not_or] at hn
    have hFq : F q = l₁ ++ l₂ := split_of_ins hk (s := s) (by rw [← e, hF]; simp [Forest.put]) hn.1.1 hn.1.2
    obtain ⟨hp, hpw⟩ := h q
    have hv := hv q
    rw [hFq] at hp hpw hv
    rw [put_last_at, e]
    refine ⟨List.perm_middle.trans ((hp.cons k).trans (List.perm_append_singleton k _).symm), ?_⟩
    rw [List.pairwise_append] at hpw ⊢
    obtain ⟨w1, w2, w3⟩ := hpw
    have m1 : ∀ a ∈ l₁, v' a = v a := fun a ha => hv a (List.mem_append_left _ ha)
    have m2 : ∀ a ∈ l₂, v' a = v a := fun a ha => hv a (List.mem_append_right _ ha)
    refine ⟨w1.imp_of_mem (fun ha hb hp => precedes_append hp (m1 _ ha) (m1 _ hb)), ?_, ?_⟩
    · rw [List.pairwise_cons]
      exact ⟨fun b hb => Or.inl (h2 b hb), w2.imp_of_mem (fun ha hb hp => precedes_append hp (m2 _ ha) (m2 _ hb))⟩
    · intro a ha b hb
      rcases List.mem_cons.1 hb with rfl | hb
      · refine Or.inr ⟨h1 a ha, ?_⟩
        have : a ∈ G q := hp.subset (List.mem_append_left _ ha)
        exact (List.singleton_sublist.2 this).append (List.Sublist.refl [b])
      · exact precedes_append (w3 a ha b hb) (m1 a ha) (m2 b hb)
  · rw [put_last_ne _ _ hq]
    have : F' q = F q := by rw [hF]; simp [Forest.put, hq]
    rw [this]
    exact ⟨(h q).1, (h q).2.imp_of_mem (fun ha hb hp => by
      have := precedes_append (l := []) hp (hv q _ ha) (hv q _ hb)
      rwa [List.append_nil] at this)⟩

/-- One more node at any place. -/
theorem Forest.Near.put_last {G F F' : Forest} (h : G.Near F) {p : Option Nat} {k : Nat}
    (hp : (F' p).Perm (k :: F p)) (ho : ∀ q, q ≠ p → (F' q).Perm (F q)) : (G.put p .last k).Near F' := by
  intro q
  by_cases hq : q = p
  · subst hq
    rw [put_last_at]
    exact hp.trans (((h q).cons k).trans (List.perm_append_singleton k _).symm)
  · rw [put_last_ne _ _ hq]
    exact (ho q hq).trans (h q)

end Verif
