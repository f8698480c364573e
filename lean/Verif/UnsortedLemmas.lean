/-
C92: a history with `node_order_by` against the same history without it.
-/
import Verif.SpecUnsorted
import Verif.LoadSortedLemmas

namespace Verif

variable {ob : List (Nat × Bool)}

/-- the sorted place among sorted siblings -/
theorem sortedIns_sortedSlot {v : Nat → Vals} {x : Nat} {vx : Vals} {l : List Nat} (hs : l.Pairwise (fun a b => ¬ keyLt ob (v b) (v a))) (hnd : l.Nodup)
    (hn : ∀ a ∈ l, NonNull ob (v a)) (hx : NonNull ob vx) : SortedIns ob v x vx l ((sortedSlot ob v vx l).ins x l) := by
  classical
  unfold sortedSlot
  cases e : l.find? (fun a => decide (keyLt ob vx (v a))) with
  | none =>
    rw [List.find?_eq_none] at e
    exact ⟨l, [], by simp, by simp [Slot.ins], fun a ha => by simpa using e a ha, by simp⟩
  | some b =>
    obtain ⟨hb, l₁, l₂, rfl, h1⟩ := List.find?_eq_some_iff_append.1 e
    have hb : keyLt ob vx (v b) := by simpa using hb
    refine ⟨l₁, b :: l₂, rfl, ?_, fun a ha => by simpa using h1 a ha, ?_⟩
    · refine insertBefore_append ?_
      rw [List.nodup_append] at hnd
      exact fun hm => hnd.2.2 b hm b (by simp) rfl
    · intro c hc
      rcases List.mem_cons.1 hc with rfl | hc
      · exact hb
      · have h3 := (List.pairwise_cons.1 (List.pairwise_append.1 hs).2.1).1 c hc
        exact keyLt_of_lt_of_le hx (hn b (by simp)) (hn c (by simp [hc])) hb h3

/-! ### Removing nodes -/

theorem precedes_filter {v v' : Nat → Vals} {ks : List Nat} {P : Nat → Bool} {a b : Nat} (h : Precedes ob v ks a b) (ha : P a = true) (hb : P b = true)
    (va : v' a = v a) (vb : v' b = v b) : Precedes ob v' (ks.filter P) a b := by
  unfold Precedes at h ⊢
  rw [va, vb]
  refine h.imp id (fun ⟨h1, h2⟩ => ⟨h1, ?_⟩)
  have := h2.filter P
  rwa [List.filter_cons_of_pos ha, List.filter_cons_of_pos hb, List.filter_nil] at this

theorem filter_stably {v v' : Nat → Vals} {f g : List Nat} {P : Nat → Bool} (h : f.Perm g ∧ f.Pairwise (Precedes ob v g)) (hv : ∀ a ∈ f, P a = true → v' a = v a) :
    (f.filter P).Perm (g.filter P) ∧ (f.filter P).Pairwise (Precedes ob v' (g.filter P)) := by
  refine ⟨h.1.filter P, (h.2.sublist List.filter_sublist).imp_of_mem ?_⟩
  intro a b ha hb hp
  obtain ⟨ma, pa⟩ := List.mem_filter.1 ha
  obtain ⟨mb, pb⟩ := List.mem_filter.1 hb
  exact precedes_filter hp pa pb (hv a ma pa) (hv b mb pb)

theorem Forest.StablySorted.remove {v : Nat → Vals} {G F : Forest} (h : G.StablySorted ob v F) (x : Nat) : (G.remove x).StablySorted ob v (F.remove x) :=
  fun q => filter_stably (h q) (fun _ _ _ => rfl)

theorem Forest.StablySorted.prune {v v' : Nat → Vals} {G F : Forest} (h : G.StablySorted ob v F) (D : Nat → Bool)
    (hv : ∀ q, ∀ a ∈ F q, D a = false → v' a = v a) : (G.prune D).StablySorted ob v' (F.prune D) := by
  intro q
  have key := fun q => filter_stably (P := fun y => !D y) (h q) (v' := v') (fun a ha hd => hv q a ha (by simpa using hd))
  cases q with
  | none => exact key none
  | some q =>
    unfold Forest.prune
    simp only
    split
    · exact ⟨.refl _, .nil⟩
    · exact key (some q)

/-! ### The two histories -/

/-- the tree `s` of the history with `node_order_by`, and the tree `t` of the one without -/
structure Twin (ob : List (Nat × Bool)) (s : STree) (t : Tree) : Prop where
  ids : ∀ k, k ∈ s.ids ↔ k ∈ t.ids
  order : t.F.StablySorted ob (valsIn s.data) s.F
  nonNull : ∀ e ∈ s.data, NonNull ob e.2
  keys : s.ids.Nodup
  inside : ∀ q, ∀ a ∈ s.F q, a ∈ s.ids
  nodup : ∀ q, (s.F q).Nodup
  uniq : ∀ p q k, k ∈ s.F p → k ∈ s.F q → p = q

namespace Twin

variable {s : STree} {t : Tree}

theorem mem (h : Twin ob s t) (q : Option Nat) (k : Nat) : k ∈ s.F q ↔ k ∈ t.F q := (h.order q).1.mem_iff

theorem desc (h : Twin ob s t) (a d : Nat) : s.F.Desc a d ↔ t.F.Desc a d := by
  constructor
  · intro hd
    induction hd with
    | child hm => exact .child ((h.mem _ _).1 hm)
    | step _ hm ih => exact .step ih ((h.mem _ _).1 hm)
  · intro hd
    induction hd with
    | child hm => exact .child ((h.mem _ _).2 hm)
    | step _ hm ih => exact .step ih ((h.mem _ _).2 hm)

theorem doomed (h : Twin ob s t) (S : Nat → Bool) (k : Nat) : Tree.Doomed s.F S k ↔ Tree.Doomed t.F S k := by
  unfold Tree.Doomed
  simp only [h.desc]

theorem parent (h : Twin ob s t) (x : Nat) : s.parent x = t.parent x := by
  unfold STree.parent Tree.parent
  simp only
  cases e : s.ids.find? (fun p => (s.F (some p)).contains x) with
  | none =>
    rw [List.find?_eq_none] at e
    symm
    rw [List.find?_eq_none]
    intro p hp hc
    refine e p ((h.ids p).2 hp) ?_
    rw [List.contains_iff_mem] at hc ⊢
    exact (h.mem _ _).2 hc
  | some p =>
    obtain ⟨hm, hp⟩ : x ∈ s.F (some p) ∧ p ∈ s.ids := ⟨List.contains_iff_mem.1 (List.find?_some (p := fun p => (s.F (some p)).contains x) e), List.mem_of_find?_eq_some e⟩
    cases e2 : t.ids.find? (fun p => (t.F (some p)).contains x) with
    | none =>
      rw [List.find?_eq_none] at e2
      exact absurd (List.contains_iff_mem.2 ((h.mem _ _).1 hm)) (e2 p ((h.ids p).1 hp))
    | some q =>
      have hq : x ∈ t.F (some q) := List.contains_iff_mem.1 (List.find?_some (p := fun p => (t.F (some p)).contains x) e2)
      exact h.uniq _ _ x hm ((h.mem _ _).2 hq)

theorem vals (h : Twin ob s t) {q : Option Nat} {a : Nat} (ha : a ∈ s.F q) : NonNull ob (valsIn s.data a) := by
  obtain ⟨⟨k, v⟩, he, rfl⟩ := List.mem_map.1 (h.inside q a ha)
  rw [valsIn_mem h.keys he]
  exact h.nonNull _ he

theorem add (h : Twin ob s t) {k : Nat} (hk : k ∉ s.ids) {v : Vals} (hv : NonNull ob v) (p : Option Nat) :
    Twin ob (s.add ob p k v) ⟨k :: t.ids, t.F.put p .last k⟩ := by
  have hids : (s.add ob p k v).ids = s.ids ++ [k] := by simp [STree.ids, STree.add]
  have hins := sortedIns_sortedSlot (ob := ob) (v := valsIn s.data) (x := k) (vx := v) (h.order.sorted p) (h.nodup p) (fun a ha => h.vals ha) hv
  have hold : ∀ q, ∀ a ∈ s.F q, valsIn (s.data ++ [(k, v)]) a = valsIn s.data a := fun q a ha => valsIn_append_old (h.inside q a ha)
  obtain ⟨_, hat⟩ := SortedBy.put (v' := valsIn (s.data ++ [(k, v)])) h.order.sorted hins hold (valsIn_append_new hk)
  have hkp : ∀ q, k ∉ s.F q := fun q hm => hk (h.inside q k hm)
  obtain ⟨l₁, l₂, e1, e2, _⟩ := hins
  have hperm : ((s.add ob p k v).F p).Perm (k :: s.F p) := by
    show ((s.F.put p _ k) p).Perm _
    simp only [Forest.put, if_true]
    rw [e2, e1]
    exact List.perm_middle
  have hne : ∀ q, q ≠ p → (s.add ob p k v).F q = s.F q := fun q hq => by
    show (s.F.put p _ k) q = _
    simp [Forest.put, hq]
  have hmem : ∀ q a, a ∈ (s.add ob p k v).F q ↔ a ∈ s.F q ∨ (q = p ∧ a = k) := by
    intro q a
    by_cases hq : q = p
    · subst hq
      rw [hperm.mem_iff, List.mem_cons]
      simp [or_comm]
    · rw [hne q hq]; simp [hq]
  have hnd : ∀ q, ((s.add ob p k v).F q).Nodup := by
    intro q
    by_cases hq : q = p
    · subst hq
      rw [hperm.nodup_iff, List.nodup_cons]
      exact ⟨hkp q, h.nodup q⟩
    · rw [hne q hq]; exact h.nodup q
  refine ⟨?_, ?_, ?_, ?_, ?_, hnd, ?_⟩
  · intro a; rw [hids]; simp [h.ids, or_comm]
  · exact h.order.put (hkp p) rfl (hnd p) hold hat
  · intro e he
    rcases List.mem_append.1 he with he | he
    · exact h.nonNull e he
    · rw [List.mem_singleton.1 he]; exact hv
  · rw [hids]
    exact (List.perm_append_singleton k s.ids).nodup_iff.2 (List.nodup_cons.2 ⟨hk, h.keys⟩)
  · intro q a ha
    rw [hids, List.mem_append]
    rcases (hmem q a).1 ha with ha | ⟨_, rfl⟩
    · exact Or.inl (h.inside q a ha)
    · exact Or.inr (by simp)
  · intro q r a ha hb
    rcases (hmem q a).1 ha with ha' | ⟨rfl, rfl⟩
    · rcases (hmem r a).1 hb with hb | ⟨rfl, rfl⟩
      · exact h.uniq q r a ha' hb
      · exact absurd ha' (hkp q)
    · rcases (hmem r _).1 hb with hb | ⟨rfl, _⟩
      · exact absurd hb (hkp r)
      · rfl

theorem move (h : Twin ob s t) {x : Nat} (hx : x ∈ s.ids) (p : Option Nat) :
    Twin ob ⟨s.data, s.F.move x p (sortedSlot ob (valsIn s.data) (valsIn s.data x) (s.F.remove x p))⟩ ⟨t.ids, t.F.move x p .last⟩ := by
  have hsub : ∀ q a, a ∈ s.F.remove x q → a ∈ s.F q ∧ a ≠ x := by
    intro q a ha
    obtain ⟨h1, h2⟩ := List.mem_filter.1 ha
    exact ⟨h1, by simpa using h2⟩
  have hr := h.order.remove x
  have hrn : ∀ q, (s.F.remove x q).Nodup := fun q => (h.nodup q).sublist List.filter_sublist
  have hvx : NonNull ob (valsIn s.data x) := by
    obtain ⟨⟨k, v⟩, he, rfl⟩ := List.mem_map.1 hx
    rw [valsIn_mem h.keys he]
    exact h.nonNull _ he
  have hins := sortedIns_sortedSlot (ob := ob) (v := valsIn s.data) (x := x) (vx := valsIn s.data x) (hr.sorted p) (hrn p)
    (fun a ha => h.vals (hsub p a ha).1) hvx
  obtain ⟨_, hat⟩ := SortedBy.move hr.sorted hins
  have hxp : ∀ q, x ∉ s.F.remove x q := fun q hm => (hsub q x hm).2 rfl
  generalize hsl : sortedSlot ob (valsIn s.data) (valsIn s.data x) (s.F.remove x p) = sl at hins hat
  obtain ⟨l₁, l₂, e1, e2, _⟩ := hins
  have hperm : (s.F.move x p sl p).Perm (x :: s.F.remove x p) := by
    simp only [Forest.move, Forest.put, if_true]
    rw [e2, e1]
    exact List.perm_middle
  have hne : ∀ q, q ≠ p → s.F.move x p sl q = s.F.remove x q := fun q hq => by simp [Forest.move, Forest.put, hq]
  have hmem : ∀ q a, a ∈ s.F.move x p sl q ↔ a ∈ s.F.remove x q ∨ (q = p ∧ a = x) := by
    intro q a
    by_cases hq : q = p
    · subst hq
      rw [hperm.mem_iff, List.mem_cons]
      simp [or_comm]
    · rw [hne q hq]; simp [hq]
  have hnd : ∀ q, (s.F.move x p sl q).Nodup := by
    intro q
    by_cases hq : q = p
    · subst hq
      rw [hperm.nodup_iff, List.nodup_cons]
      exact ⟨hxp q, hrn q⟩
    · rw [hne q hq]; exact hrn q
  refine ⟨h.ids, ?_, h.nonNull, h.keys, ?_, hnd, ?_⟩
  · exact hr.put (hxp p) rfl (hnd p) (fun _ _ _ => rfl) hat
  · intro q a ha
    rcases (hmem q a).1 ha with ha | ⟨_, rfl⟩
    · exact h.inside q a (hsub q a ha).1
    · exact hx
  · intro q r a ha hb
    rcases (hmem q a).1 ha with ha' | ⟨rfl, rfl⟩
    · rcases (hmem r a).1 hb with hb | ⟨rfl, rfl⟩
      · exact h.uniq q r a (hsub q a ha').1 (hsub r a hb).1
      · exact absurd ha' (hxp q)
    · rcases (hmem r _).1 hb with hb | ⟨rfl, _⟩
      · exact absurd hb (hxp r)
      · rfl

open Classical in
theorem delete (h : Twin ob s t) (S : List Nat) : Twin ob (s.step ob (.delete S)) (t.step (.delete S)) := by
  simp only [STree.step, Tree.step]
  have hD : (fun k => decide (k ∈ t.ids ∧ Tree.Doomed t.F S.contains k)) = fun k => decide (k ∈ s.ids ∧ Tree.Doomed s.F S.contains k) := by
    funext k
    simp only [h.ids, h.doomed]
  rw [hD]
  have hmem : ∀ q a, a ∈ s.F.prune (fun k => decide (k ∈ s.ids ∧ Tree.Doomed s.F S.contains k)) q → a ∈ s.F q ∧ ¬ Tree.Doomed s.F S.contains a := by
    intro q a ha
    have key : ∀ q, a ∈ (s.F q).filter (fun y => !decide (y ∈ s.ids ∧ Tree.Doomed s.F S.contains y)) → a ∈ s.F q ∧ ¬ Tree.Doomed s.F S.contains a := by
      intro q ha
      obtain ⟨h1, h2⟩ := List.mem_filter.1 ha
      refine ⟨h1, fun hd => ?_⟩
      simp [h.inside q a h1, hd] at h2
    cases q with
    | none => exact key none ha
    | some q =>
      unfold Forest.prune at ha
      simp only at ha
      split at ha
      · cases ha
      · exact key (some q) ha
  have hids : ∀ k, k ∈ (s.data.filter (fun e => !decide (Tree.Doomed s.F S.contains e.1))).map Prod.fst ↔ k ∈ s.ids ∧ ¬ Tree.Doomed s.F S.contains k := by
    intro k
    constructor
    · intro hk
      obtain ⟨e, he, rfl⟩ := List.mem_map.1 hk
      obtain ⟨h1, h2⟩ := List.mem_filter.1 he
      exact ⟨List.mem_map_of_mem h1, by simpa using h2⟩
    · rintro ⟨hk, hd⟩
      obtain ⟨e, he, rfl⟩ := List.mem_map.1 hk
      exact List.mem_map_of_mem (List.mem_filter.2 ⟨he, by simpa using hd⟩)
  refine ⟨?_, ?_, ?_, ?_, ?_, ?_, ?_⟩
  · intro k
    show k ∈ List.map Prod.fst _ ↔ _
    rw [hids k, List.mem_filter]
    simp [h.ids, h.doomed]
  · refine h.order.prune _ (fun q a ha hd => valsIn_filter h.keys ((hids a).2 ⟨h.inside q a ha, fun hd' => ?_⟩))
    simp [h.inside q a ha, hd'] at hd
  · intro e he; exact h.nonNull e (List.mem_filter.1 he).1
  · exact h.keys.sublist (List.filter_sublist.map _)
  · intro q a ha
    obtain ⟨h1, h2⟩ := hmem q a ha
    exact (hids a).2 ⟨h.inside q a h1, h2⟩
  · intro q
    cases q with
    | none => exact (h.nodup none).sublist List.filter_sublist
    | some q =>
      simp only [Forest.prune]
      split
      · exact List.nodup_nil
      · exact (h.nodup (some q)).sublist List.filter_sublist
  · intro p q k hp hq
    exact h.uniq p q k (hmem p k hp).1 (hmem q k hq).1

theorem nothing (h : Twin ob s t) : Twin ob s (t.step (.delete [])) := by
  have : t.step (.delete []) = t := by
    have hd : ∀ k, ¬ Tree.Doomed t.F (List.contains []) k := by
      rintro k (h | ⟨q, h, _⟩) <;> simp at h
    have hF : t.F.prune (fun _ => false) = t.F := by
      funext q
      cases q <;> simp [Forest.prune]
    simp [Tree.step, hd, hF]
  rw [this]; exact h

theorem prepare_sib (pos : Option Pos) : (preparePosForAddSibling true pos = .ok .sortedSibling ∧ (pos = none ∨ pos = some .sortedSibling)) ∨
    ((∃ e, preparePosForAddSibling true pos = .error e) ∧ ¬ (pos = none ∨ pos = some .sortedSibling)) := by
  rcases pos with _ | pos
  · exact Or.inl ⟨rfl, Or.inl rfl⟩
  · cases pos
    case sortedSibling => exact Or.inl ⟨rfl, Or.inr rfl⟩
    all_goals exact Or.inr ⟨⟨_, rfl⟩, by simp⟩

theorem prepare_move (pos : Option Pos) : (preparePosForMove true pos = .ok .sortedSibling ∧ (pos = none ∨ pos = some .sortedSibling)) ∨
    (preparePosForMove true pos = .ok .sortedChild ∧ pos = some .sortedChild) ∨
    ((∃ e, preparePosForMove true pos = .error e) ∧ ¬ (pos = none ∨ pos = some .sortedSibling) ∧ pos ≠ some .sortedChild) := by
  rcases pos with _ | pos
  · exact Or.inl ⟨rfl, Or.inl rfl⟩
  · cases pos
    case sortedSibling => exact Or.inl ⟨rfl, Or.inr rfl⟩
    case sortedChild => exact Or.inr (Or.inl ⟨rfl, rfl⟩)
    all_goals exact Or.inr (Or.inr ⟨⟨_, rfl⟩, by simp, by simp⟩)

theorem step (h : Twin ob s t) (op : Op) (hn : NoNulls ob op) : Twin ob (s.step ob op) (t.step (plainOp op)) := by
  classical
  cases op with
  | addRoot k v =>
    simp only [STree.step, plainOp, Tree.step]
    by_cases hk : k ∈ s.ids
    · rw [if_pos hk, if_pos ((h.ids k).1 hk)]; exact h
    · rw [if_neg hk, if_neg (fun e => hk ((h.ids k).2 e))]; exact h.add hk hn none
  | addChild u k v =>
    simp only [STree.step, plainOp, Tree.step, ← h.ids]
    split
    · exact h
    · rename_i hk; exact h.add (fun e => hk (Or.inl e)) hn (some u)
  | addSibling u pos k v =>
    rcases prepare_sib pos with ⟨e, hp⟩ | ⟨⟨er, e⟩, hp⟩
    · simp only [plainOp, if_pos hp, STree.step, Tree.step, ← h.ids, e]
      split
      · exact h
      · rename_i hk
        have := h.add (fun e => hk (Or.inl e)) hn (s.parent u)
        rw [h.parent] at this ⊢
        exact this
    · simp only [plainOp, if_neg hp, STree.step, e]
      split <;> exact h.nothing
  | move x u pos =>
    have hm : ∀ ps ps' : Pos, ps.isChild = ps'.isChild → (s.F.MoveRefused x u ps ↔ t.F.MoveRefused x u ps') := by
      intro ps ps' e
      unfold Forest.MoveRefused
      rw [h.desc, e]
    rcases prepare_move pos with ⟨e, hp⟩ | ⟨e, hp⟩ | ⟨⟨er, e⟩, hp, hp'⟩
    · simp only [plainOp, if_pos hp, STree.step, Tree.step, ← h.ids, e, show preparePosForMove false (some .lastSibling) = .ok .lastSibling from rfl,
        hm .sortedSibling .lastSibling rfl]
      split
      · exact h
      · rename_i hx
        split
        · exact h
        · have := h.move (x := x) (by by_contra hc; exact hx (Or.inl hc)) (s.parent u)
          rw [h.parent] at this ⊢
          exact this
    · subst hp
      simp only [plainOp, STree.step, Tree.step, ← h.ids, e, show preparePosForMove false (some .lastChild) = .ok .lastChild from rfl,
        hm .sortedChild .lastChild rfl, reduceCtorEq, Option.some.injEq, or_self, if_false, if_true]
      split
      · exact h
      · rename_i hx
        split
        · exact h
        · exact h.move (x := x) (by by_contra hc; exact hx (Or.inl hc)) (some u)
    · simp only [plainOp, if_neg hp, if_neg hp', STree.step, e]
      split <;> exact h.nothing
  | delete S => exact h.delete S

theorem empty : Twin ob STree.empty Tree.empty :=
  ⟨by simp [STree.empty, STree.ids, Tree.empty], fun _ => ⟨.refl _, .nil⟩, by simp [STree.empty], by simp [STree.empty, STree.ids],
    by simp [STree.empty], by simp [STree.empty], by simp [STree.empty]⟩

theorem run (h : Twin ob s t) {ops : List Op} (hn : ∀ op ∈ ops, NoNulls ob op) : Twin ob (s.run ob ops) (t.run (ops.map plainOp)) := by
  induction ops generalizing s t with
  | nil => exact h
  | cons op ops ih => exact ih (h.step op (hn op (by simp))) (fun o ho => hn o (by simp [ho]))

end Twin

end Verif
