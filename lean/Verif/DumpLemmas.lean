/-
Nested structures: what the loop of `dump_bulk` builds, and what `load_bulk` does with them.
-/
import Verif.DumpModel
import Verif.ForestLemmas

namespace Verif

namespace Nest

theorem labels_push (x : α) (n : Nest α) : (n.push x).labels = n.labels ++ [x] := by
  induction n with
  | nil => rfl
  | cons a c r _ ih => simp [push, labels, ih]

theorem tops_push (x : α) (n : Nest α) : (n.push x).tops = n.tops ++ [x] := by
  induction n with
  | nil => rfl
  | cons a c r _ ih => simp [push, tops, ih]

theorem map_map (f : α → β) (g : β → γ) (n : Nest α) : (n.map f).map g = n.map (g ∘ f) := by
  induction n with
  | nil => rfl
  | cons a c r ihc ihr => simp [map, ihc, ihr]

theorem labels_map (f : α → β) (n : Nest α) : (n.map f).labels = n.labels.map f := by
  induction n with
  | nil => rfl
  | cons a c r ihc ihr => simp [map, labels, ihc, ihr]

theorem tops_map (f : α → β) (n : Nest α) : (n.map f).tops = n.tops.map f := by
  induction n with
  | nil => rfl
  | cons a c r _ ihr => simp [map, tops, ihr]

theorem map_congr {f g : α → β} {n : Nest α} (h : ∀ a ∈ n.labels, f a = g a) : n.map f = n.map g := by
  induction n with
  | nil => rfl
  | cons a c r ihc ihr =>
    simp only [labels, List.mem_cons, List.mem_append] at h
    simp only [map]
    rw [h a (Or.inl rfl), ihc (fun x hx => h x (Or.inr (Or.inl hx))), ihr (fun x hx => h x (Or.inr (Or.inr hx)))]

theorem map_id' {f : α → α} {n : Nest α} (h : ∀ a ∈ n.labels, f a = a) : n.map f = n := by
  induction n with
  | nil => rfl
  | cons a c r ihc ihr =>
    simp only [labels, List.mem_cons, List.mem_append] at h
    simp only [map]
    rw [h a (Or.inl rfl), ihc (fun x hx => h x (Or.inr (Or.inl hx))), ihr (fun x hx => h x (Or.inr (Or.inr hx)))]

theorem tops_sub {n : Nest α} {a : α} (h : a ∈ n.tops) : a ∈ n.labels := by
  induction n with
  | nil => simp [tops] at h
  | cons b c r _ ih =>
    simp only [tops, List.mem_cons] at h
    simp only [labels, List.mem_cons, List.mem_append]
    rcases h with h | h
    · exact Or.inl h
    · exact Or.inr (Or.inr (ih h))

theorem Shown.tops_eq {kids : α → List α} {cs : List α} {n : Nest α} (h : Shown kids cs n) : n.tops = cs := by
  induction h with
  | nil => rfl
  | cons _ _ _ ih => simp [tops, ih]

/-- the structure is determined by the siblings and the children of each node -/
theorem Shown.unique {kids : α → List α} {cs : List α} {n m : Nest α} (h : Shown kids cs n) (h' : Shown kids cs m) : n = m := by
  induction h generalizing m with
  | nil => cases h'; rfl
  | cons _ _ ih1 ih2 =>
    cases h' with
    | cons h1 h2 => rw [ih1 h1, ih2 h2]

theorem Shown.congr {kids kids' : α → List α} {cs : List α} {n : Nest α} (h : Shown kids cs n)
    (he : ∀ a ∈ n.labels, kids' a = kids a) : Shown kids' cs n := by
  induction h with
  | nil => exact .nil
  | @cons a cs c r _ _ ih1 ih2 =>
    simp only [labels, List.mem_cons, List.mem_append] at he
    refine .cons ?_ (ih2 (fun x hx => he x (Or.inr (Or.inr hx))))
    rw [he a (Or.inl rfl)]
    exact ih1 (fun x hx => he x (Or.inr (Or.inl hx)))

theorem Shown.map {kids : α → List α} {kids' : β → List β} {f : α → β} {cs : List α} {n : Nest α} (h : Shown kids cs n)
    (he : ∀ a ∈ n.labels, kids' (f a) = (kids a).map f) : Shown kids' (cs.map f) (n.map f) := by
  induction h with
  | nil => exact .nil
  | @cons a cs c r _ _ ih1 ih2 =>
    simp only [labels, List.mem_cons, List.mem_append] at he
    refine .cons ?_ (ih2 (fun x hx => he x (Or.inr (Or.inr hx))))
    rw [he a (Or.inl rfl)]
    exact ih1 (fun x hx => he x (Or.inr (Or.inl hx)))

/-- every label is one of the siblings, or a child of a label -/
theorem Shown.mem {kids : α → List α} {cs : List α} {n : Nest α} (h : Shown kids cs n) {a : α} (ha : a ∈ n.labels) :
    a ∈ cs ∨ ∃ b ∈ n.labels, a ∈ kids b := by
  induction h with
  | nil => simp [labels] at ha
  | @cons b cs c r _ _ ih1 ih2 =>
    simp only [labels, List.mem_cons, List.mem_append] at ha ⊢
    rcases ha with rfl | ha | ha
    · exact Or.inl (Or.inl rfl)
    · rcases ih1 ha with h | ⟨b', h1, h2⟩
      · exact Or.inr ⟨b, Or.inl rfl, h⟩
      · exact Or.inr ⟨b', Or.inr (Or.inl h1), h2⟩
    · rcases ih2 ha with h | ⟨b', h1, h2⟩
      · exact Or.inl (Or.inr h)
      · exact Or.inr ⟨b', Or.inr (Or.inr h1), h2⟩

theorem Shown.kids_mem {kids : α → List α} {cs : List α} {n : Nest α} (h : Shown kids cs n) {a b : α} (ha : a ∈ n.labels)
    (hb : b ∈ kids a) : b ∈ n.labels := by
  induction h with
  | nil => simp [labels] at ha
  | @cons x cs c r h1 h2 ih1 ih2 =>
    simp only [labels, List.mem_cons, List.mem_append] at ha ⊢
    rcases ha with rfl | ha | ha
    · exact Or.inr (Or.inl (tops_sub (by rw [h1.tops_eq]; exact hb)))
    · exact Or.inr (Or.inl (ih1 ha))
    · exact Or.inr (Or.inr (ih2 ha))

theorem Shown.push {kids : α → List α} {cs : List α} {n : Nest α} (h : Shown kids cs n) {x : α} (hx : kids x = []) :
    Shown kids (cs ++ [x]) (n.push x) := by
  induction h with
  | nil => exact .cons (by rw [hx]; exact .nil) .nil
  | cons h1 _ _ ih2 => exact .cons h1 ih2

theorem mem_under {q : α → Bool} {x a : α} {n : Nest α} (h : a ∈ n.labels) : a ∈ (n.under q x).labels := by
  induction n with
  | nil => exact h
  | cons b c r ihc ihr =>
    simp only [labels, under, List.mem_cons, List.mem_append] at h ⊢
    rcases h with h | h | h
    · exact Or.inl h
    · refine Or.inr (Or.inl ?_)
      split
      · rw [labels_push]; exact List.mem_append_left _ (ihc h)
      · exact ihc h
    · exact Or.inr (Or.inr (ihr h))

theorem mem_under_self {q : α → Bool} {x : α} {n : Nest α} (h : n.labels.any q = true) : x ∈ (n.under q x).labels := by
  induction n with
  | nil => simp [labels] at h
  | cons b c r ihc ihr =>
    simp only [labels, under, List.any_cons, List.any_append, Bool.or_eq_true, List.mem_cons, List.mem_append] at h ⊢
    rcases h with h | h | h
    · refine Or.inr (Or.inl ?_)
      rw [if_pos h, labels_push]
      simp
    · refine Or.inr (Or.inl ?_)
      split
      · rw [labels_push]; simp
      · exact ihc h
    · exact Or.inr (Or.inr (ihr h))

theorem Shown.under {kids : α → List α} {q : α → Bool} {cs : List α} {n : Nest α} (h : Shown kids cs n) {x : α}
    (hq : q x = false) (hx : kids x = []) :
    Shown (fun a => if q a then kids a ++ [x] else kids a) cs (n.under q x) := by
  induction h with
  | nil => exact .nil
  | @cons a cs c r _ _ ih1 ih2 =>
    refine .cons ?_ ih2
    show Shown _ (if q a then kids a ++ [x] else kids a) (if q a then (c.under q x).push x else c.under q x)
    split
    · exact ih1.push (by simp [hq, hx])
    · exact ih1

end Nest

/-! ### The loop of `dump_bulk` -/

section dump
variable {ρ κ : Type} [BEq κ] [LawfulBEq κ] {key : ρ → κ} {place : ρ → Except Err (Option κ)}

/-- the rows that go below the row `a` -/
def placedBelow (key : ρ → κ) (place : ρ → Except Err (Option κ)) (a x : ρ) : Bool :=
  match place x with
  | .ok (some k) => key a == k
  | _ => false

/-- the rows that go to the top level -/
def placedTop (place : ρ → Except Err (Option κ)) (x : ρ) : Bool :=
  match place x with
  | .ok none => true
  | _ => false

theorem dumpLoop_spec {done rs : List ρ} {ret : Nest ρ} (hinj : ∀ a ∈ done ++ rs, ∀ b ∈ done ++ rs, key a = key b → a = b)
    (hnd : (done ++ rs).Nodup)
    (hord : ∀ pre r post, done ++ rs = pre ++ r :: post → place r = .ok none ∨ ∃ a ∈ pre, place r = .ok (some (key a)))
    (hs : Nest.Shown (fun a => done.filter (placedBelow key place a)) (done.filter (placedTop place)) ret)
    (hm : ∀ a ∈ done, a ∈ ret.labels) :
    ∃ ret', dumpLoop key place rs ret = .ok ret' ∧
      Nest.Shown (fun a => (done ++ rs).filter (placedBelow key place a)) ((done ++ rs).filter (placedTop place)) ret' ∧
      ∀ a ∈ done ++ rs, a ∈ ret'.labels := by
  induction rs generalizing done ret with
  | nil => exact ⟨ret, rfl, by simpa using hs, by simpa using hm⟩
  | cons x rs ih =>
    have hsplit : done ++ x :: rs = (done ++ [x]) ++ rs := by simp
    have hx : x ∉ done := by
      intro h
      rw [List.nodup_append] at hnd
      exact hnd.2.2 x h x (by simp) rfl
    -- nothing goes below the new row so far
    have hkids : done.filter (placedBelow key place x) = [] := by
      rw [List.filter_eq_nil_iff]
      intro y hy hb
      obtain ⟨pre, post, rfl⟩ := List.append_of_mem hy
      rcases hord pre y (post ++ x :: rs) (by simp) with h | ⟨a, ha, h⟩
      · simp [placedBelow, h] at hb
      · simp only [placedBelow, h, beq_iff_eq] at hb
        have := hinj x (by simp) a (by simp [ha]) hb
        rw [this] at hx
        exact hx (by simp [ha])
    rw [hsplit] at hinj hnd hord ⊢
    rcases hord done x rs (by simp) with h | ⟨a, ha, h⟩
    · simp only [dumpLoop, h]
      refine ih hinj hnd hord ?_ ?_
      · have h1 : (done ++ [x]).filter (placedTop place) = done.filter (placedTop place) ++ [x] := by
          simp [placedTop, h]
        rw [h1]
        have h2 : ∀ b, (done ++ [x]).filter (placedBelow key place b) = done.filter (placedBelow key place b) := by
          intro b; simp [placedBelow, h]
        simp only [h2]
        exact hs.push hkids
      · intro b hb
        rw [Nest.labels_push]
        rcases List.mem_append.1 hb with hb | hb
        · exact List.mem_append_left _ (hm b hb)
        · exact List.mem_append_right _ hb
    · have hany : ret.labels.any (fun b => key b == key a) = true := List.any_eq_true.2 ⟨a, hm a ha, by simp⟩
      simp only [dumpLoop, h, if_pos hany]
      have hne : (key x == key a) = false := by
        rw [beq_eq_false_iff_ne]
        intro e
        exact hx (hinj x (by simp) a (by simp [ha]) e ▸ ha)
      refine ih hinj hnd hord ?_ ?_
      · have h1 : (done ++ [x]).filter (placedTop place) = done.filter (placedTop place) := by
          simp [placedTop, h]
        rw [h1]
        have h2 : ∀ b, (done ++ [x]).filter (placedBelow key place b) =
            if key b == key a then done.filter (placedBelow key place b) ++ [x] else done.filter (placedBelow key place b) := by
          intro b
          by_cases hb : key b == key a <;> simp [placedBelow, h, hb]
        simp only [h2]
        exact hs.under (q := fun b => key b == key a) hne hkids
      · intro b hb
        rcases List.mem_append.1 hb with hb | hb
        · exact Nest.mem_under (hm b hb)
        · simp only [List.mem_singleton] at hb
          subst hb
          exact Nest.mem_under_self hany

/-- If every row comes after the row it goes below, the loop builds the structure in which each row has the rows placed below it. -/
theorem dumpLoop_ok {rs : List ρ} (hinj : ∀ a ∈ rs, ∀ b ∈ rs, key a = key b → a = b) (hnd : rs.Nodup)
    (hord : ∀ pre r post, rs = pre ++ r :: post → place r = .ok none ∨ ∃ a ∈ pre, place r = .ok (some (key a))) :
    ∃ ret, dumpLoop key place rs .nil = .ok ret ∧
      Nest.Shown (fun a => rs.filter (placedBelow key place a)) (rs.filter (placedTop place)) ret := by
  obtain ⟨ret, h1, h2, _⟩ := dumpLoop_spec (done := []) (rs := rs) (ret := .nil) (by simpa using hinj) (by simpa using hnd)
    (by simpa using hord) (by simpa using Nest.Shown.nil) (by simp)
  exact ⟨ret, h1, by simpa using h2⟩

end dump

/-! ### Loading -/

section load
variable {σ ρ α : Type}

/-- the same as `loadStack`, by recursion on the structure -/
def loadNest (add : σ → Option ρ → α → Except Err (σ × ρ)) (pk : ρ → Nat) : σ → Option ρ → Nest α → Except Err (σ × List Nat)
  | db, _, .nil => .ok (db, [])
  | db, p, .cons a c r =>
    match add db p a with
    | .error e => .error e
    | .ok (db, obj) =>
      match loadNest add pk db (some obj) c with
      | .error e => .error e
      | .ok (db, l1) =>
        match loadNest add pk db p r with
        | .error e => .error e
        | .ok (db, l2) => .ok (db, pk obj :: (l1 ++ l2))

theorem loadStack_append (add : σ → Option ρ → α → Except Err (σ × ρ)) (pk : ρ → Nat) (n : Nest α) :
    ∀ (db : σ) (p : Option ρ) (st : List (Option ρ × α × Nest α)),
    loadStack add pk db (n.entries p ++ st) =
      match loadNest add pk db p n with
      | .error e => .error e
      | .ok (db, l1) =>
        match loadStack add pk db st with
        | .error e => .error e
        | .ok (db, l2) => .ok (db, l1 ++ l2) := by
  induction n with
  | nil =>
    intro db p st
    simp only [Nest.entries, List.nil_append, loadNest]
    rcases loadStack add pk db st with e | ⟨db, l⟩ <;> rfl
  | cons a c r ihc ihr =>
    intro db p st
    simp only [Nest.entries, List.cons_append, loadNest]
    rw [loadStack]
    rcases add db p a with e | ⟨db, obj⟩
    · rfl
    · simp only
      rw [ihc]
      rcases loadNest add pk db (some obj) c with e | ⟨db, l1⟩
      · rfl
      · simp only
        rw [ihr]
        rcases loadNest add pk db p r with e | ⟨db, l2⟩
        · rfl
        · simp only
          rcases loadStack add pk db st with e | ⟨db, l3⟩
          · rfl
          · simp [List.append_assoc]

theorem loadBulk_eq (add : σ → Option ρ → α → Except Err (σ × ρ)) (pk : ρ → Nat) (db : σ) (p : Option ρ) (n : Nest α) :
    loadBulk add pk db p n = loadNest add pk db p n := by
  have := loadStack_append add pk n db p []
  rw [List.append_nil] at this
  rw [loadBulk, this]
  rcases loadNest add pk db p n with e | ⟨db, l⟩
  · rfl
  · simp [loadStack]

end load

/-- What loading needs from a backend: one addition at the end of the children of `p`.  `T` is the forest that will have been built in the
end, `V` the values of its nodes; so far every node has its first few children.  `Handle` says that an object can be used as parent. -/
structure Loads {σ ρ : Type} (add : σ → Option ρ → Nat × Vals → Except Err (σ × ρ)) (pk : ρ → Nat) (I : σ → Prop) (forest : σ → Forest)
    (data : σ → List (Nat × Vals)) (Handle : σ → Option ρ → Option Nat → Prop) (T : Forest) (V : Nat → Vals) : Prop where
  known : ∀ {s h k}, Handle s h (some k) → k ∈ (data s).map Prod.fst
  step : ∀ {s h p k}, I s → Handle s h p → k ∉ (data s).map Prod.fst → (∀ q, forest s q <+: T q) → forest s p ++ [k] <+: T p →
    forest s (some k) = [] →
    ∃ s' obj, add s h (k, V k) = .ok (s', obj) ∧ I s' ∧ forest s' = (forest s).put p .last k ∧ data s' = data s ++ [(k, V k)] ∧
      pk obj = k ∧ Handle s' (some obj) (some k) ∧ ∀ h p, Handle s h p → Handle s' h p

theorem Loads.load {σ ρ : Type} {add : σ → Option ρ → Nat × Vals → Except Err (σ × ρ)} {pk : ρ → Nat} {I : σ → Prop} {forest : σ → Forest}
    {data : σ → List (Nat × Vals)} {Handle : σ → Option ρ → Option Nat → Prop} {T : Forest} {V : Nat → Vals}
    (L : Loads add pk I forest data Handle T V) {cs : List Nat} {n : Nest Nat} (hn : Nest.Shown (fun k => T (some k)) cs n) :
    ∀ {s h p}, I s → Handle s h p → n.labels.Nodup → (∀ k ∈ n.labels, k ∉ (data s).map Prod.fst) → (∀ k ∈ n.labels, forest s (some k) = []) →
    (∀ q, forest s q <+: T q) → forest s p ++ cs <+: T p →
    ∃ s', loadNest add pk s h (n.map (fun k => (k, V k))) = .ok (s', n.labels) ∧ I s' ∧ forest s' p = forest s p ++ cs ∧
      (∀ k ∈ n.labels, forest s' (some k) = T (some k)) ∧ (∀ q, q ≠ p → (∀ k ∈ n.labels, q ≠ some k) → forest s' q = forest s q) ∧
      data s' = data s ++ n.labels.map (fun k => (k, V k)) ∧ ∀ h p, Handle s h p → Handle s' h p := by
  induction hn with
  | nil => intro s h p hi _ _ _ _ _ _; exact ⟨s, rfl, hi, by simp, by simp [Nest.labels], fun _ _ _ => rfl, by simp [Nest.labels], fun _ _ h => h⟩
  | @cons k cs c r h1 h2 ih1 ih2 =>
    intro s h p hi hh hnd hfresh hempty hpre hp
    simp only [Nest.labels, List.nodup_cons, List.nodup_append, List.mem_cons, List.mem_append] at hnd hfresh hempty
    obtain ⟨hk, hndc, hndr, hdis⟩ := hnd
    have hpk : p ≠ some k := by
      rintro rfl
      exact hfresh k (Or.inl rfl) (L.known hh)
    have hpc : ∀ j ∈ c.labels, p ≠ some j := by
      rintro j hj rfl
      exact hfresh j (Or.inr (Or.inl hj)) (L.known hh)
    have hpr : ∀ j ∈ r.labels, p ≠ some j := by
      rintro j hj rfl
      exact hfresh j (Or.inr (Or.inr hj)) (L.known hh)
    have hp1 : forest s p ++ [k] <+: T p := by
      refine List.IsPrefix.trans ?_ hp
      exact ⟨cs, by simp⟩
    obtain ⟨s1, obj, e1, i1, f1, d1, o1, H1, H1'⟩ := L.step hi hh (hfresh k (Or.inl rfl)) hpre hp1 (hempty k (Or.inl rfl))
    have f1p : forest s1 p = forest s p ++ [k] := by rw [f1]; simp [Forest.put, Slot.ins]
    have f1q : ∀ q, q ≠ p → forest s1 q = forest s q := by intro q hq; rw [f1]; simp [Forest.put, hq]
    have hpre1 : ∀ q, forest s1 q <+: T q := by
      intro q
      by_cases hq : q = p
      · rw [hq, f1p]; exact hp1
      · rw [f1q q hq]; exact hpre q
    have f1k : forest s1 (some k) = [] := by rw [f1q _ (Ne.symm hpk)]; exact hempty k (Or.inl rfl)
    obtain ⟨s2, e2, i2, f2p, f2k, f2o, d2, H2⟩ := ih1 (s := s1) (h := some obj) (p := some k) i1 H1 hndc
      (by
        intro j hj
        rw [d1, List.map_append, List.mem_append]
        rintro (hm | hm)
        · exact hfresh j (Or.inr (Or.inl hj)) hm
        · simp only [List.map_cons, List.map_nil, List.mem_singleton] at hm
          exact hk (Or.inl (hm ▸ hj)))
      (by
        intro j hj
        rw [f1q _ (Ne.symm (hpc j hj))]
        exact hempty j (Or.inr (Or.inl hj)))
      hpre1 (by rw [f1k]; exact List.prefix_refl _)
    have f2p' : forest s2 p = forest s p ++ [k] := by
      rw [f2o p hpk hpc, f1p]
    have hpre2 : ∀ q, forest s2 q <+: T q := by
      intro q
      by_cases hq : q = some k
      · rw [hq, f2p, f1k]; exact List.prefix_refl _
      · by_cases hq' : ∃ j ∈ c.labels, q = some j
        · obtain ⟨j, hj, rfl⟩ := hq'
          rw [f2k j hj]; exact List.prefix_refl _
        · rw [f2o q hq (fun j hj e => hq' ⟨j, hj, e⟩)]
          exact hpre1 q
    obtain ⟨s3, e3, i3, f3p, f3k, f3o, d3, H3⟩ := ih2 (s := s2) (h := h) (p := p) i2 (H2 _ _ (H1' _ _ hh)) hndr
      (by
        intro j hj
        rw [d2, d1]
        simp only [List.map_append, List.mem_append, List.map_cons, List.map_nil, List.mem_singleton, List.map_map]
        rintro ((hm | hm) | hm)
        · exact hfresh j (Or.inr (Or.inr hj)) hm
        · exact hk (Or.inr (hm ▸ hj))
        · simp only [List.mem_map, Function.comp_apply] at hm
          obtain ⟨i, hi', e⟩ := hm
          exact hdis i hi' j hj e)
      (by
        intro j hj
        rw [f2o (some j) (by rintro ⟨⟩; exact hk (Or.inr hj)) (by rintro i hi' ⟨⟩; exact hdis _ hi' _ hj rfl),
          f1q _ (Ne.symm (hpr j hj))]
        exact hempty j (Or.inr (Or.inr hj)))
      hpre2 (by rw [f2p']; simpa using hp)
    refine ⟨s3, ?_, i3, ?_, ?_, ?_, ?_, fun h p hh => H3 _ _ (H2 _ _ (H1' _ _ hh))⟩
    · simp only [Nest.map, loadNest, e1, e2, e3, o1, Nest.labels]
    · rw [f3p, f2p']; simp
    · intro j hj
      simp only [Nest.labels, List.mem_cons, List.mem_append] at hj
      rcases hj with rfl | hj | hj
      · rw [f3o (some j) (Ne.symm hpk) (by rintro i hi' ⟨⟩; exact hk (Or.inr hi')), f2p, f1k]; simp
      · rw [f3o (some j) (Ne.symm (hpc j hj)) (by rintro i hi' ⟨⟩; exact hdis _ hj _ hi' rfl)]
        exact f2k j hj
      · exact f3k j hj
    · intro q hq hl
      simp only [Nest.labels, List.mem_cons, List.mem_append] at hl
      rw [f3o q hq (fun j hj => hl j (Or.inr (Or.inr hj))), f2o q (hl k (Or.inl rfl)) (fun j hj => hl j (Or.inr (Or.inl hj))), f1q q hq]
    · rw [d3, d2, d1]; simp [Nest.labels]

/-! ### The forest after loading -/

namespace Nest

/-- the children of the item labelled `k` -/
def kids (k : Nat) : Nest Nat → List Nat
  | nil => []
  | cons a c r => if a = k then c.tops else if k ∈ c.labels then c.kids k else r.kids k

theorem shown_kids {n : Nest Nat} (hnd : n.labels.Nodup) : Shown (fun k => n.kids k) n.tops n := by
  induction n with
  | nil => exact .nil
  | cons a c r ihc ihr =>
    simp only [labels, List.nodup_cons, List.nodup_append, List.mem_append, not_or] at hnd
    obtain ⟨⟨hac, har⟩, hc, hr, hdis⟩ := hnd
    refine .cons ?_ ?_
    · simp only [kids, if_true]
      refine (ihc hc).congr (fun k hk => ?_)
      rw [if_neg (by rintro rfl; exact hac hk), if_pos hk]
    · refine (ihr hr).congr (fun k hk => ?_)
      simp only [kids]
      rw [if_neg (by rintro rfl; exact har hk), if_neg (fun h => hdis k h k hk rfl)]

theorem kids_sub {n : Nest Nat} {k : Nat} : ∀ x ∈ n.kids k, x ∈ n.labels := by
  induction n with
  | nil => simp [kids]
  | cons a c r ihc ihr =>
    intro x hx
    simp only [kids] at hx
    simp only [labels, List.mem_cons, List.mem_append]
    split at hx
    · exact Or.inr (Or.inl (tops_sub hx))
    · split at hx
      · exact Or.inr (Or.inl (ihc x hx))
      · exact Or.inr (Or.inr (ihr x hx))

end Nest

open Classical in
/-- the forest `F` with the structure `n` attached below `p` -/
noncomputable def graft (F : Forest) (p : Option Nat) (n : Nest Nat) : Forest := fun q =>
  if q = p then F p ++ n.tops else match q with
    | none => F none
    | some k => if k ∈ n.labels then n.kids k else F (some k)

theorem graft_at (F : Forest) (p : Option Nat) (n : Nest Nat) : graft F p n p = F p ++ n.tops := by simp [graft]

theorem graft_in {F : Forest} {p : Option Nat} {n : Nest Nat} {k : Nat} (hk : k ∈ n.labels) (hp : p ≠ some k) :
    graft F p n (some k) = n.kids k := by simp [graft, Ne.symm hp, hk]

theorem graft_out {F : Forest} {p : Option Nat} {n : Nest Nat} {q : Option Nat} (hq : q ≠ p) (h : ∀ k ∈ n.labels, q ≠ some k) :
    graft F p n q = F q := by
  cases q with
  | none => simp [graft, hq]
  | some k => simp [graft, hq, show k ∉ n.labels from fun hk => h k hk rfl]

theorem Grafted.eq {F F' : Forest} {p : Option Nat} {n : Nest Nat} (h : Grafted F F' p n)
    (hnd : n.labels.Nodup) : F' = graft F p n := by
  have key : ∀ m : Nest Nat, ∀ cs, Nest.Shown (fun k => F' (some k)) cs m → m.labels.Nodup → ∀ k ∈ m.labels, F' (some k) = m.kids k := by
    intro m cs hm
    induction hm with
    | nil => simp [Nest.labels]
    | @cons a cs c r h1 h2 ih1 ih2 =>
      intro hnd k hk
      simp only [Nest.labels, List.nodup_cons, List.nodup_append, List.mem_append, not_or, List.mem_cons] at hnd hk
      obtain ⟨⟨hac, har⟩, hc, hr, hdis⟩ := hnd
      simp only [Nest.kids]
      rcases hk with rfl | hk | hk
      · rw [if_pos rfl, h1.tops_eq]
      · rw [if_neg (by rintro rfl; exact hac hk), if_pos hk, ih1 hc k hk]
      · rw [if_neg (by rintro rfl; exact har hk), if_neg (fun h => hdis k h k hk rfl), ih2 hr k hk]
  funext q
  by_cases hq : q = p
  · rw [hq, graft_at, h.tops]
  · by_cases hk : ∃ k ∈ n.labels, q = some k
    · obtain ⟨k, hk, rfl⟩ := hk
      rw [graft_in hk (Ne.symm hq), key n _ h.inside hnd k hk]
    · have hk : ∀ k ∈ n.labels, q ≠ some k := fun k h1 h2 => hk ⟨k, h1, h2⟩
      rw [graft_out hq hk, h.others q hq hk]

theorem graft_shown {F : Forest} {p : Option Nat} {n : Nest Nat} (hnd : n.labels.Nodup) (hp : ∀ k ∈ n.labels, p ≠ some k) :
    Nest.Shown (fun k => graft F p n (some k)) n.tops n :=
  (Nest.shown_kids hnd).congr (fun k hk => graft_in hk (hp k hk))

/-- Loading attaches the structure. -/
theorem Loads.grafted {σ ρ : Type} {add : σ → Option ρ → Nat × Vals → Except Err (σ × ρ)} {pk : ρ → Nat} {I : σ → Prop} {forest : σ → Forest}
    {data : σ → List (Nat × Vals)} {Handle : σ → Option ρ → Option Nat → Prop} {V : Nat → Vals} {s : σ} {h : Option ρ} {p : Option Nat} {n : Nest Nat}
    (L : Loads add pk I forest data Handle (graft (forest s) p n) V) (hi : I s) (hh : Handle s h p) (hnd : n.labels.Nodup)
    (hfresh : ∀ k ∈ n.labels, k ∉ (data s).map Prod.fst) (hempty : ∀ k, k ∉ (data s).map Prod.fst → forest s (some k) = []) :
    ∃ s', loadBulk add pk s h (n.map (fun k => (k, V k))) = .ok (s', n.labels) ∧ I s' ∧ Grafted (forest s) (forest s') p n ∧
      data s' = data s ++ n.labels.map (fun k => (k, V k)) := by
  have hp : ∀ k ∈ n.labels, p ≠ some k := by rintro k hk rfl; exact hfresh k hk (L.known hh)
  have hshown := graft_shown (F := forest s) hnd hp
  obtain ⟨s', e, i', f1, f2, f3, d', _⟩ := L.load hshown hi hh hnd hfresh (fun k hk => hempty k (hfresh k hk))
    (fun q => by
      by_cases hq : q = p
      · rw [hq, graft_at]; exact List.prefix_append _ _
      · by_cases hk : ∃ k ∈ n.labels, q = some k
        · obtain ⟨k, hk, rfl⟩ := hk
          rw [hempty k (hfresh k hk)]; exact List.nil_prefix
        · rw [graft_out hq (fun k h1 h2 => hk ⟨k, h1, h2⟩)]; exact List.prefix_refl _)
    (by rw [graft_at]; exact List.prefix_refl _)
  exact ⟨s', by rw [loadBulk_eq]; exact e, i', ⟨f1, hshown.congr (fun k hk => f2 k hk), f3⟩, d'⟩

/-! ### Round trip -/

/-- If the structure shows the whole of `F`, then attaching it to nothing gives `F`. -/
theorem Grafted.whole {F F' : Forest} {n : Nest Nat} (hn : Nest.Shown (fun k => F (some k)) (F none) n) (hnd : n.labels.Nodup)
    (hout : ∀ k, k ∉ n.labels → F (some k) = []) (h : Grafted (fun _ => []) F' none n) : F' = F := by
  have h1 := h.eq hnd
  have h2 : Grafted (fun _ => []) F none n := ⟨by simp [hn.tops_eq], by rw [hn.tops_eq]; exact hn, fun q hq hk => by
    cases q with
    | none => exact absurd rfl hq
    | some k => exact hout k (fun h => hk k h rfl)⟩
  rw [h1, h2.eq hnd]

theorem Nest.Shown.dfs {F : Forest} {cs : List Nat} {n : Nest Nat} (h : Nest.Shown (fun k => F (some k)) cs n) : F.DFS cs n.labels := by
  induction h with
  | nil => exact .nil
  | cons _ _ ih1 ih2 => exact .cons ih1 ih2

theorem Nest.shown_of_dfs {F : Forest} {cs l : List Nat} (h : F.DFS cs l) : ∃ n : Nest Nat, Nest.Shown (fun k => F (some k)) cs n ∧ n.labels = l := by
  induction h with
  | nil => exact ⟨.nil, .nil, rfl⟩
  | cons _ _ ih1 ih2 =>
    obtain ⟨c, hc, ec⟩ := ih1
    obtain ⟨r, hr, er⟩ := ih2
    exact ⟨.cons _ c r, .cons hc hr, by simp [Nest.labels, ec, er]⟩

/-- the prepared structure, with `keep_ids` -/
theorem prepare_keep (v : Nat → Vals) (keys : Nat → Nat) (n : Nest Nat) (i : Nat) :
    prepare true keys i (n.map (fun k => (some k, v k))) = .ok (n.map (fun k => (k, v k)), i) := by
  induction n with
  | nil => rfl
  | cons a c r ihc ihr => simp only [Nest.map, prepare, itemKey, if_true, ihc, ihr]

/-- number the items, each before its children and these before the later items -/
def Nest.number (keys : Nat → Nat) : Nat → Nest α → Nest (Nat × α) × Nat
  | i, .nil => (.nil, i)
  | i, .cons a c r =>
    let c' := Nest.number keys (i + 1) c
    let r' := Nest.number keys c'.2 r
    (.cons (keys i, a) c'.1 r'.1, r'.2)

theorem Nest.number_map (keys : Nat → Nat) (n : Nest α) (i : Nat) : (Nest.number keys i n).1.map Prod.snd = n := by
  induction n generalizing i with
  | nil => rfl
  | cons a c r ihc ihr => simp only [Nest.number, Nest.map, ihc, ihr]

theorem Nest.number_labels (keys : Nat → Nat) (n : Nest α) (i : Nat) :
    ((Nest.number keys i n).1.labels.map Prod.fst = (List.range' i n.labels.length).map keys) ∧ (Nest.number keys i n).2 = i + n.labels.length := by
  induction n generalizing i with
  | nil => exact ⟨rfl, rfl⟩
  | cons a c r ihc ihr =>
    simp only [Nest.number, Nest.labels, List.map_cons, List.map_append, List.length_cons, List.length_append]
    rw [(ihc _).1, (ihr _).1, (ihr _).2, (ihc _).2]
    refine ⟨?_, by omega⟩
    rw [List.range'_succ, List.map_cons, ← List.map_append]
    congr 2
    have := (List.range'_append (s := i + 1) (m := c.labels.length) (n := r.labels.length) (step := 1))
    rw [← this]; simp

/-- the prepared structure, without `keep_ids` -/
theorem prepare_drop (keys : Nat → Nat) (d : Nest Item) (i : Nat) :
    prepare false keys i d = .ok ((Nest.number keys i d).1.map (fun x => (x.1, x.2.2)), (Nest.number keys i d).2) := by
  induction d generalizing i with
  | nil => rfl
  | cons a c r ihc ihr =>
    obtain ⟨pk, v⟩ := a
    simp [Nest.map, prepare, itemKey, Nest.number, ihc, ihr]

end Verif
