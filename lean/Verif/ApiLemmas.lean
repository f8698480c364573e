/-
Histories of all calls: what a backend must give, and what follows for whole histories.
-/
import Verif.ApiModel
import Verif.DumpLemmas
import Verif.TreeLemmas
import Verif.NearForest
import Verif.Height
import Verif.PosLemmas

namespace Verif

theorem slotFor_nil (v : Nat → Vals) (vx : Vals) (l : List Nat) (s : Slot) : slotFor [] v vx l s = s := by
  unfold slotFor; rw [if_pos rfl]

/-- the slot is determined by `FirstBehind` -/
theorem FirstBehind.slotFor {ob : List (Nat × Bool)} (hob : ob ≠ []) {v : Nat → Vals} {vx : Vals} {l : List Nat} {s : Slot}
    (h : FirstBehind ob v vx l s) (asked : Slot) : slotFor ob v vx l asked = s := by
  unfold Verif.slotFor
  rw [if_neg hob]
  rcases h with ⟨l₁, z, l₂, rfl, h1, h2, rfl⟩ | ⟨h1, rfl⟩
  · have : (l₁ ++ z :: l₂).find? (fun a => decide (Behind ob vx (v a))) = some z := by
      rw [List.find?_eq_some_iff_append]
      exact ⟨by simpa using h2, l₁, l₂, rfl, fun a ha => by simpa using h1 a ha⟩
    rw [this]
  · have : l.find? (fun a => decide (Behind ob vx (v a))) = none := by
      rw [List.find?_eq_none]
      intro a ha
      simpa using h1 a ha
    rw [this]

/-! ### Loading, seen from the specification -/

theorem mem_put {F : Forest} {p q : Option Nat} {s : Slot} {k j : Nat} (h : j ∈ F.put p s k q) : j = k ∨ j ∈ F q := by
  unfold Forest.put at h
  split at h
  · rename_i e
    subst e
    exact Forest.mem_ins h
  · exact Or.inr h

theorem put_other {F : Forest} {p q : Option Nat} {s : Slot} {k : Nat} (h : q ≠ p) : F.put p s k q = F q := by
  unfold Forest.put; rw [if_neg h]

/-- nothing new comes below a node but the new node -/
theorem desc_put {F : Forest} {p : Option Nat} {s : Slot} {k : Nat} (hk : F (some k) = []) (hp : p ≠ some k) {a g : Nat}
    (h : (F.put p s k).Desc a g) : g = k ∨ F.Desc a g := by
  induction h with
  | child hm => exact (mem_put hm).imp id .child
  | step _ hm ih =>
    rcases ih with rfl | ih
    · rw [put_other (fun e => hp e.symm), hk] at hm; cases hm
    · exact (mem_put hm).imp id (.step ih)

namespace STree

theorem loadAny_data (ob : List (Nat × Bool)) (n : Nest (Nat × Vals)) : ∀ (a : STree) (p : Option Nat), (a.loadAny ob p n).data = a.data ++ n.labels := by
  induction n with
  | nil => intro a p; simp [loadAny, Nest.labels]
  | cons x n r ihn ihr =>
    intro a p
    obtain ⟨k, v⟩ := x
    simp [loadAny, ihn, ihr, addAny, Nest.labels]

/-- nodes without children stay so, unless they are the parent or new -/
theorem loadAny_leaf (ob : List (Nat × Bool)) (n : Nest (Nat × Vals)) : ∀ (a : STree) (p : Option Nat) (j : Nat), a.F (some j) = [] → p ≠ some j →
    j ∉ n.labels.map Prod.fst → (a.loadAny ob p n).F (some j) = [] := by
  induction n with
  | nil => intro a p j h _ _; exact h
  | cons x n r ihn ihr =>
    obtain ⟨k, v⟩ := x
    intro a p j h hp hj
    simp only [Nest.labels, List.map_cons, List.map_append, List.mem_cons, List.mem_append, not_or] at hj
    refine ihr _ _ _ (ihn _ _ _ ?_ (by simpa using fun e => hj.1 e.symm) hj.2.1) hp hj.2.2
    show (a.F.put _ _ _) _ = _
    rw [put_other (fun e => hp e.symm)]
    exact h

theorem loadAny_desc (ob : List (Nat × Bool)) (n : Nest (Nat × Vals)) : ∀ (a : STree) (p : Option Nat), (n.labels.map Prod.fst).Nodup →
    (∀ e ∈ n.labels, a.F (some e.1) = [] ∧ p ≠ some e.1) → ∀ {x g : Nat}, (a.loadAny ob p n).F.Desc x g →
    g ∈ n.labels.map Prod.fst ∨ a.F.Desc x g := by
  induction n with
  | nil => intro a p _ _ x g h; exact Or.inr h
  | cons y n r ihn ihr =>
    obtain ⟨k, v⟩ := y
    intro a p hnd hl x g h
    simp only [Nest.labels, List.map_cons, List.map_append, List.nodup_cons, List.nodup_append, List.mem_cons, List.mem_append, not_or] at hnd hl ⊢
    obtain ⟨⟨hkn, hkr⟩, hndn, hndr, hdis⟩ := hnd
    have hk := hl _ (Or.inl rfl)
    have h1 : ∀ e : Nat × Vals, (e ∈ n.labels ∨ e ∈ r.labels) → (a.addAny ob p .last k v).F (some e.1) = [] := by
      intro e he
      show (a.F.put _ _ _) _ = _
      rw [put_other (fun e' => (hl e (Or.inr he)).2 e'.symm)]
      exact (hl e (Or.inr he)).1
    rcases ihr _ _ hndr (by
        intro e he
        refine ⟨loadAny_leaf ob n _ _ _ (h1 e (Or.inr he)) ?_ ?_, (hl e (Or.inr (Or.inr he))).2⟩
        · rintro ⟨⟩; exact hkr (List.mem_map_of_mem he)
        · intro hm; exact hdis _ hm _ (List.mem_map_of_mem he) rfl) h with h | h
    · exact Or.inl (Or.inr (Or.inr h))
    · rcases ihn _ _ hndn (by
          intro e he
          refine ⟨h1 e (Or.inl he), ?_⟩
          rintro ⟨⟩; exact hkn (List.mem_map_of_mem he)) h with h | h
      · exact Or.inl (Or.inr (Or.inl h))
      · rcases desc_put (F := a.F) hk.1 hk.2 h with h | h
        · exact Or.inl (Or.inl h)
        · exact Or.inr h

end STree

/-- What a backend must give, seen from the specification: `Sh` relates tables to what they show, `V` says that an object can be used as the
parent of new nodes. -/
structure Sim {σ ρ : Type} (c : Calls σ ρ) (ob : List (Nat × Bool)) (Sh : σ → STree → Prop) (V : σ → ρ → Prop)
    (G : σ → ApiOp → Prop) (full : Err → Bool) : Prop where
  known : ∀ {s a}, Sh s a → ∀ k, k ∈ a.ids ↔ ∃ r, c.fetch s k = some r
  fetched : ∀ {s a k r}, Sh s a → c.fetch s k = some r → V s r ∧ c.pk r = k
  valid : ∀ {s a r}, Sh s a → V s r → c.pk r ∈ a.ids
  leaf : ∀ {s a k}, Sh s a → k ∉ a.ids → a.F (some k) = []
  add : ∀ {s a h k v}, Sh s a → (∀ r, h = some r → V s r) → k ∉ a.ids →
    (∃ s' obj, c.addTo s h (k, v) = .ok (s', obj) ∧ Sh s' (a.addAny ob (h.map c.pk) .last k v) ∧ V s' obj ∧ c.pk obj = k ∧
      (∀ r, h = some r → V s' r) ∧ ∀ g r, V s g → h = some r → ¬ a.F.Desc (c.pk r) (c.pk g) → V s' g) ∨
    ∃ e, c.addTo s h (k, v) = .error e ∧ full e = true
  sibling : ∀ {s a t target k v}, Sh s a → c.fetch s t = some target → k ∉ a.ids → ∀ posArg,
    match preparePosForAddSibling (decide (ob ≠ [])) posArg with
    | .error e => c.addSibling s target posArg (k, v) = .error e
    | .ok pos => (∃ s', c.addSibling s target posArg (k, v) = .ok s' ∧ Sh s' (a.addAny ob (a.parent t) (sibAsked t pos) k v)) ∨
        ∃ e, c.addSibling s target posArg (k, v) = .error e ∧ full e = true
  move : ∀ {s a x t node target posArg}, Sh s a → c.fetch s x = some node → c.fetch s t = some target → G s (.tree (.move x t posArg)) →
    match preparePosForMove (decide (ob ≠ [])) posArg with
    | .error e => c.move s node target posArg = .error e
    | .ok pos =>
      (a.F.MoveRefused x t pos → ∃ e, c.move s node target posArg = .error e) ∧
      (¬ a.F.MoveRefused x t pos →
        (∃ s', c.move s node target posArg = .ok s' ∧ Sh s' ⟨a.data, a.moveAny ob x (a.parent t) t pos⟩) ∨
         ∃ e, c.move s node target posArg = .error e ∧ full e = true)
  delete : ∀ {s a}, Sh s a → ∀ S, Sh (c.delete s S) (a.stepApi ob (.tree (.delete S)))
  save : ∀ {s a k r}, Sh s a → c.fetch s k = some r → ∀ v, ∃ s', c.save s r v = .ok s' ∧ Sh s' ⟨editData a.data k v, a.F⟩
  fix : ∀ {s a p r paths}, Sh s a → G s (.fixTree p paths) → c.fetchParent s p = .ok r →
    (∃ s', c.fixTree s r paths = .ok s' ∧ Sh s' a) ∨ ∃ e, c.fixTree s r paths = .error e

section
variable {σ ρ : Type} {c : Calls σ ρ} {ob : List (Nat × Bool)} {Sh : σ → STree → Prop} {V : σ → ρ → Prop}
  {G : σ → ApiOp → Prop} {full : Err → Bool}

/-- loading: everything is there, or one of the errors `full` -/
theorem Sim.load (H : Sim c ob Sh V G full) (n : Nest (Nat × Vals)) : ∀ {s : σ} {h : Option ρ} {a : STree}, Sh s a →
    (∀ r, h = some r → V s r) → (n.labels.map Prod.fst).Nodup → (∀ e ∈ n.labels, e.1 ∉ a.ids) →
    (∃ s' l, loadNest c.addTo c.pk s h n = .ok (s', l) ∧ Sh s' (a.loadAny ob (h.map c.pk) n) ∧ (∀ r, h = some r → V s' r) ∧
      ∀ g r, V s g → h = some r → ¬ a.F.Desc (c.pk r) (c.pk g) → V s' g) ∨
    ∃ e, loadNest c.addTo c.pk s h n = .error e ∧ full e = true := by
  induction n with
  | nil =>
    intro s h a hs hh _ _
    exact Or.inl ⟨s, [], rfl, hs, hh, fun g r hg _ _ => hg⟩
  | cons x n r ihn ihr =>
    obtain ⟨k, v⟩ := x
    intro s h a hs hh hnd hfresh
    have hleaf : ∀ e ∈ (Nest.cons (k, v) n r).labels, a.F (some e.1) = [] ∧ h.map c.pk ≠ some e.1 := by
      intro e he
      refine ⟨H.leaf hs (hfresh e he), fun heq => hfresh e he ?_⟩
      obtain ⟨q, hq, hqk⟩ := Option.map_eq_some_iff.1 heq
      rw [← hqk]
      exact H.valid hs (hh q hq)
    simp only [Nest.labels, List.map_cons, List.map_append, List.nodup_cons, List.nodup_append, List.mem_cons, List.mem_append, not_or] at hnd hfresh hleaf
    obtain ⟨⟨hkn, hkr⟩, hndn, hndr, hdis⟩ := hnd
    have hk := hleaf _ (Or.inl rfl)
    simp only [loadNest, STree.loadAny]
    rcases H.add (v := v) hs hh (hfresh _ (Or.inl rfl)) with ⟨s1, obj, e1, h1, hv1, hpk, hr1, hg1⟩ | ⟨e, e1, hfull⟩
    · rw [e1]
      simp only
      have hids1 : (a.addAny ob (h.map c.pk) .last k v).ids = a.ids ++ [k] := by simp [STree.ids, STree.addAny]
      have hk1 : ∀ g, ¬ (a.addAny ob (h.map c.pk) .last k v).F.Desc k g := by
        have hnil : (a.addAny ob (h.map c.pk) .last k v).F (some k) = [] := by
          show (a.F.put _ _ _) _ = _
          rw [put_other (fun e => hk.2 e.symm)]
          exact hk.1
        intro g hd
        have : ∀ {x g}, (a.addAny ob (h.map c.pk) .last k v).F.Desc x g → x ≠ k := by
          intro x g hd
          induction hd with
          | child hm => rintro rfl; rw [hnil] at hm; cases hm
          | step _ _ ih => exact ih
        exact this hd rfl
      rcases ihn (s := s1) (h := some obj) h1 (by rintro q ⟨⟩; exact hv1) hndn (by
          intro e he hm
          rw [hids1, List.mem_append, List.mem_singleton] at hm
          rcases hm with hm | hm
          · exact hfresh e (Or.inr (Or.inl he)) hm
          · exact hkn (hm ▸ List.mem_map_of_mem he)) with ⟨s2, l2, e2, h2, _, hg2⟩ | ⟨e, e2, hfull⟩
      · rw [e2]
        simp only
        rw [Option.map_some, hpk] at h2
        have hg2' : ∀ g, V s1 g → V s2 g := fun g hg => hg2 g obj hg rfl (by rw [hpk]; exact hk1 _)
        rcases ihr (s := s2) (h := h) h2 (fun q hq => hg2' q (hr1 q hq)) hndr (by
            intro e he hm
            rw [STree.ids, STree.loadAny_data] at hm
            simp only [STree.addAny, List.map_append, List.mem_append, List.map_cons, List.map_nil, List.mem_singleton] at hm
            rcases hm with (hm | hm) | hm
            · exact hfresh e (Or.inr (Or.inr he)) hm
            · exact hkr (hm ▸ List.mem_map_of_mem he)
            · exact hdis _ hm _ (List.mem_map_of_mem he) rfl) with ⟨s3, l3, e3, h3, hr3, hg3⟩ | ⟨e, e3, hfull⟩
        · rw [e3]
          refine Or.inl ⟨s3, _, rfl, h3, hr3, ?_⟩
          intro g q hg hq hd
          refine hg3 g q (hg2' g (hg1 g q hg hq hd)) hq ?_
          have hga := H.valid hs hg
          intro hd2
          rcases STree.loadAny_desc ob n _ _ hndn (by
              intro e he
              refine ⟨?_, ?_⟩
              · show (a.F.put _ _ _) _ = _
                rw [put_other (fun e' => (hleaf e (Or.inr (Or.inl he))).2 e'.symm)]
                exact (hleaf e (Or.inr (Or.inl he))).1
              · rintro ⟨⟩; exact hkn (List.mem_map_of_mem he)) hd2 with hm | hd1
          · obtain ⟨e, he, hek⟩ := List.mem_map.1 hm
            exact hfresh e (Or.inr (Or.inl he)) (hek ▸ hga)
          · rcases desc_put (F := a.F) hk.1 hk.2 hd1 with hm | hd0
            · exact hfresh _ (Or.inl rfl) (hm ▸ hga)
            · exact hd hd0
        · rw [e3]; exact Or.inr ⟨e, rfl, hfull⟩
      · rw [e2]; exact Or.inr ⟨e, rfl, hfull⟩
    · rw [e1]; exact Or.inr ⟨e, rfl, hfull⟩

/-- One call: the table shows what was asked for, or the call raised one of the errors `full` and the table is the same. -/
theorem Sim.step (H : Sim c ob Sh V G full) {s : σ} {a : STree} {op : ApiOp} (hs : Sh s a) (hg : G s op) :
    Sh (c.step s op) (a.stepApi ob op) ∨ (c.step s op = s ∧ ∃ e, c.exec s op = .error e ∧ full e = true) := by
  classical
  have hin : ∀ {k r}, c.fetch s k = some r → k ∈ a.ids := fun e => (H.known hs _).2 ⟨_, e⟩
  have hout : ∀ {k}, c.fetch s k = none → k ∉ a.ids := fun e hk => by
    obtain ⟨r, e'⟩ := (H.known hs _).1 hk
    rw [e] at e'; cases e'
  have raise : ∀ {e}, c.exec s op = .error e → full e = true →
      Sh (c.step s op) (a.stepApi ob op) ∨ (c.step s op = s ∧ ∃ e, c.exec s op = .error e ∧ full e = true) := by
    intro e he hf
    have : c.step s op = s := by unfold Calls.step; rw [he]
    exact Or.inr ⟨this, e, he, hf⟩
  have same : ∀ {e}, c.exec s op = .error e → a.stepApi ob op = a →
      Sh (c.step s op) (a.stepApi ob op) ∨ (c.step s op = s ∧ ∃ e, c.exec s op = .error e ∧ full e = true) := by
    intro e he h
    have : c.step s op = s := by unfold Calls.step; rw [he]
    rw [this, h]
    exact Or.inl hs
  have done : ∀ {s'}, c.exec s op = .ok s' → Sh s' (a.stepApi ob op) →
      Sh (c.step s op) (a.stepApi ob op) ∨ (c.step s op = s ∧ ∃ e, c.exec s op = .error e ∧ full e = true) := by
    intro s' he h2
    have : c.step s op = s' := by unfold Calls.step; rw [he]
    rw [this]
    exact Or.inl h2
  cases op with
  | tree op =>
    cases op with
    | addRoot k v =>
      cases e : c.fetch s k with
      | some r => exact same (e := .integrity) (by simp only [Calls.exec, e]) (by simp only [STree.stepApi]; rw [if_pos (hin e)])
      | none =>
        rcases H.add (s := s) (h := none) (k := k) (v := v) hs (by simp) (hout e) with ⟨s', obj, e1, h1, _⟩ | ⟨er, e1, hfull⟩
        · refine done (s' := s') (by simp only [Calls.exec, e, e1]; rfl) ?_
          simp only [STree.stepApi]
          rw [if_neg (hout e)]
          exact h1
        · exact raise (e := er) (by simp only [Calls.exec, e, e1]; rfl) hfull
    | addChild t k v =>
      cases et : c.fetch s t with
      | none =>
        refine same (e := .doesNotExist) (by simp only [Calls.exec, et]) ?_
        simp only [STree.stepApi]
        rw [if_pos (Or.inr (hout et))]
      | some target =>
        cases e : c.fetch s k with
        | some r => exact same (e := .integrity) (by simp only [Calls.exec, et, e]) (by simp only [STree.stepApi]; rw [if_pos (Or.inl (hin e))])
        | none =>
          obtain ⟨hv, hpk⟩ := H.fetched hs et
          rcases H.add (s := s) (h := some target) (k := k) (v := v) hs (by rintro r ⟨⟩; exact hv) (hout e) with ⟨s', obj, e1, h1, _⟩ | ⟨er, e1, hfull⟩
          · refine done (s' := s') (by simp only [Calls.exec, et, e, e1]; rfl) ?_
            simp only [STree.stepApi]
            rw [if_neg (by rintro (h | h); exacts [hout e h, h (hin et)])]
            rw [Option.map_some, hpk] at h1
            exact h1
          · exact raise (e := er) (by simp only [Calls.exec, et, e, e1]; rfl) hfull
    | addSibling t pos k v =>
      cases et : c.fetch s t with
      | none =>
        refine same (e := .doesNotExist) (by simp only [Calls.exec, et]) ?_
        simp only [STree.stepApi]
        rw [if_pos (Or.inr (hout et))]
      | some target =>
        cases e : c.fetch s k with
        | some r => exact same (e := .integrity) (by simp only [Calls.exec, et, e]) (by simp only [STree.stepApi]; rw [if_pos (Or.inl (hin e))])
        | none =>
          have hx : c.exec s (.tree (.addSibling t pos k v)) = c.addSibling s target pos (k, v) := by simp only [Calls.exec, et, e]
          have hstep : a.stepApi ob (.tree (.addSibling t pos k v)) = match preparePosForAddSibling (decide (ob ≠ [])) pos with
              | .error _ => a
              | .ok pos => a.addAny ob (a.parent t) (sibAsked t pos) k v := by
            simp only [STree.stepApi]
            rw [if_neg (by rintro (h | h); exacts [hout e h, h (hin et)])]
            cases preparePosForAddSibling (decide (ob ≠ [])) pos <;> rfl
          have := H.sibling (s := s) (k := k) (v := v) hs et (hout e) pos
          cases hp : preparePosForAddSibling (decide (ob ≠ [])) pos with
          | error er =>
            rw [hp] at this hstep
            exact same (by rw [hx]; exact this) hstep
          | ok q =>
            rw [hp] at this hstep
            rcases this with ⟨s', e1, h1⟩ | ⟨er, e1, hfull⟩
            · exact done (by rw [hx]; exact e1) (by rw [hstep]; exact h1)
            · exact raise (by rw [hx]; exact e1) hfull
    | move x t pos =>
      cases et : c.fetch s t with
      | none =>
        refine same (e := .doesNotExist) (by cases ex : c.fetch s x <;> simp only [Calls.exec, et, ex]) ?_
        simp only [STree.stepApi]
        rw [if_pos (Or.inr (hout et))]
      | some target =>
        cases e : c.fetch s x with
        | none => exact same (e := .doesNotExist) (by simp only [Calls.exec, e]) (by simp only [STree.stepApi]; rw [if_pos (Or.inl (hout e))])
        | some node =>
          have hx : c.exec s (.tree (.move x t pos)) = c.move s node target pos := by simp only [Calls.exec, et, e]
          have hstep : a.stepApi ob (.tree (.move x t pos)) = match preparePosForMove (decide (ob ≠ [])) pos with
              | .error _ => a
              | .ok pos => if a.F.MoveRefused x t pos then a else ⟨a.data, a.moveAny ob x (a.parent t) t pos⟩ := by
            simp only [STree.stepApi]
            rw [if_neg (by rintro (h | h); exacts [h (hin e), h (hin et)])]
            cases preparePosForMove (decide (ob ≠ [])) pos <;> rfl
          have := H.move hs e et hg
          cases hp : preparePosForMove (decide (ob ≠ [])) pos with
          | error er =>
            rw [hp] at this hstep
            exact same (by rw [hx]; exact this) hstep
          | ok q =>
            rw [hp] at this hstep
            simp only at this hstep
            by_cases hr : a.F.MoveRefused x t q
            · obtain ⟨er, e1⟩ := this.1 hr
              refine same (by rw [hx]; exact e1) ?_
              rw [hstep, if_pos hr]
            · rcases this.2 hr with ⟨s', e1, h1⟩ | ⟨er, e1, hfull⟩
              · refine done (by rw [hx]; exact e1) ?_
                rw [hstep, if_neg hr]
                exact h1
              · exact raise (by rw [hx]; exact e1) hfull
    | delete S => exact done (s' := c.delete s S) rfl (H.delete hs S)
  | edit k v =>
    cases e : c.fetch s k with
    | none => exact same (e := .doesNotExist) (by simp only [Calls.exec, e]) (by simp only [STree.stepApi]; rw [if_neg (hout e)])
    | some r =>
      obtain ⟨s', e1, h1⟩ := H.save hs e v
      refine done (s' := s') (by simp only [Calls.exec, e, e1]) ?_
      simp only [STree.stepApi]
      rw [if_pos (hin e)]
      exact h1
  | load p n =>
    have hfp : (∃ r, c.fetchParent s p = .ok r ∧ r.map c.pk = p ∧ ∀ q, r = some q → V s q) ∨
        (c.fetchParent s p = .error .doesNotExist ∧ ¬ ∀ t ∈ p, t ∈ a.ids) := by
      cases p with
      | none => exact Or.inl ⟨none, rfl, rfl, by simp⟩
      | some t =>
        cases et : c.fetch s t with
        | none =>
          right
          refine ⟨by simp only [Calls.fetchParent, et], fun h => hout et (h t rfl)⟩
        | some r =>
          left
          refine ⟨some r, by simp only [Calls.fetchParent, et], by rw [Option.map_some, (H.fetched hs et).2], ?_⟩
          rintro q ⟨⟩
          exact (H.fetched hs et).1
    rcases hfp with ⟨r, er, hr, hrk⟩ | ⟨er, hno⟩
    · by_cases hok : (n.labels.map Prod.fst).Nodup ∧ n.labels.all (fun e => (c.fetch s e.1).isNone) = true
      · have hfresh : ∀ e ∈ n.labels, e.1 ∉ a.ids := by
          intro e he
          have := List.all_eq_true.1 hok.2 e he
          exact hout (Option.isNone_iff_eq_none.1 this)
        have hx : c.exec s (.load p n) = (loadNest c.addTo c.pk s r n).map (·.1) := by
          simp only [Calls.exec, er]
          rw [if_pos hok, loadBulk_eq]
        rcases H.load n hs hrk hok.1 hfresh with ⟨s', l, e1, h1, _⟩ | ⟨e, e1, hfull⟩
        · refine done (s' := s') (by rw [hx, e1]; rfl) ?_
          have hl : a.Loadable p n := by
            refine ⟨?_, hok.1, hfresh⟩
            intro t ht
            cases r with
            | none =>
              rw [Option.map_none] at hr
              rw [← hr] at ht
              cases ht
            | some q =>
              rw [Option.map_some] at hr
              rw [← hr] at ht
              cases ht
              exact H.valid hs (hrk q rfl)
          rw [hr] at h1
          simp only [STree.stepApi]
          rw [if_pos hl]
          exact h1
        · exact raise (by rw [hx, e1]; rfl) hfull
      · refine same (e := .integrity) (by simp only [Calls.exec, er]; rw [if_neg hok]) ?_
        simp only [STree.stepApi]
        rw [if_neg]
        rintro ⟨_, h2, h3⟩
        refine hok ⟨h2, List.all_eq_true.2 (fun e he => ?_)⟩
        cases ef : c.fetch s e.1 with
        | none => rfl
        | some q => exact absurd (hin ef) (h3 e he)
    · refine same (e := .doesNotExist) (by simp only [Calls.exec, er]) ?_
      simp only [STree.stepApi]
      rw [if_neg (fun h => hno h.1)]
  | fixTree p paths =>
    cases er : c.fetchParent s p with
    | error e => exact same (e := e) (by simp only [Calls.exec, er]) rfl
    | ok r =>
      rcases H.fix hs hg er with ⟨s', e1, h1⟩ | ⟨e, e1⟩
      · exact done (s' := s') (by simp only [Calls.exec, er, e1]) h1
      · exact same (e := e) (by simp only [Calls.exec, er, e1]) rfl

/-- **Whole histories**: the table shows what the calls that were made asked for; the others changed nothing. -/
theorem Sim.run (H : Sim c ob Sh V G full) (ops : List ApiOp) : ∀ {s : σ} {a : STree}, Sh s a → c.Guarded G s ops →
    Sh (c.run s ops) (a.runApi ob (c.made full s ops)) := by
  induction ops with
  | nil => intro s a hs _; exact hs
  | cons op ops ih =>
    intro s a hs hg
    obtain ⟨hg1, hg2⟩ := hg
    have hrun : c.run s (op :: ops) = c.run (c.step s op) ops := rfl
    rw [hrun]
    simp only [Calls.made]
    rcases H.step hs hg1 with h2 | ⟨h2, e, he, hf⟩
    · cases hx : c.exec s op with
      | ok s' => exact ih h2 hg2
      | error e =>
        have hsame : c.step s op = s := by unfold Calls.step; rw [hx]
        simp only
        split
        · rw [hsame] at hg2 ⊢
          exact ih hs hg2
        · exact ih h2 hg2
    · rw [he]
      simp only
      rw [if_pos hf]
      rw [h2] at hg2 ⊢
      exact ih hs hg2

theorem Calls.made_all (c : Calls σ ρ) (s : σ) (ops : List ApiOp) : c.made (fun _ => false) s ops = ops := by
  induction ops generalizing s with
  | nil => rfl
  | cons op ops ih =>
    simp only [Calls.made, ih]
    split <;> simp

end

/-! ### Backends that keep the order of siblings -/

/-- What the calls of a backend give on consistent tables (`Ok`): what was asked for, or one of the errors `full` and no change. -/
structure Contract {σ ρ : Type} (c : Calls σ ρ) (ob : List (Nat × Bool)) (forest : σ → Forest) (data : σ → List (Nat × Vals)) (Ok : σ → Prop)
    (G : σ → ApiOp → Prop) (full : Err → Bool) : Prop where
  known : ∀ {s}, Ok s → ∀ k, k ∈ (data s).map Prod.fst ↔ ∃ r, c.fetch s k = some r
  pk : ∀ {s k r}, Ok s → c.fetch s k = some r → c.pk r = k
  unique : ∀ {s p q k}, Ok s → k ∈ forest s p → k ∈ forest s q → p = q
  parents : ∀ {s p k}, Ok s → k ∈ forest s (some p) → p ∈ (data s).map Prod.fst
  add : ∀ {s h k v}, Ok s → (∀ r, h = some r → c.pk r ∈ (data s).map Prod.fst) → k ∉ (data s).map Prod.fst →
    (∃ s' obj, c.addTo s h (k, v) = .ok (s', obj) ∧ Ok s' ∧ c.pk obj = k ∧ data s' = data s ++ [(k, v)] ∧
      forest s' = (forest s).put (h.map c.pk) (slotFor ob (valsIn (data s)) v (forest s (h.map c.pk)) .last) k) ∨
    ∃ e, c.addTo s h (k, v) = .error e ∧ full e = true
  sibling : ∀ {s t target k v}, Ok s → c.fetch s t = some target → k ∉ (data s).map Prod.fst → ∀ posArg,
    match preparePosForAddSibling (decide (ob ≠ [])) posArg with
    | .error e => c.addSibling s target posArg (k, v) = .error e
    | .ok pos => ∃ p, t ∈ forest s p ∧
      ((∃ s', c.addSibling s target posArg (k, v) = .ok s' ∧ Ok s' ∧ data s' = data s ++ [(k, v)] ∧
        forest s' = (forest s).put p (slotFor ob (valsIn (data s)) v (forest s p) (sibAsked t pos)) k) ∨
       ∃ e, c.addSibling s target posArg (k, v) = .error e ∧ full e = true)
  move : ∀ {s x t node target posArg}, Ok s → c.fetch s x = some node → c.fetch s t = some target → G s (.tree (.move x t posArg)) →
    match preparePosForMove (decide (ob ≠ [])) posArg with
    | .error e => c.move s node target posArg = .error e
    | .ok pos =>
      ((forest s).MoveRefused x t pos → ∃ e, c.move s node target posArg = .error e) ∧
      (¬ (forest s).MoveRefused x t pos → ∃ p, t ∈ forest s p ∧
        ((∃ s', c.move s node target posArg = .ok s' ∧ Ok s' ∧ data s' = data s ∧
          forest s' = STree.moveAny ob ⟨data s, forest s⟩ x p t pos) ∨
         ∃ e, c.move s node target posArg = .error e ∧ full e = true))
  delete : ∀ {s}, Ok s → ∀ S, ∃ D : Nat → Bool, (∀ k, D k = true ↔ k ∈ (data s).map Prod.fst ∧ Tree.Doomed (forest s) S.contains k) ∧
    Ok (c.delete s S) ∧ forest (c.delete s S) = (forest s).prune D ∧ data (c.delete s S) = (data s).filter (fun e => !D e.1)
  save : ∀ {s k r}, Ok s → c.fetch s k = some r → ∀ v, ∃ s', c.save s r v = .ok s' ∧ Ok s' ∧ forest s' = forest s ∧
    data s' = editData (data s) k v
  fix : ∀ {s p r paths}, Ok s → G s (.fixTree p paths) → c.fetchParent s p = .ok r →
    (∃ s', c.fixTree s r paths = .ok s' ∧ Ok s' ∧ forest s' = forest s ∧ data s' = data s) ∨ ∃ e, c.fixTree s r paths = .error e

section
variable {σ ρ : Type} {c : Calls σ ρ} {ob : List (Nat × Bool)} {forest : σ → Forest} {data : σ → List (Nat × Vals)} {Ok : σ → Prop}
  {G : σ → ApiOp → Prop} {full : Err → Bool}

theorem Contract.sim (H : Contract c ob forest data Ok G full) :
    Sim c ob (fun s a => Ok s ∧ ShowsSTree (forest s) (data s) a) (fun s r => c.pk r ∈ (data s).map Prod.fst) G full := by
  classical
  have hids : ∀ {s a}, ShowsSTree (forest s) (data s) a → a.ids = (data s).map Prod.fst := fun ha => by rw [STree.ids, ha.data]
  have hpar : ∀ {s a p t}, Ok s → ShowsSTree (forest s) (data s) a → t ∈ forest s p → a.parent t = p := fun {s a p t} hs ha ht =>
    Tree.parent_eq (s := ⟨a.ids, a.F⟩) (F := forest s) (ids := (data s).map Prod.fst) (fun p q k h1 h2 => H.unique hs h1 h2)
      (fun p k hk => H.parents hs hk) ha.forest (fun k => by rw [← hids ha]) ht
  refine ⟨?_, ?_, ?_, ?_, ?_, ?_, ?_, ?_, ?_, ?_⟩
  · rintro s a ⟨hs, ha⟩ k
    rw [hids ha]
    exact H.known hs k
  · rintro s a k r ⟨hs, ha⟩ e
    have := H.pk hs e
    exact ⟨by rw [this]; exact (H.known hs _).2 ⟨_, e⟩, this⟩
  · rintro s a r ⟨hs, ha⟩ hr
    rw [hids ha]; exact hr
  · rintro s a k ⟨hs, ha⟩ hk
    rw [hids ha] at hk
    rw [← ha.forest]
    exact List.eq_nil_iff_forall_not_mem.2 (fun j hj => hk (H.parents hs hj))
  · rintro s a h k v ⟨hs, ha⟩ hh hk
    rw [hids ha] at hk
    rcases H.add (v := v) hs hh hk with ⟨s', obj, e1, h1, hpk, hd, hf⟩ | ⟨e, e1, hfull⟩
    · have hsub : ∀ j ∈ (data s).map Prod.fst, j ∈ (data s').map Prod.fst := by
        intro j hj; rw [hd, List.map_append]; exact List.mem_append_left _ hj
      refine Or.inl ⟨s', obj, e1, ⟨h1, ⟨?_, ?_⟩⟩, ?_, hpk, fun r hr => hsub _ (hh r hr), fun g r hg _ _ => hsub _ hg⟩
      · rw [hf, ha.forest, ha.data]; rfl
      · rw [hd, ha.data]; rfl
      · rw [hpk, hd]; simp
    · exact Or.inr ⟨e, e1, hfull⟩
  · rintro s a t target k v ⟨hs, ha⟩ et hk posArg
    rw [hids ha] at hk
    have := H.sibling (v := v) hs et hk posArg
    cases hp : preparePosForAddSibling (decide (ob ≠ [])) posArg with
    | error er => rw [hp] at this; exact this
    | ok q =>
      rw [hp] at this
      obtain ⟨p, hmem, ⟨s', e1, h1, hd, hf⟩ | ⟨er, e1, hfull⟩⟩ := this
      · refine Or.inl ⟨s', e1, h1, ?_⟩
        rw [hpar hs ha hmem]
        exact ⟨by rw [hf, ha.forest, ha.data]; rfl, by rw [hd, ha.data]; rfl⟩
      · exact Or.inr ⟨er, e1, hfull⟩
  · rintro s a x t node target posArg ⟨hs, ha⟩ e et hg
    have := H.move hs e et hg
    cases hp : preparePosForMove (decide (ob ≠ [])) posArg with
    | error er => rw [hp] at this; exact this
    | ok q =>
      rw [hp] at this
      simp only at this ⊢
      rw [← ha.forest]
      refine ⟨this.1, fun hr => ?_⟩
      obtain ⟨p, hmem, ⟨s', e1, h1, hd, hf⟩ | ⟨er, e1, hfull⟩⟩ := this.2 hr
      · refine Or.inl ⟨s', e1, h1, ?_⟩
        rw [hpar hs ha hmem]
        refine ⟨?_, by rw [hd, ha.data]⟩
        rw [hf]
        show STree.moveAny ob ⟨data s, forest s⟩ x p t q = STree.moveAny ob a x p t q
        rw [ha.forest, ha.data]
      · exact Or.inr ⟨er, e1, hfull⟩
  · rintro s a ⟨hs, ha⟩ S
    obtain ⟨D, hD, h1, hf, hd⟩ := H.delete hs S
    refine ⟨h1, ?_, ?_⟩
    · rw [hf]
      simp only [STree.stepApi]
      rw [ha.forest]
      congr 1
      funext k
      rw [Bool.eq_iff_iff, hD, decide_eq_true_eq, hids ha, ha.forest]
    · rw [hd]
      simp only [STree.stepApi]
      rw [← ha.data]
      apply List.filter_congr
      intro e he
      have hm : e.1 ∈ (data s).map Prod.fst := List.mem_map_of_mem he
      rw [Bool.eq_iff_iff, Bool.not_eq_true', Bool.not_eq_true', Bool.eq_false_iff, decide_eq_false_iff_not, Ne, hD, ha.forest]
      simp [hm]
  · rintro s a k r ⟨hs, ha⟩ e v
    obtain ⟨s', e1, h1, hf, hd⟩ := H.save hs e v
    exact ⟨s', e1, h1, by rw [hf, ha.forest], by rw [hd, ha.data]⟩
  · rintro s a p r paths ⟨hs, ha⟩ hg er
    rcases H.fix hs hg er with ⟨s', e1, h1, hf, hd⟩ | h
    · exact Or.inl ⟨s', e1, h1, by rw [hf, ha.forest], by rw [hd, ha.data]⟩
    · exact Or.inr h

/-- **Whole histories**: the table is consistent and shows what the calls that were made asked for; the others changed nothing. -/
theorem Contract.run (H : Contract c ob forest data Ok G full) (ops : List ApiOp) {s : σ} {a : STree} (hs : Ok s) (hg : c.Guarded G s ops)
    (ha : ShowsSTree (forest s) (data s) a) :
    Ok (c.run s ops) ∧ ShowsSTree (forest (c.run s ops)) (data (c.run s ops)) (a.runApi ob (c.made full s ops)) :=
  H.sim.run ops ⟨hs, ha⟩ hg

end

/-! ### Backends that keep parents, but not always the order of siblings -/

/-- The table shows the data, and the same parents. -/
structure ShowsNear (F : Forest) (D : List (Nat × Vals)) (s : STree) : Prop where
  forest : s.F.Near F
  data : D = s.data

/-- What the calls give: what was asked for up to the order of siblings, or one of the errors `full` and no change. -/
structure NearContract {σ ρ : Type} (c : Calls σ ρ) (ob : List (Nat × Bool)) (forest : σ → Forest) (data : σ → List (Nat × Vals)) (Ok : σ → Prop)
    (V : σ → ρ → Prop) (full : Err → Bool) : Prop where
  known : ∀ {s}, Ok s → ∀ k, k ∈ (data s).map Prod.fst ↔ ∃ r, c.fetch s k = some r
  fetched : ∀ {s k r}, Ok s → c.fetch s k = some r → V s r ∧ c.pk r = k
  valid : ∀ {s r}, Ok s → V s r → c.pk r ∈ (data s).map Prod.fst
  unique : ∀ {s p q k}, Ok s → k ∈ forest s p → k ∈ forest s q → p = q
  parents : ∀ {s p k}, Ok s → k ∈ forest s (some p) → p ∈ (data s).map Prod.fst
  add : ∀ {s h k v}, Ok s → (∀ r, h = some r → V s r) → k ∉ (data s).map Prod.fst →
    (∃ s' obj, c.addTo s h (k, v) = .ok (s', obj) ∧ Ok s' ∧ V s' obj ∧ c.pk obj = k ∧ data s' = data s ++ [(k, v)] ∧
      ((forest s).put (h.map c.pk) .last k).Near (forest s') ∧
      (∀ r, h = some r → V s' r) ∧ ∀ g r, V s g → h = some r → ¬ (forest s).Desc (c.pk r) (c.pk g) → V s' g) ∨
    ∃ e, c.addTo s h (k, v) = .error e ∧ full e = true
  sibling : ∀ {s t target k v}, Ok s → c.fetch s t = some target → k ∉ (data s).map Prod.fst → ∀ posArg,
    match preparePosForAddSibling (decide (ob ≠ [])) posArg with
    | .error e => c.addSibling s target posArg (k, v) = .error e
    | .ok _ => ∃ p, t ∈ forest s p ∧
      ((∃ s', c.addSibling s target posArg (k, v) = .ok s' ∧ Ok s' ∧ data s' = data s ++ [(k, v)] ∧
        ((forest s).put p .last k).Near (forest s')) ∨
       ∃ e, c.addSibling s target posArg (k, v) = .error e ∧ full e = true)
  move : ∀ {s x t node target posArg}, Ok s → c.fetch s x = some node → c.fetch s t = some target →
    match preparePosForMove (decide (ob ≠ [])) posArg with
    | .error e => c.move s node target posArg = .error e
    | .ok pos =>
      ((forest s).MoveRefused x t pos → ∃ e, c.move s node target posArg = .error e) ∧
      (¬ (forest s).MoveRefused x t pos → ∃ p, t ∈ forest s p ∧
        ((∃ s', c.move s node target posArg = .ok s' ∧ Ok s' ∧ data s' = data s ∧
          ((forest s).move x (pos.dest p t) .last).Near (forest s')) ∨
         ∃ e, c.move s node target posArg = .error e ∧ full e = true))
  nodup : ∀ {s}, Ok s → ∀ p, (forest s p).Nodup
  delete : ∀ {s}, Ok s → ∀ S, ∃ D : Nat → Bool, (∀ k, D k = true ↔ k ∈ (data s).map Prod.fst ∧ Tree.Doomed (forest s) S.contains k) ∧
    Ok (c.delete s S) ∧ ((forest s).prune D).Near (forest (c.delete s S)) ∧ data (c.delete s S) = (data s).filter (fun e => !D e.1)
  save : ∀ {s k r}, Ok s → c.fetch s k = some r → ∀ v, ∃ s', c.save s r v = .ok s' ∧ Ok s' ∧ (forest s).Near (forest s') ∧
    data s' = editData (data s) k v
  fix : ∀ {s r paths}, Ok s → ∃ e, c.fixTree s r paths = .error e

theorem slotFor_in {ob : List (Nat × Bool)} (v : Nat → Vals) (vx : Vals) (l : List Nat) {asked : Slot} (h : asked.In l) :
    (slotFor ob v vx l asked).In l := by
  unfold slotFor
  split
  · exact h
  · split
    · rename_i a e; exact List.mem_of_find?_eq_some e
    · trivial

/-- the place among the siblings does not matter -/
theorem moveAny_near {ob : List (Nat × Bool)} {a : STree} {x t : Nat} {p : Option Nat} {pos : Pos} {posArg : Option Pos}
    (hp : preparePosForMove (decide (ob ≠ [])) posArg = .ok pos) (hnd : ∀ q, (a.F q).Nodup) (ht : t ∈ a.F p)
    (hu : ∀ q, t ∈ a.F q → q = p) :
    (a.F.move x (pos.dest p t) .last).Near (a.moveAny ob x p t pos) := by
  unfold STree.moveAny
  have key : ∀ {q : Option Nat} {s : Slot}, s.In (a.F.remove x q) → (a.F.move x q .last).Near (a.F.move x q s) :=
    fun hs => (Forest.Near.refl (a.F.remove x)).put (s := .last) trivial hs x
  split
  · rename_i ho
    subst ho
    have hsame : t = x → (a.F.move x p .last).Near a.F := by
      rintro rfl
      intro q
      by_cases e : q = p
      · subst e
        have e1 : (a.F.move t q .last) q = a.F.remove t q ++ [t] := by unfold Forest.move Forest.put; rw [if_pos rfl]; rfl
        have e2 : a.F.remove t q = (a.F q).erase t := by
          rw [(hnd q).erase_eq_filter]
          unfold Forest.remove
          apply List.filter_congr
          intro y _
          rw [Bool.eq_iff_iff]
          simp
        rw [e1, e2]
        exact (List.perm_cons_erase ht).trans (List.perm_append_singleton _ _).symm
      · have e1 : (a.F.move t p .last) q = a.F q := by
          unfold Forest.move
          rw [put_other e]
          unfold Forest.remove
          rw [List.filter_eq_self]
          intro y hy
          simp only [ne_eq, decide_eq_true_eq]
          rintro rfl
          exact e (hu q hy)
        rw [e1]
    obtain ⟨hplain, _⟩ := prepMove_arg (by simpa using hp)
    cases pos with
    | firstChild => exact key trivial
    | lastChild => exact key trivial
    | firstSibling => exact key trivial
    | lastSibling => exact key trivial
    | left =>
      show (a.F.move x p .last).Near (if t = x then a.F else a.F.move x p (.before t))
      split
      · exact hsame (by assumption)
      · exact key (s := .before t) (Forest.mem_remove ht (by assumption))
    | right =>
      show (a.F.move x p .last).Near (if t = x then a.F else a.F.move x p (.after t))
      split
      · exact hsame (by assumption)
      · exact key (s := .after t) (Forest.mem_remove ht (by assumption))
    | sortedChild => simp [IsPlainPos, IsSibPos] at hplain
    | sortedSibling => simp [IsPlainPos, IsSibPos] at hplain
    | other n => simp [IsPlainPos, IsSibPos] at hplain
  · exact key (slotFor_in _ _ _ trivial)

section
variable {σ ρ : Type} {c : Calls σ ρ} {ob : List (Nat × Bool)} {forest : σ → Forest} {data : σ → List (Nat × Vals)} {Ok : σ → Prop}
  {V : σ → ρ → Prop} {full : Err → Bool}

theorem NearContract.sim (H : NearContract c ob forest data Ok V full) :
    Sim c ob (fun s a => Ok s ∧ ShowsNear (forest s) (data s) a) V (fun _ _ => True) full := by
  classical
  have hids : ∀ {s a}, ShowsNear (forest s) (data s) a → a.ids = (data s).map Prod.fst := fun ha => by rw [STree.ids, ha.data]
  have hpar : ∀ {s a p t}, Ok s → ShowsNear (forest s) (data s) a → t ∈ forest s p → a.parent t = p := fun {s a p t} hs ha ht =>
    Tree.parent_near (s := ⟨a.ids, a.F⟩) (F := forest s) (ids := (data s).map Prod.fst) (fun p q k h1 h2 => H.unique hs h1 h2)
      (fun p k hk => H.parents hs hk) ha.forest (fun k => by rw [← hids ha]) ht
  have hput : ∀ {s a s' p k v} {asked : Slot}, ShowsNear (forest s) (data s) a → asked.In (forest s p) →
      data s' = data s ++ [(k, v)] → ((forest s).put p .last k).Near (forest s') → ShowsNear (forest s') (data s') (a.addAny ob p asked k v) := by
    intro s a s' p k v asked ha has hd hn
    refine ⟨(ha.forest.put (slotFor_in _ _ _ ?_) (s' := .last) trivial k).trans hn, by rw [hd, ha.data]; rfl⟩
    cases asked with
    | before t => exact ha.forest.mem.1 has
    | after t => exact ha.forest.mem.1 has
    | _ => trivial
  refine ⟨?_, ?_, ?_, ?_, ?_, ?_, ?_, ?_, ?_, ?_⟩
  · rintro s a ⟨hs, ha⟩ k
    rw [hids ha]
    exact H.known hs k
  · rintro s a k r ⟨hs, ha⟩ e
    exact H.fetched hs e
  · rintro s a r ⟨hs, ha⟩ hr
    rw [hids ha]; exact H.valid hs hr
  · rintro s a k ⟨hs, ha⟩ hk
    rw [hids ha] at hk
    exact List.eq_nil_iff_forall_not_mem.2 (fun j hj => hk (H.parents hs (ha.forest.mem.2 hj)))
  · rintro s a h k v ⟨hs, ha⟩ hh hk
    rw [hids ha] at hk
    rcases H.add (v := v) hs hh hk with ⟨s', obj, e1, h1, hv, hpk, hd, hf, hr, hg⟩ | ⟨e, e1, hfull⟩
    · exact Or.inl ⟨s', obj, e1, ⟨h1, hput ha trivial hd hf⟩, hv, hpk, hr, fun g r hg' hr' hd' => hg g r hg' hr' (fun hd => hd' (ha.forest.desc.1 hd))⟩
    · exact Or.inr ⟨e, e1, hfull⟩
  · rintro s a t target k v ⟨hs, ha⟩ et hk posArg
    rw [hids ha] at hk
    have := H.sibling (v := v) hs et hk posArg
    cases hp : preparePosForAddSibling (decide (ob ≠ [])) posArg with
    | error er => rw [hp] at this; exact this
    | ok q =>
      rw [hp] at this
      obtain ⟨p, hmem, ⟨s', e1, h1, hd, hf⟩ | ⟨er, e1, hfull⟩⟩ := this
      · refine Or.inl ⟨s', e1, h1, ?_⟩
        rw [hpar hs ha hmem]
        refine hput ha ?_ hd hf
        cases q <;> trivial
      · exact Or.inr ⟨er, e1, hfull⟩
  · rintro s a x t node target posArg ⟨hs, ha⟩ e et _
    have := H.move (posArg := posArg) hs e et
    cases hp : preparePosForMove (decide (ob ≠ [])) posArg with
    | error er => rw [hp] at this; exact this
    | ok q =>
      rw [hp] at this
      simp only at this ⊢
      rw [← ha.forest.moveRefused]
      refine ⟨this.1, fun hr => ?_⟩
      obtain ⟨p, hmem, ⟨s', e1, h1, hd, hf⟩ | ⟨er, e1, hfull⟩⟩ := this.2 hr
      · refine Or.inl ⟨s', e1, h1, ?_, by rw [hd, ha.data]⟩
        rw [hpar hs ha hmem]
        refine Forest.Near.trans (moveAny_near hp (fun p => ((ha.forest p).nodup_iff).1 (H.nodup hs p)) (ha.forest.mem.1 hmem)
          (fun q hq => H.unique hs (ha.forest.mem.2 hq) hmem)).symm ?_
        exact ((ha.forest.remove x).put (s := .last) (s' := .last) trivial trivial x).trans hf
      · exact Or.inr ⟨er, e1, hfull⟩
  · rintro s a ⟨hs, ha⟩ S
    obtain ⟨D, hD, h1, hf, hd⟩ := H.delete hs S
    refine ⟨h1, ?_, ?_⟩
    · simp only [STree.stepApi]
      refine Forest.Near.trans ?_ hf
      rw [show (fun k => decide (k ∈ a.ids ∧ Tree.Doomed a.F S.contains k)) = D from ?_]
      · exact ha.forest.prune D
      · funext k
        rw [Bool.eq_iff_iff, hD, decide_eq_true_eq, hids ha, ha.forest.doomed]
    · rw [hd]
      simp only [STree.stepApi]
      rw [← ha.data]
      apply List.filter_congr
      intro e he
      have hm : e.1 ∈ (data s).map Prod.fst := List.mem_map_of_mem he
      rw [Bool.eq_iff_iff, Bool.not_eq_true', Bool.not_eq_true', Bool.eq_false_iff, decide_eq_false_iff_not, Ne, hD, ha.forest.doomed]
      simp [hm]
  · rintro s a k r ⟨hs, ha⟩ e v
    obtain ⟨s', e1, h1, hf, hd⟩ := H.save hs e v
    exact ⟨s', e1, h1, ha.forest.trans hf, by rw [hd, ha.data]⟩
  · rintro s a p r paths ⟨hs, ha⟩ hg er
    exact Or.inr (H.fix hs)

theorem Calls.guarded_true (c : Calls σ ρ) (s : σ) (ops : List ApiOp) : c.Guarded (fun _ _ => True) s ops := by
  induction ops generalizing s with
  | nil => trivial
  | cons op ops ih => exact ⟨trivial, ih _⟩

/-- **Whole histories**: the table is consistent and shows what the calls that were made asked for, up to the order of siblings; the others
changed nothing. -/
theorem NearContract.run (H : NearContract c ob forest data Ok V full) (ops : List ApiOp) {s : σ} {a : STree} (hs : Ok s)
    (ha : ShowsNear (forest s) (data s) a) :
    Ok (c.run s ops) ∧ ShowsNear (forest (c.run s ops)) (data (c.run s ops)) (a.runApi ob (c.made full s ops)) :=
  H.sim.run ops ⟨hs, ha⟩ (c.guarded_true _ _)

end

end Verif
