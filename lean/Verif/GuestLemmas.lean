/-
What calls that concern only guests leave as it was.
-/
import Verif.SpecGuests
import Verif.ApiLemmas
import Verif.PageLemmas

namespace Verif

variable {V : Nat → Bool}

theorem filter_guest_before {t k : Nat} (hk : V k = true) (l : List Nat) :
    (insertBefore t k l).filter (fun y => !V y) = l.filter (fun y => !V y) := by
  induction l with
  | nil => rfl
  | cons y ys ih =>
    unfold insertBefore
    split
    · simp [hk]
    · rw [List.filter_cons, List.filter_cons, ih]

theorem filter_guest_after {t k : Nat} (hk : V k = true) (l : List Nat) :
    (insertAfter t k l).filter (fun y => !V y) = l.filter (fun y => !V y) := by
  induction l with
  | nil => rfl
  | cons y ys ih =>
    unfold insertAfter
    split
    · simp [List.filter_cons, hk]
    · rw [List.filter_cons, List.filter_cons, ih]

theorem filter_guest_ins {k : Nat} (hk : V k = true) (s : Slot) (l : List Nat) :
    (s.ins k l).filter (fun y => !V y) = l.filter (fun y => !V y) := by
  cases s with
  | first => simp [Slot.ins, hk]
  | last => simp [Slot.ins, List.filter_append, hk]
  | before t => exact filter_guest_before hk l
  | after t => exact filter_guest_after hk l

namespace STree

/-- without the guests, the tree is `s` -/
structure Hosts (V : Nat → Bool) (s s' : STree) : Prop where
  forest : ∀ p, (s'.F p).filter (fun y => !V y) = s.F p
  data : s'.data.filter (fun e => !V e.1) = s.data

variable {s s' : STree}

theorem Hosts.refl (hs : ∀ p, ∀ k ∈ s.F p, V k = false) (hd : ∀ k ∈ s.ids, V k = false) : Hosts V s s :=
  ⟨fun p => List.filter_eq_self.2 fun k hk => by rw [hs p k hk]; rfl,
   List.filter_eq_self.2 fun e he => by rw [hd e.1 (List.mem_map_of_mem he)]; rfl⟩

theorem Hosts.put {F : Forest} (h : ∀ p, (F p).filter (fun y => !V y) = s.F p) {k : Nat} (hk : V k = true) (q : Option Nat) (sl : Slot) (p : Option Nat) :
    (F.put q sl k p).filter (fun y => !V y) = s.F p := by
  unfold Forest.put
  split
  · rw [filter_guest_ins hk, h]
  · exact h p

theorem Hosts.move {F : Forest} (h : ∀ p, (F p).filter (fun y => !V y) = s.F p) {k : Nat} (hk : V k = true) (q : Option Nat) (sl : Slot) (p : Option Nat) :
    (F.move k q sl p).filter (fun y => !V y) = s.F p := by
  refine Hosts.put (fun p => ?_) hk q sl p
  unfold Forest.remove
  rw [List.filter_filter, ← h]
  refine List.filter_congr fun y _ => ?_
  by_cases hy : y = k
  · subst hy; simp [hk]
  · simp [hy]

theorem Hosts.addAny (h : Hosts V s s') (ob : List (Nat × Bool)) (p : Option Nat) (sl : Slot) {k : Nat} (hk : V k = true) (v : Vals) :
    Hosts V s (s'.addAny ob p sl k v) :=
  ⟨Hosts.put h.forest hk _ _, by unfold STree.addAny; rw [List.filter_append, h.data]; simp [hk]⟩

theorem Hosts.moveAny (h : Hosts V s s') (ob : List (Nat × Bool)) {x : Nat} (hx : V x = true) (p : Option Nat) (t : Nat) (pos : Pos) (q : Option Nat) :
    (s'.moveAny ob x p t pos q).filter (fun y => !V y) = s.F q := by
  unfold STree.moveAny
  split
  · cases pos <;> simp only [Forest.moveAsked, Forest.sibMove]
    case left | right =>
      split
      · exact h.forest q
      · exact Hosts.move h.forest hx _ _ q
    all_goals first | exact Hosts.move h.forest hx _ _ q | exact h.forest q
  · exact Hosts.move h.forest hx _ _ q

theorem Hosts.loadAny (ob : List (Nat × Bool)) (data : Nest (Nat × Vals)) : ∀ {s' : STree} (_ : Hosts V s s') (p : Option Nat),
    (∀ e ∈ data.labels, V e.1 = true) → Hosts V s (s'.loadAny ob p data) := by
  induction data with
  | nil => intro s' h p _; exact h
  | cons a c r ihc ihr =>
    intro s' h p hv
    obtain ⟨k, v⟩ := a
    unfold STree.loadAny
    refine ihr (ihc (h.addAny ob p .last (hv (k, v) (by simp [Nest.labels])) v) _ fun e he => hv e ?_) _ fun e he => hv e ?_
    · simp [Nest.labels, he]
    · simp [Nest.labels, he]

/-- below a guest are guests only -/
theorem Hosts.desc (h : Hosts V s s') (hs : ∀ q, V q = true → s.F (some q) = []) {q k : Nat} (hq : V q = true) (hd : s'.F.Desc q k) : V k = true := by
  have one : ∀ {q k}, V q = true → k ∈ s'.F (some q) → V k = true := by
    intro q k hq hk
    have e := h.forest (some q)
    rw [hs q hq, List.filter_eq_nil_iff] at e
    simpa using e k hk
  induction hd with
  | child hk => exact one hq hk
  | step _ hk ih => exact one ih hk

theorem Hosts.doomed (h : Hosts V s s') (hs : ∀ q, V q = true → s.F (some q) = []) {S : List Nat} (hS : ∀ k ∈ S, V k = true) {k : Nat}
    (hd : Tree.Doomed s'.F S.contains k) : V k = true := by
  rcases hd with hd | ⟨q, hq, hd⟩
  · exact hS k (by simpa using hd)
  · exact h.desc hs (hS q (by simpa using hq)) hd

theorem Hosts.prune (h : Hosts V s s') (hs : ∀ q, V q = true → s.F (some q) = []) {D : Nat → Bool} (hD : ∀ k, D k = true → V k = true) (p : Option Nat) :
    (s'.F.prune D p).filter (fun y => !V y) = s.F p := by
  have key : ∀ p, ((s'.F p).filter (fun y => !D y)).filter (fun y => !V y) = s.F p := by
    intro p
    rw [List.filter_filter, ← h.forest]
    refine List.filter_congr fun y _ => ?_
    cases hy : D y
    · simp
    · simp [hD y hy]
  cases p with
  | none => exact key none
  | some q =>
    show (if D q = true then [] else (s'.F (some q)).filter (fun y => !D y)).filter _ = _
    split
    · rename_i hq; rw [hs q (hD q hq)]; rfl
    · exact key (some q)

theorem Hosts.step (h : Hosts V s s') (hs : ∀ q, V q = true → s.F (some q) = []) (ob : List (Nat × Bool)) {op : ApiOp} (ho : op.Only V) :
    Hosts V s (s'.stepApi ob op) := by
  classical
  cases op with
  | tree op =>
    cases op with
    | addRoot k v => simp only [stepApi]; split; exacts [h, h.addAny ob _ _ ho v]
    | addChild t k v => simp only [stepApi]; split; exacts [h, h.addAny ob _ _ ho v]
    | addSibling t pos k v =>
      simp only [stepApi]
      split
      · exact h
      · split
        · exact h
        · exact h.addAny ob _ _ ho v
    | move x t pos =>
      simp only [stepApi]
      split
      · exact h
      · split
        · exact h
        · split
          · exact h
          · exact ⟨h.moveAny ob ho _ _ _, h.data⟩
    | delete S =>
      simp only [stepApi]
      refine ⟨h.prune hs fun k hk => ?_, ?_⟩
      · rw [decide_eq_true_eq] at hk
        exact h.doomed hs ho hk.2
      · show (s'.data.filter _).filter _ = _
        rw [List.filter_filter, ← h.data]
        refine List.filter_congr fun e _ => ?_
        by_cases hd : Tree.Doomed s'.F S.contains e.1
        · simp [h.doomed hs ho hd]
        · simp [hd]
  | edit k v =>
    simp only [stepApi]
    split
    · refine ⟨h.forest, ?_⟩
      have hk : V k = true := ho
      show (editData s'.data k v).filter _ = _
      unfold editData
      rw [List.filter_map, ← h.data]
      have : (s'.data.filter ((fun e => !V e.1) ∘ fun e => if e.1 = k then (k, v) else e)) = s'.data.filter (fun e => !V e.1) := by
        refine List.filter_congr fun e _ => ?_
        simp only [Function.comp_apply]
        split
        · rename_i he; rw [he]
        · rfl
      rw [this]
      refine (List.map_congr_left fun e he => ?_).trans (List.map_id _)
      rw [if_neg]
      · rfl
      · rintro rfl
        simp [hk] at he
    · exact h
  | load p data => simp only [stepApi]; split; exacts [Hosts.loadAny ob data h p ho, h]
  | fixTree p b => exact h

theorem Hosts.run (hs : ∀ q, V q = true → s.F (some q) = []) (ob : List (Nat × Bool)) (ops : List ApiOp) : ∀ {s' : STree} (_ : Hosts V s s'),
    (∀ op ∈ ops, op.Only V) → Hosts V s (s'.runApi ob ops) := by
  induction ops with
  | nil => intro s' h _; exact h
  | cons op ops ih =>
    intro s' h ho
    exact ih (h.step hs ob (ho op (List.mem_cons_self ..))) fun o hm => ho o (List.mem_cons_of_mem _ hm)

/-- the guests leave: the tree is as before they came -/
theorem Hosts.leave {L : List Nat} (h : Hosts L.contains s s') (hs : ∀ q, L.contains q = true → s.F (some q) = []) (hin : ∀ p, ∀ k ∈ s'.F p, k ∈ s'.ids)
    (ob : List (Nat × Bool)) : s'.stepApi ob (.tree (.delete L)) = s := by
  classical
  have hd : ∀ k, Tree.Doomed s'.F L.contains k ↔ L.contains k = true :=
    fun k => ⟨h.doomed hs (fun k hk => by simpa using hk), Or.inl⟩
  have hF : ∀ D : Nat → Bool, (∀ k, D k = true ↔ k ∈ s'.ids ∧ Tree.Doomed s'.F L.contains k) → s'.F.prune D = s.F := by
    intro D hD
    funext p
    have key : ∀ p, (s'.F p).filter (fun y => !D y) = s.F p := by
      intro p
      rw [← h.forest]
      refine List.filter_congr fun y hy => ?_
      congr 1
      rw [Bool.eq_iff_iff, hD, hd]
      exact ⟨And.right, fun hl => ⟨hin p y hy, hl⟩⟩
    cases p with
    | none => exact key none
    | some q =>
      show (if D q = true then [] else _) = _
      split
      · rename_i hq
        rw [hD, hd] at hq
        exact (hs q hq.2).symm
      · exact key (some q)
  have hD : ∀ D : Nat × Vals → Bool, (∀ e, D e = true ↔ Tree.Doomed s'.F L.contains e.1) → s'.data.filter (fun e => !D e) = s.data := by
    intro D hD
    rw [← h.data]
    refine List.filter_congr fun e _ => ?_
    congr 1
    rw [Bool.eq_iff_iff, hD, hd]
  simp only [stepApi]
  rw [hF _ fun k => decide_eq_true_iff, hD _ fun e => decide_eq_true_iff]

end STree

section
variable {σ ρ : Type}

theorem Calls.made_delete (c : Calls σ ρ) (full : Err → Bool) (L : List Nat) (ops : List ApiOp) : ∀ s : σ,
    c.made full s (ops ++ [.tree (.delete L)]) = c.made full s ops ++ [.tree (.delete L)] := by
  induction ops with
  | nil => intro s; rfl
  | cons op ops ih =>
    intro s
    simp only [List.cons_append, Calls.made, ih]
    split
    · split <;> rfl
    · rfl

theorem Calls.mem_made (c : Calls σ ρ) (full : Err → Bool) {op : ApiOp} (ops : List ApiOp) : ∀ s : σ, op ∈ c.made full s ops → op ∈ ops := by
  induction ops with
  | nil => intro s h; exact h
  | cons o ops ih =>
    intro s h
    simp only [Calls.made] at h
    split at h
    · split at h
      · exact List.mem_cons_of_mem _ (ih _ h)
      · rcases List.mem_cons.1 h with rfl | h
        · exact List.mem_cons_self ..
        · exact List.mem_cons_of_mem _ (ih _ h)
    · rcases List.mem_cons.1 h with rfl | h
      · exact List.mem_cons_self ..
      · exact List.mem_cons_of_mem _ (ih _ h)

theorem Calls.guarded_delete (c : Calls σ ρ) {G : σ → ApiOp → Prop} {L : List Nat} (hG : ∀ s, G s (.tree (.delete L))) (ops : List ApiOp) : ∀ s : σ,
    c.Guarded G s ops → c.Guarded G s (ops ++ [.tree (.delete L)]) := by
  induction ops with
  | nil => intro s _; exact ⟨hG s, trivial⟩
  | cons op ops ih => intro s h; exact ⟨h.1, ih _ h.2⟩

end

namespace STree

theorem runApi_snoc (ob : List (Nat × Bool)) (s : STree) (ops : List ApiOp) (op : ApiOp) : s.runApi ob (ops ++ [op]) = (s.runApi ob ops).stepApi ob op := by
  unfold runApi
  rw [List.foldl_append]
  rfl

/-- what is shared by the four trees -/
theorem guests_leave {D : List (Nat × Vals)} {F F' : Forest} {ids' L : List Nat} {ob : List (Nat × Bool)} {ops : List ApiOp} (hF : F.IsForestOn (D.map Prod.fst))
    (hL : ∀ k ∈ L, k ∉ D.map Prod.fst) (ho : ∀ op ∈ ops, op.Only L.contains) (hF' : F'.IsForestOn ids')
    (hn : (runApi ob ⟨D, F⟩ ops).F.Near F') (hi : ids' = (runApi ob ⟨D, F⟩ ops).ids) : runApi ob ⟨D, F⟩ (ops ++ [.tree (.delete L)]) = ⟨D, F⟩ := by
  rw [runApi_snoc]
  have hs : ∀ q, L.contains q = true → F (some q) = [] := fun q hq => hF.outside q (hL q (by simpa using hq))
  have hv : ∀ k ∈ D.map Prod.fst, L.contains k = false := fun k hk => by
    rw [Bool.eq_false_iff]
    intro hc
    exact hL k (by simpa using hc) hk
  refine Hosts.leave (Hosts.run (s := ⟨D, F⟩) hs ob ops (Hosts.refl (fun p k hk => hv k (hF.good.sub _ _ hk)) hv) ho) hs (fun p k hk => ?_) ob
  rw [← hi]
  exact hF'.good.sub p k ((hn p).mem_iff.2 hk)

end STree

end Verif
