/-
Values outside of `node_order_by` do not matter to the tree.
-/
import Verif.SpecTwin

namespace Verif

variable {ob : List (Nat × Bool)}

theorem TwinVals.tail {e : Nat × Bool} {v w : Vals} (h : TwinVals (e :: ob) v w) : TwinVals ob v w := fun a ha => h a (List.mem_cons_of_mem _ ha)

theorem TwinVals.filter {v w : Vals} (h : TwinVals ob v w) (P : Nat × Bool → Bool) : TwinVals (ob.filter P) v w := fun a ha => h a (List.mem_filter.1 ha).1

theorem keyLt_twin {a a' b b' : Vals} (ha : TwinVals ob a a') (hb : TwinVals ob b b') : keyLt ob a b ↔ keyLt ob a' b' := by
  induction ob with
  | nil => rfl
  | cons e ob ih =>
    obtain ⟨f, d⟩ := e
    unfold keyLt
    rw [ha (f, d) (List.mem_cons_self ..), hb (f, d) (List.mem_cons_self ..), ih ha.tail hb.tail]

theorem behind_twin {a a' b b' : Vals} (ha : TwinVals ob a a') (hb : TwinVals ob b b') : Behind ob a b ↔ Behind ob a' b' := by
  have e : ob.filter (fun e => (fieldOf a e.1).isSome) = ob.filter (fun e => (fieldOf a' e.1).isSome) :=
    List.filter_congr fun e he => by rw [ha e he]
  unfold Behind
  rw [← e]
  refine or_congr ⟨fun h e he => (ha e he).symm.trans (h e he), fun h e he => (ha e he).trans (h e he)⟩ (keyLt_twin (ha.filter _) (hb.filter _))

theorem TwinData.keys {D D' : List (Nat × Vals)} (h : TwinData ob D D') : D.map Prod.fst = D'.map Prod.fst := by
  induction h with
  | nil => rfl
  | cons h _ ih => rw [List.map_cons, List.map_cons, h.1, ih]

theorem TwinData.vals {D D' : List (Nat × Vals)} (h : TwinData ob D D') (k : Nat) : TwinVals ob (valsIn D k) (valsIn D' k) := by
  induction h with
  | nil => exact fun _ _ => rfl
  | @cons a b D D' h _ ih =>
    obtain ⟨k1, v⟩ := a
    obtain ⟨k2, w⟩ := b
    obtain ⟨rfl, h⟩ := h
    unfold valsIn at *
    rw [List.lookup_cons, List.lookup_cons]
    cases hk : k == k1
    · exact ih
    · exact h

theorem TwinData.filter {D D' : List (Nat × Vals)} (h : TwinData ob D D') (P : Nat → Bool) : TwinData ob (D.filter fun e => P e.1) (D'.filter fun e => P e.1) := by
  induction h with
  | nil => exact .nil
  | @cons a b D D' h _ ih =>
    rw [List.filter_cons, List.filter_cons, h.1]
    split
    · exact .cons h ih
    · exact ih

theorem TwinData.edit {D D' : List (Nat × Vals)} (h : TwinData ob D D') (k : Nat) {v w : Vals} (hv : TwinVals ob v w) : TwinData ob (editData D k v) (editData D' k w) := by
  induction h with
  | nil => exact .nil
  | @cons a b D D' h _ ih =>
    refine .cons ?_ ih
    show (if a.1 = k then (k, v) else a).1 = (if b.1 = k then (k, w) else b).1 ∧ TwinVals ob (if a.1 = k then (k, v) else a).2 (if b.1 = k then (k, w) else b).2
    rw [h.1]
    split
    · exact ⟨rfl, hv⟩
    · exact h

theorem TwinData.refl (D : List (Nat × Vals)) : TwinData ob D D := by
  induction D with
  | nil => exact .nil
  | cons a D ih => exact .cons ⟨rfl, fun _ _ => rfl⟩ ih

theorem slotFor_twin {v v' : Nat → Vals} {x x' : Vals} (hv : ∀ k, TwinVals ob (v k) (v' k)) (hx : TwinVals ob x x') (l : List Nat) (s : Slot) :
    slotFor ob v x l s = slotFor ob v' x' l s := by
  have : (fun a => decide (Behind ob x (v a))) = fun a => decide (Behind ob x' (v' a)) := by
    funext a
    rw [Bool.eq_iff_iff, decide_eq_true_eq, decide_eq_true_eq, behind_twin hx (hv a)]
  unfold slotFor
  rw [this]

theorem TwinNest.keys {d d' : Nest (Nat × Vals)} (h : TwinNest ob d d') : d.labels.map Prod.fst = d'.labels.map Prod.fst := by
  induction h with
  | nil => rfl
  | cons _ _ _ ih1 ih2 => simp only [Nest.labels, List.map_cons, List.map_append, ih1, ih2]

namespace STree

/-- the same tree, with twins as values -/
structure Twins (ob : List (Nat × Bool)) (s s' : STree) : Prop where
  forest : s.F = s'.F
  data : TwinData ob s.data s'.data

variable {s s' : STree}

theorem Twins.ids (h : Twins ob s s') : s.ids = s'.ids := h.data.keys

theorem Twins.parent (h : Twins ob s s') (t : Nat) : s.parent t = s'.parent t := by unfold STree.parent; rw [h.ids, h.forest]

theorem Twins.addAny (h : Twins ob s s') (p : Option Nat) (sl : Slot) (k : Nat) {v w : Vals} (hv : TwinVals ob v w) :
    Twins ob (s.addAny ob p sl k v) (s'.addAny ob p sl k w) :=
  ⟨by unfold STree.addAny; rw [h.forest, slotFor_twin h.data.vals hv], List.rel_append h.data (.cons ⟨rfl, hv⟩ .nil)⟩

theorem Twins.moveAny (h : Twins ob s s') (x : Nat) (p : Option Nat) (t : Nat) (pos : Pos) : s.moveAny ob x p t pos = s'.moveAny ob x p t pos := by
  unfold STree.moveAny
  rw [h.forest, slotFor_twin h.data.vals (h.data.vals x)]

theorem Twins.loadAny {d d' : Nest (Nat × Vals)} (hd : TwinNest ob d d') : ∀ {s s' : STree} (_ : Twins ob s s') (p : Option Nat),
    Twins ob (s.loadAny ob p d) (s'.loadAny ob p d') := by
  induction hd with
  | nil => intro s s' h p; exact h
  | cons hv _ _ ih1 ih2 => intro s s' h p; exact ih2 (ih1 (h.addAny p .last _ hv) _) p

theorem Twins.loadable (h : Twins ob s s') {d d' : Nest (Nat × Vals)} (hd : TwinNest ob d d') (p : Option Nat) : s.Loadable p d ↔ s'.Loadable p d' := by
  have key : ∀ d : Nest (Nat × Vals), (∀ e ∈ d.labels, e.1 ∉ s'.ids) ↔ ∀ k ∈ d.labels.map Prod.fst, k ∉ s'.ids := by
    intro d
    simp only [List.mem_map, forall_exists_index, and_imp, forall_apply_eq_imp_iff₂]
  unfold Loadable
  rw [h.ids, key, key, hd.keys]

theorem Twins.step (h : Twins ob s s') {a b : ApiOp} (ho : TwinOp ob a b) : Twins ob (s.stepApi ob a) (s'.stepApi ob b) := by
  classical
  cases ho with
  | addRoot hv => simp only [stepApi, h.ids]; split; exacts [h, h.addAny _ _ _ hv]
  | addChild hv => simp only [stepApi, h.ids]; split; exacts [h, h.addAny _ _ _ hv]
  | addSibling hv =>
    simp only [stepApi, h.ids, h.parent]
    split
    · exact h
    · split
      · exact h
      · exact h.addAny _ _ _ hv
  | move =>
    simp only [stepApi, h.ids, h.parent, h.moveAny, h.forest]
    split
    · exact h
    · split
      · exact h
      · split
        · exact h
        · exact ⟨rfl, h.data⟩
  | @delete S =>
    simp only [stepApi, h.ids, h.forest]
    exact ⟨rfl, h.data.filter fun k => !decide (Tree.Doomed s'.F S.contains k)⟩
  | edit hv => simp only [stepApi, h.ids]; split; exacts [⟨h.forest, h.data.edit _ hv⟩, h]
  | load hd =>
    simp only [stepApi, h.loadable hd]
    split
    · exact h.loadAny hd _
    · exact h
  | fixTree => exact h

theorem Twins.symm (h : Twins ob s s') : Twins ob s' s :=
  ⟨h.forest.symm, h.data.flip.imp fun _ _ h => ⟨h.1.symm, fun e he => (h.2 e he).symm⟩⟩

theorem Twins.edit (h : Twins [] s s') (k : Nat) (v : Vals) : Twins [] (s.stepApi [] (.edit k v)) s' := by
  classical
  simp only [stepApi]
  split
  · refine ⟨h.forest, ?_⟩
    have e : ∀ {D D' : List (Nat × Vals)}, TwinData [] D D' → TwinData [] (editData D k v) D' := by
      intro D D' h
      induction h with
      | nil => exact .nil
      | @cons a b D D' h _ ih =>
        refine .cons ⟨?_, fun _ he => by cases he⟩ ih
        show (if a.1 = k then (k, v) else a).1 = b.1
        split
        · rename_i hk; rw [← h.1, hk]
        · exact h.1
    exact e h.data
  · exact h

theorem Twins.run {l m : List ApiOp} (ho : TwinHist ob l m) : ∀ {s s' : STree} (_ : Twins ob s s'), Twins ob (s.runApi ob l) (s'.runApi ob m) := by
  induction ho with
  | nil => intro s s' h; exact h
  | both ho _ ih => intro s s' h; exact ih (h.step ho)
  | left he _ ih => intro s s' h; subst he; exact ih (h.edit _ _)
  | right he _ ih => intro s s' h; subst he; exact ih (h.symm.edit _ _).symm

end STree

end Verif
