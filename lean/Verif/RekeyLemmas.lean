/-
What is asked for does not depend on the primary keys.
-/
import Verif.SpecRename

namespace Verif

variable {f : Nat → Nat} (hf : Function.Injective f)

include hf

theorem contains_rekey (l : List Nat) (k : Nat) : (l.map f).contains (f k) = l.contains k := by
  rw [Bool.eq_iff_iff]
  simp [hf.eq_iff]

theorem mem_rekey {l : List Nat} {k : Nat} : f k ∈ l.map f ↔ k ∈ l := by
  simp [hf.eq_iff]

theorem before_rekey (t x : Nat) (l : List Nat) : insertBefore (f t) (f x) (l.map f) = (insertBefore t x l).map f := by
  induction l with
  | nil => rfl
  | cons y ys ih =>
    simp only [List.map_cons, insertBefore, hf.eq_iff]
    split
    · rfl
    · rw [List.map_cons, ih]

theorem after_rekey (t x : Nat) (l : List Nat) : insertAfter (f t) (f x) (l.map f) = (insertAfter t x l).map f := by
  induction l with
  | nil => rfl
  | cons y ys ih =>
    simp only [List.map_cons, insertAfter, hf.eq_iff]
    split
    · rfl
    · rw [List.map_cons, ih]

omit hf in
/-- the same place, with other keys -/
def Slot.rekey (f : Nat → Nat) : Slot → Slot
  | .first => .first
  | .last => .last
  | .before t => .before (f t)
  | .after t => .after (f t)

theorem ins_rekey (s : Slot) (x : Nat) (l : List Nat) : (s.rekey f).ins (f x) (l.map f) = (s.ins x l).map f := by
  cases s with
  | first => rfl
  | last => simp [Slot.ins, Slot.rekey]
  | before t => exact before_rekey hf t x l
  | after t => exact after_rekey hf t x l

theorem valsIn_rekey (D : List (Nat × Vals)) (k : Nat) : valsIn (rekeyData f D) (f k) = valsIn D k := by
  induction D with
  | nil => rfl
  | cons e D ih =>
    obtain ⟨a, v⟩ := e
    unfold valsIn rekeyData at *
    rw [List.map_cons, List.lookup_cons, List.lookup_cons]
    have : (f k == f a) = (k == a) := by rw [Bool.eq_iff_iff]; simp [hf.eq_iff]
    rw [this]
    cases k == a
    · exact ih
    · rfl

omit hf in
theorem slotFor_rekey (ob : List (Nat × Bool)) {v v' : Nat → Vals} (hv : ∀ k, v' (f k) = v k) (vx : Vals) (l : List Nat) (s : Slot) :
    slotFor ob v' vx (l.map f) (s.rekey f) = (slotFor ob v vx l s).rekey f := by
  unfold slotFor
  split
  · rfl
  · rw [List.find?_map]
    have : ((fun a => decide (Behind ob vx (v' a))) ∘ f) = fun a => decide (Behind ob vx (v a)) := by
      funext a
      rw [Function.comp_apply, hv]
    rw [this]
    cases l.find? (fun a => decide (Behind ob vx (v a))) <;> rfl

namespace Forest

variable {F F' : Forest}

theorem Rekeyed.put (h : Rekeyed f F F') (p : Option Nat) (s : Slot) (x : Nat) : Rekeyed f (F.put p s x) (F'.put (p.map f) (s.rekey f) (f x)) := by
  intro q
  unfold Forest.put
  by_cases hq : q = p
  · rw [if_pos hq, if_pos (by rw [hq]), h q]
    exact ins_rekey hf s x _
  · rw [if_neg hq, if_neg ((Option.map_injective hf).ne hq), h q]

theorem Rekeyed.remove (h : Rekeyed f F F') (x : Nat) : Rekeyed f (F.remove x) (F'.remove (f x)) := by
  intro q
  unfold Forest.remove
  rw [h q, List.filter_map]
  congr 1
  refine List.filter_congr fun y _ => ?_
  simp [hf.eq_iff]

theorem Rekeyed.move (h : Rekeyed f F F') (x : Nat) (p : Option Nat) (s : Slot) : Rekeyed f (F.move x p s) (F'.move (f x) (p.map f) (s.rekey f)) :=
  (h.remove hf x).put hf p s x

theorem Rekeyed.moveAsked (h : Rekeyed f F F') (x : Nat) (p : Option Nat) (t : Nat) (pos : Pos) :
    Rekeyed f (F.moveAsked x p t pos) (F'.moveAsked (f x) (p.map f) (f t) pos) := by
  cases pos <;> simp only [Forest.moveAsked, Forest.sibMove, hf.eq_iff]
  case firstChild => exact h.move hf x (some t) .first
  case lastChild => exact h.move hf x (some t) .last
  case firstSibling => exact h.move hf x p .first
  case lastSibling => exact h.move hf x p .last
  case left =>
    split
    · exact h
    · exact h.move hf x p (.before t)
  case right =>
    split
    · exact h
    · exact h.move hf x p (.after t)
  all_goals exact h

omit hf in
theorem Rekeyed.desc_of (h : Rekeyed f F F') {a d : Nat} (hd : F'.Desc (f a) d) : ∃ k, d = f k ∧ F.Desc a k := by
  induction hd with
  | child hm =>
    rw [show some (f a) = (some a).map f from rfl, h, List.mem_map] at hm
    obtain ⟨k, hk, rfl⟩ := hm
    exact ⟨k, rfl, .child hk⟩
  | step _ hm ih =>
    obtain ⟨m, rfl, hm'⟩ := ih
    rw [show some (f m) = (some m).map f from rfl, h, List.mem_map] at hm
    obtain ⟨k, hk, rfl⟩ := hm
    exact ⟨k, rfl, .step hm' hk⟩

omit hf in
theorem Rekeyed.desc_to (h : Rekeyed f F F') {a d : Nat} (hd : F.Desc a d) : F'.Desc (f a) (f d) := by
  induction hd with
  | child hm => exact .child (by rw [show some (f a) = (some a).map f from rfl, h]; exact List.mem_map_of_mem hm)
  | @step m d _ hm ih => exact .step ih (by rw [show some (f m) = (some m).map f from rfl, h]; exact List.mem_map_of_mem hm)

theorem Rekeyed.desc (h : Rekeyed f F F') {a d : Nat} : F'.Desc (f a) (f d) ↔ F.Desc a d := by
  refine ⟨fun hd => ?_, h.desc_to⟩
  obtain ⟨k, e, hk⟩ := h.desc_of hd
  rw [hf e]
  exact hk

theorem Rekeyed.refused (h : Rekeyed f F F') (x t : Nat) (pos : Pos) : F'.MoveRefused (f x) (f t) pos ↔ F.MoveRefused x t pos := by
  unfold Forest.MoveRefused
  rw [h.desc hf, hf.eq_iff]

theorem Rekeyed.doomed (h : Rekeyed f F F') (S : List Nat) (k : Nat) : Tree.Doomed F' (S.map f).contains (f k) ↔ Tree.Doomed F S.contains k := by
  unfold Tree.Doomed
  rw [contains_rekey hf]
  refine or_congr Iff.rfl ⟨?_, ?_⟩
  · rintro ⟨q, hq, hd⟩
    obtain ⟨q, hq', rfl⟩ := List.mem_map.1 (List.contains_iff_mem.1 hq)
    exact ⟨q, List.contains_iff_mem.2 hq', (h.desc hf).1 hd⟩
  · rintro ⟨q, hq, hd⟩
    exact ⟨f q, by rw [contains_rekey hf]; exact hq, h.desc_to hd⟩

omit hf in
theorem Rekeyed.prune (h : Rekeyed f F F') {D D' : Nat → Bool} (hD : ∀ k, D' (f k) = D k) : Rekeyed f (F.prune D) (F'.prune D') := by
  have key : ∀ p, (F' (p.map f)).filter (fun y => !D' y) = ((F p).filter (fun y => !D y)).map f := by
    intro p
    rw [h, List.filter_map]
    congr 1
    refine List.filter_congr fun y _ => ?_
    rw [Function.comp_apply, hD]
  intro p
  cases p with
  | none => exact key none
  | some q =>
    show (if D' (f q) = true then [] else (F' (some (f q))).filter _) = (if D q = true then [] else _ : List Nat).map f
    rw [hD]
    split
    · rfl
    · exact key (some q)

end Forest

namespace STree

omit hf in
/-- the same tree and data with other keys -/
structure Rekeyed (f : Nat → Nat) (s s' : STree) : Prop where
  forest : s.F.Rekeyed f s'.F
  data : s'.data = rekeyData f s.data

variable {s s' : STree}

omit hf in
theorem Rekeyed.ids (h : Rekeyed f s s') : s'.ids = s.ids.map f := by
  unfold STree.ids
  rw [h.data, rekeyData, List.map_map, List.map_map]
  rfl

theorem Rekeyed.mem (h : Rekeyed f s s') (k : Nat) : f k ∈ s'.ids ↔ k ∈ s.ids := by rw [h.ids, mem_rekey hf]

theorem Rekeyed.parent (h : Rekeyed f s s') (t : Nat) : s'.parent (f t) = (s.parent t).map f := by
  unfold STree.parent Tree.parent
  simp only [h.ids]
  rw [List.find?_map]
  congr 2
  funext p
  rw [Function.comp_apply, show some (f p) = (some p).map f from rfl, h.forest, contains_rekey hf]

theorem Rekeyed.addAny (h : Rekeyed f s s') (ob : List (Nat × Bool)) (p : Option Nat) (sl : Slot) (k : Nat) (v : Vals) :
    Rekeyed f (s.addAny ob p sl k v) (s'.addAny ob (p.map f) (sl.rekey f) (f k) v) := by
  refine ⟨?_, by simp [STree.addAny, h.data, rekeyData]⟩
  unfold STree.addAny
  simp only
  rw [h.forest p, slotFor_rekey ob (v := valsIn s.data) (fun k => by rw [h.data, valsIn_rekey hf])]
  exact h.forest.put hf _ _ _

omit hf in
theorem dest_rekey (p : Option Nat) (t : Nat) (pos : Pos) : pos.dest (p.map f) (f t) = (pos.dest p t).map f := by
  unfold Pos.dest
  split <;> rfl

theorem Rekeyed.moveAny (h : Rekeyed f s s') (ob : List (Nat × Bool)) (x : Nat) (p : Option Nat) (t : Nat) (pos : Pos) :
    (s.moveAny ob x p t pos).Rekeyed f (s'.moveAny ob (f x) (p.map f) (f t) pos) := by
  unfold STree.moveAny
  split
  · exact h.forest.moveAsked hf x p t pos
  · rw [dest_rekey, (h.forest.remove hf x) (pos.dest p t), show Slot.last = Slot.last.rekey f from rfl, h.data, valsIn_rekey hf,
      slotFor_rekey ob (v := valsIn s.data) (fun k => valsIn_rekey hf _ k)]
    exact h.forest.move hf _ _ _

theorem Rekeyed.loadAny (ob : List (Nat × Bool)) (d : Nest (Nat × Vals)) : ∀ {s s' : STree} (_ : Rekeyed f s s') (p : Option Nat),
    Rekeyed f (s.loadAny ob p d) (s'.loadAny ob (p.map f) (d.map fun e => (f e.1, e.2))) := by
  induction d with
  | nil => intro s s' h p; exact h
  | cons a c r ihc ihr =>
    intro s s' h p
    obtain ⟨k, v⟩ := a
    exact ihr (ihc (h.addAny hf ob p .last k v) (some k)) p

omit hf in
theorem labels_rekey (d : Nest (Nat × Vals)) : (d.map fun e => (f e.1, e.2)).labels = d.labels.map fun e => (f e.1, e.2) := by
  induction d with
  | nil => rfl
  | cons a c r ihc ihr => simp only [Nest.map, Nest.labels, ihc, ihr, List.map_cons, List.map_append]

theorem Rekeyed.loadable (h : Rekeyed f s s') (p : Option Nat) (d : Nest (Nat × Vals)) :
    s'.Loadable (p.map f) (d.map fun e => (f e.1, e.2)) ↔ s.Loadable p d := by
  unfold Loadable
  rw [labels_rekey]
  refine and_congr ?_ (and_congr ?_ ?_)
  · cases p with
    | none => simp
    | some t => simpa using h.mem hf t
  · rw [List.map_map, show (Prod.fst ∘ fun e : Nat × Vals => (f e.1, e.2)) = f ∘ Prod.fst from rfl, ← List.map_map, List.nodup_map_iff hf]
  · simp only [List.mem_map, forall_exists_index, and_imp, forall_apply_eq_imp_iff₂, h.mem hf]

omit hf in
theorem sibAsked_rekey (t : Nat) (pos : Pos) : sibAsked (f t) pos = (sibAsked t pos).rekey f := by cases pos <;> rfl

theorem Rekeyed.step (h : Rekeyed f s s') (ob : List (Nat × Bool)) (op : ApiOp) : Rekeyed f (s.stepApi ob op) (s'.stepApi ob (op.rekey f)) := by
  classical
  cases op with
  | tree op =>
    cases op with
    | addRoot k v => simp only [ApiOp.rekey, stepApi, h.mem hf]; split; exacts [h, h.addAny hf ob none .last k v]
    | addChild t k v => simp only [ApiOp.rekey, stepApi, h.mem hf]; split; exacts [h, h.addAny hf ob (some t) .last k v]
    | addSibling t pos k v =>
      simp only [ApiOp.rekey, stepApi, h.mem hf, h.parent hf, sibAsked_rekey]
      split
      · exact h
      · split
        · exact h
        · exact h.addAny hf ob _ _ k v
    | move x t pos =>
      simp only [ApiOp.rekey, stepApi, h.mem hf, h.parent hf, h.forest.refused hf]
      split
      · exact h
      · split
        · exact h
        · split
          · exact h
          · exact ⟨h.moveAny hf ob x _ t _, h.data⟩
    | delete S =>
      simp only [ApiOp.rekey, stepApi]
      refine ⟨h.forest.prune fun k => ?_, ?_⟩
      · rw [Bool.eq_iff_iff, decide_eq_true_eq, decide_eq_true_eq, h.mem hf, h.forest.doomed hf]
      · show s'.data.filter _ = rekeyData f (s.data.filter _)
        rw [h.data, rekeyData, rekeyData, List.filter_map]
        congr 1
        refine List.filter_congr fun e _ => ?_
        simp only [Function.comp_apply]
        congr 1
        rw [Bool.eq_iff_iff, decide_eq_true_eq, decide_eq_true_eq, h.forest.doomed hf]
  | edit k v =>
    simp only [ApiOp.rekey, stepApi, h.mem hf]
    split
    · refine ⟨h.forest, ?_⟩
      show editData s'.data (f k) v = rekeyData f (editData s.data k v)
      rw [h.data]
      unfold editData rekeyData
      rw [List.map_map, List.map_map]
      refine List.map_congr_left fun e _ => ?_
      simp only [Function.comp_apply, hf.eq_iff]
      split <;> rfl
    · exact h
  | load p d =>
    simp only [ApiOp.rekey, stepApi, h.loadable hf]
    split
    · exact Rekeyed.loadAny hf ob d h p
    · exact h
  | fixTree p b => exact h

theorem Rekeyed.run (ob : List (Nat × Bool)) (ops : List ApiOp) : ∀ {s s' : STree} (_ : Rekeyed f s s'),
    Rekeyed f (s.runApi ob ops) (s'.runApi ob (ops.map (ApiOp.rekey f))) := by
  induction ops with
  | nil => intro s s' h; exact h
  | cons op ops ih => intro s s' h; exact ih (h.step hf ob op)

end STree

end Verif
