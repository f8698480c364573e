/-
Forests with the same parents, up to the order of siblings.
-/
import Verif.SpecShuffle
import Verif.SpecPos
import Verif.TreeLemmas
import Verif.SpecSortedHistory

namespace Verif

variable {A F G : Forest}

namespace Forest

theorem Near.refl (F : Forest) : F.Near F := fun _ => .refl _

theorem Near.symm (h : A.Near F) : F.Near A := fun p => (h p).symm

theorem Near.trans (h : A.Near F) (h' : F.Near G) : A.Near G := fun p => (h' p).trans (h p)

theorem Near.mem (h : A.Near F) {p : Option Nat} {k : Nat} : k ∈ F p ↔ k ∈ A p := (h p).mem_iff

theorem UpToRight.near {p : Option Nat} {x : Nat} (h : A.UpToRight F p x) : A.Near F := by
  obtain ⟨h1, l, r, r', e, e', hp⟩ := h
  intro q
  by_cases hq : q = p
  · subst hq
    rw [e, e']
    exact (hp.cons x).append_left l
  · rw [h1 q hq]

theorem Near.desc (h : A.Near F) {a d : Nat} : F.Desc a d ↔ A.Desc a d := by
  constructor
  · intro hd
    induction hd with
    | child hm => exact .child (h.mem.1 hm)
    | step _ hm ih => exact .step ih (h.mem.1 hm)
  · intro hd
    induction hd with
    | child hm => exact .child (h.mem.2 hm)
    | step _ hm ih => exact .step ih (h.mem.2 hm)

theorem Near.doomed (h : A.Near F) {S : Nat → Bool} {k : Nat} : Tree.Doomed F S k ↔ Tree.Doomed A S k := by
  unfold Tree.Doomed
  refine or_congr_right (exists_congr (fun q => and_congr_right (fun _ => h.desc)))

theorem Near.moveRefused (h : A.Near F) {x t : Nat} {pos : Pos} : F.MoveRefused x t pos ↔ A.MoveRefused x t pos := by
  unfold MoveRefused
  rw [h.desc]

/-- the slot exists in the list -/
def _root_.Verif.Slot.In (l : List Nat) : Slot → Prop
  | .before t | .after t => t ∈ l
  | _ => True

theorem ins_perm {s : Slot} {l : List Nat} (h : s.In l) (x : Nat) : (s.ins x l).Perm (x :: l) := by
  cases s with
  | first => exact .refl _
  | last => exact List.perm_append_singleton x l
  | before t =>
    show (insertBefore t x l).Perm _
    have h : t ∈ l := h
    induction l with
    | nil => cases h
    | cons y ys ih =>
      unfold insertBefore
      split
      · exact .refl _
      · rename_i hne
        have h' := (List.mem_cons.1 h).resolve_left (fun e => hne e.symm)
        exact ((ih h' h').cons y).trans (.swap x y ys)
  | after t =>
    show (insertAfter t x l).Perm _
    have h : t ∈ l := h
    induction l with
    | nil => cases h
    | cons y ys ih =>
      unfold insertAfter
      split
      · exact .swap x y ys
      · rename_i hne
        have h' := (List.mem_cons.1 h).resolve_left (fun e => hne e.symm)
        exact ((ih h' h').cons y).trans (.swap x y ys)

theorem insertBefore_absent {t x : Nat} {l : List Nat} (h : t ∉ l) : insertBefore t x l = l := by
  induction l with
  | nil => rfl
  | cons y ys ih =>
    rw [List.mem_cons, not_or] at h
    unfold insertBefore
    rw [if_neg (fun e => h.1 e.symm), ih h.2]

theorem insertAfter_absent {t x : Nat} {l : List Nat} (h : t ∉ l) : insertAfter t x l = l := by
  induction l with
  | nil => rfl
  | cons y ys ih =>
    rw [List.mem_cons, not_or] at h
    unfold insertAfter
    rw [if_neg (fun e => h.1 e.symm), ih h.2]

/-- a slot that took a new member exists -/
theorem in_of_mem {s : Slot} {x : Nat} {l : List Nat} (hx : x ∉ l) (h : x ∈ s.ins x l) : s.In l := by
  cases s with
  | first => trivial
  | last => trivial
  | before t =>
    refine Classical.not_not.1 (fun hn : t ∉ l => hx ?_)
    rw [show Slot.ins (.before t) x l = l from insertBefore_absent hn] at h
    exact h
  | after t =>
    refine Classical.not_not.1 (fun hn : t ∉ l => hx ?_)
    rw [show Slot.ins (.after t) x l = l from insertAfter_absent hn] at h
    exact h

theorem Slot.In.congr {s : Slot} {l l' : List Nat} (hp : l'.Perm l) (h : s.In l) : s.In l' := by
  cases s with
  | before t => exact hp.mem_iff.2 h
  | after t => exact hp.mem_iff.2 h
  | _ => trivial

theorem Near.put (h : A.Near F) {p : Option Nat} {s s' : Slot} (hs : s.In (A p)) (hs' : s'.In (F p)) (x : Nat) :
    (A.put p s x).Near (F.put p s' x) := by
  intro q
  unfold Forest.put
  split
  · rename_i e
    subst e
    exact (ins_perm hs' x).trans (((h q).cons x).trans (ins_perm hs x).symm)
  · exact h q

/-- an addition somewhere, seen from another near forest -/
theorem Near.added (h : A.Near F) {p : Option Nat} {s s' : Slot} {x : Nat} (hx : x ∉ F p) (hu : (F.put p s x).UpToRight G p x)
    (hs' : s'.In (A p)) : (A.put p s' x).Near G := by
  refine Near.trans ?_ hu.near
  refine h.put hs' (in_of_mem hx ?_) x
  obtain ⟨_, l, r, r', e, _⟩ := hu
  have : x ∈ (F.put p s x) p := by rw [e]; simp
  unfold Forest.put at this
  rwa [if_pos rfl] at this

theorem Near.remove (h : A.Near F) (x : Nat) : (A.remove x).Near (F.remove x) := fun q => (h q).filter _

theorem Near.prune (h : A.Near F) (D : Nat → Bool) : (A.prune D).Near (F.prune D) := by
  intro q
  unfold Forest.prune
  cases q with
  | none => exact (h none).filter _
  | some q =>
    dsimp only
    split
    · exact .refl _
    · exact (h (some q)).filter _

theorem mem_remove {x t : Nat} {p : Option Nat} (h : t ∈ F p) (hne : t ≠ x) : t ∈ F.remove x p :=
  List.mem_filter.2 ⟨h, by simpa using hne⟩

/-- a move somewhere below `p`, seen from another near forest -/
theorem Near.moved (h : A.Near F) {p : Option Nat} {s s' : Slot} {x : Nat} (hu : (F.move x p s).UpToRight G p x)
    (hs' : s'.In (A.remove x p)) : (A.move x p s').Near G :=
  (h.remove x).added (by unfold Forest.remove; simp) hu hs'

/-- The same move on two near forests. -/
theorem Near.moveAsked (h : A.Near F) {x t : Nat} {p : Option Nat} (ht : t ∈ A p) {pos : Pos} :
    (A.moveAsked x p t pos).Near (F.moveAsked x p t pos) := by
  have hf := h.remove x
  have key : ∀ {q : Option Nat} {s : Slot}, s.In (A.remove x q) → (A.move x q s).Near (F.move x q s) :=
    fun hs => hf.put hs (Slot.In.congr (hf _) hs) x
  cases pos with
  | firstChild => exact key trivial
  | lastChild => exact key trivial
  | firstSibling => exact key trivial
  | lastSibling => exact key trivial
  | left =>
    show (if t = x then A else A.move x p (.before t)).Near (if t = x then F else F.move x p (.before t))
    split
    · exact h
    · exact key (s := .before t) (mem_remove ht (by assumption))
  | right =>
    show (if t = x then A else A.move x p (.after t)).Near (if t = x then F else F.move x p (.after t))
    split
    · exact h
    · exact key (s := .after t) (mem_remove ht (by assumption))
  | sortedChild => exact h
  | sortedSibling => exact h
  | other n => exact h

end Forest

/-- the parent does not depend on the order of siblings -/
theorem Tree.parent_near {s : Tree} {F : Forest} {ids : List Nat} (hu : ∀ p q k, k ∈ F p → k ∈ F q → p = q)
    (hm : ∀ p k, k ∈ F (some p) → p ∈ ids) (hF : s.F.Near F) (hids : ∀ k, k ∈ ids ↔ k ∈ s.ids) {p : Option Nat} {t : Nat}
    (ht : t ∈ F p) : s.parent t = p := by
  refine Tree.parent_eq (F := s.F) (ids := ids) ?_ ?_ rfl hids (hF.mem.1 ht)
  · intro p q k h1 h2; exact hu p q k (hF.mem.2 h1) (hF.mem.2 h2)
  · intro p k hk; exact hm p k (hF.mem.2 hk)

/-! ### How fast groups of siblings grow -/

theorem insertBefore_length (t x : Nat) (l : List Nat) : (insertBefore t x l).length ≤ l.length + 1 := by
  induction l with
  | nil => simp [insertBefore]
  | cons y ys ih =>
    unfold insertBefore
    split
    · simp
    · simp only [List.length_cons]; omega

theorem insertAfter_length (t x : Nat) (l : List Nat) : (insertAfter t x l).length ≤ l.length + 1 := by
  induction l with
  | nil => simp [insertAfter]
  | cons y ys ih =>
    unfold insertAfter
    split
    · simp
    · simp only [List.length_cons]; omega

theorem ins_length_le (s : Slot) (x : Nat) (l : List Nat) : (s.ins x l).length ≤ l.length + 1 := by
  cases s with
  | first => simp [Slot.ins]
  | last => simp [Slot.ins]
  | before t => exact insertBefore_length t x l
  | after t => exact insertAfter_length t x l

theorem put_length_le (F : Forest) (p : Option Nat) (s : Slot) (x : Nat) (q : Option Nat) : (F.put p s x q).length ≤ (F q).length + 1 := by
  unfold Forest.put
  split
  · exact ins_length_le s x _
  · omega

theorem move_length_le (F : Forest) (x : Nat) (p : Option Nat) (s : Slot) (q : Option Nat) : (F.move x p s q).length ≤ (F q).length + 1 := by
  refine (put_length_le _ p s x q).trans ?_
  unfold Forest.remove
  have := List.length_filter_le (fun y => decide (y ≠ x)) (F q)
  omega

theorem moveAsked_length_le (F : Forest) (x : Nat) (p : Option Nat) (t : Nat) (pos : Pos) (q : Option Nat) :
    (F.moveAsked x p t pos q).length ≤ (F q).length + 1 := by
  cases pos with
  | firstChild => exact move_length_le ..
  | lastChild => exact move_length_le ..
  | firstSibling => exact move_length_le ..
  | lastSibling => exact move_length_le ..
  | left =>
    show ((if t = x then F else F.move x p (.before t)) q).length ≤ _
    split
    · omega
    · exact move_length_le ..
  | right =>
    show ((if t = x then F else F.move x p (.after t)) q).length ≤ _
    split
    · omega
    · exact move_length_le ..
  | sortedChild => exact Nat.le_succ _
  | sortedSibling => exact Nat.le_succ _
  | other n => exact Nat.le_succ _

theorem prune_length_le (F : Forest) (D : Nat → Bool) (q : Option Nat) : (F.prune D q).length ≤ (F q).length := by
  unfold Forest.prune
  cases q with
  | none => exact List.length_filter_le _ _
  | some q =>
    dsimp only
    split
    · simp
    · exact List.length_filter_le _ _

theorem Tree.step_length (s : Tree) (op : Op) (q : Option Nat) : ((s.step op).F q).length ≤ (s.F q).length + 1 := by
  cases op with
  | addRoot k v =>
    simp only [Tree.step]
    split
    · omega
    · exact put_length_le ..
  | addChild t k v =>
    simp only [Tree.step]
    split
    · omega
    · exact put_length_le ..
  | addSibling t pos k v =>
    simp only [Tree.step]
    split
    · omega
    · split
      · omega
      · exact put_length_le ..
  | move x t pos =>
    simp only [Tree.step]
    split
    · omega
    · split
      · omega
      · split
        · omega
        · exact moveAsked_length_le ..
  | delete S => exact (prune_length_le ..).trans (Nat.le_succ _)

/-- a group of siblings grows by at most one with every operation -/
theorem Tree.run_length (s : Tree) (ops : List Op) (q : Option Nat) : ((s.run ops).F q).length ≤ (s.F q).length + ops.length := by
  induction ops generalizing s with
  | nil => exact Nat.le_refl _
  | cons op ops ih =>
    have h1 := ih (s.step op)
    have h2 := s.step_length op q
    show (((s.step op).run ops).F q).length ≤ _
    rw [List.length_cons]
    omega

theorem STree.step_length (ob : List (Nat × Bool)) (s : STree) (op : Op) (q : Option Nat) : ((s.step ob op).F q).length ≤ (s.F q).length + 1 := by
  cases op with
  | addRoot k v =>
    simp only [STree.step]
    split
    · omega
    · exact put_length_le ..
  | addChild t k v =>
    simp only [STree.step]
    split
    · omega
    · exact put_length_le ..
  | addSibling t pos k v =>
    simp only [STree.step]
    split
    · omega
    · split
      · omega
      · exact put_length_le ..
  | move x t pos =>
    simp only [STree.step]
    split
    · omega
    · split
      · omega
      · split
        · omega
        · exact move_length_le ..
  | delete S => exact (prune_length_le ..).trans (Nat.le_succ _)

theorem STree.run_length (ob : List (Nat × Bool)) (s : STree) (ops : List Op) (q : Option Nat) :
    ((s.run ob ops).F q).length ≤ (s.F q).length + ops.length := by
  induction ops generalizing s with
  | nil => exact Nat.le_refl _
  | cons op ops ih =>
    have h1 := ih (s.step ob op)
    have h2 := s.step_length ob op q
    show (((s.step ob op).run ob ops).F q).length ≤ _
    rw [List.length_cons]
    omega

end Verif
