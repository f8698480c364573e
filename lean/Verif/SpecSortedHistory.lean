/-
Specification: histories of operations with `node_order_by`.
-/
import Verif.SpecHistory
import Verif.SortedHead

namespace Verif

open Classical in
/-- The place of a node with the values `vx` among the siblings `l`: before the first greater one. -/
noncomputable def sortedSlot (ob : List (Nat × Bool)) (v : Nat → Vals) (vx : Vals) (l : List Nat) : Slot :=
  match l.find? (fun a => decide (keyLt ob vx (v a))) with
  | some a => .before a
  | none => .last

/-- An abstract tree with the values of its nodes. -/
structure STree where
  data : List (Nat × Vals)
  F : Forest

namespace STree

/-- the nodes -/
def ids (s : STree) : List Nat := s.data.map Prod.fst

/-- the parent of a node -/
def parent (s : STree) (t : Nat) : Option Nat := Tree.parent ⟨s.ids, s.F⟩ t

/-- a new node at its sorted place -/
noncomputable def add (ob : List (Nat × Bool)) (s : STree) (p : Option Nat) (k : Nat) (v : Vals) : STree :=
  ⟨s.data ++ [(k, v)], s.F.put p (sortedSlot ob (valsIn s.data) v (s.F p)) k⟩

open Classical in
/-- What each operation asks for with `node_order_by`.  It asks for nothing when its node or target does not exist, when
the key is in use, when the position is refused, and when the target is in the node's own branch. -/
noncomputable def step (ob : List (Nat × Bool)) (s : STree) : Op → STree
  | .addRoot k v => if k ∈ s.ids then s else s.add ob none k v
  | .addChild t k v => if k ∈ s.ids ∨ t ∉ s.ids then s else s.add ob (some t) k v
  | .addSibling t pos k v => if k ∈ s.ids ∨ t ∉ s.ids then s
    else match preparePosForAddSibling true pos with
      | .error _ => s
      | .ok _ => s.add ob (s.parent t) k v
  | .move x t pos => if x ∉ s.ids ∨ t ∉ s.ids then s
    else match preparePosForMove true pos with
      | .error _ => s
      | .ok pos => if s.F.MoveRefused x t pos then s
        else ⟨s.data, s.F.move x (pos.dest (s.parent t) t)
          (sortedSlot ob (valsIn s.data) (valsIn s.data x) (s.F.remove x (pos.dest (s.parent t) t)))⟩
  | .delete S =>
    ⟨s.data.filter (fun e => !decide (Tree.Doomed s.F S.contains e.1)),
     s.F.prune (fun k => decide (k ∈ s.ids ∧ Tree.Doomed s.F S.contains k))⟩

/-- a whole history -/
noncomputable def run (ob : List (Nat × Bool)) (s : STree) (ops : List Op) : STree := ops.foldl (step ob) s

/-- the empty tree -/
def empty : STree := ⟨[], fun _ => []⟩

end STree

/-- every new value of the history is free of nulls in the order fields -/
def NoNulls (ob : List (Nat × Bool)) : Op → Prop
  | .addRoot _ v | .addChild _ _ v | .addSibling _ _ _ v => NonNull ob v
  | _ => True

/-! ### The sorted place is unique -/

theorem filter_ins {s : Slot} {x : Nat} {l : List Nat} (hx : x ∉ l) : (s.ins x l).filter (fun k => decide (k ≠ x)) = l := by
  have hl : ∀ {l : List Nat}, x ∉ l → l.filter (fun k => decide (k ≠ x)) = l := by
    intro l hx
    rw [List.filter_eq_self]
    intro k hk
    simp only [decide_eq_true_eq]
    rintro rfl
    exact hx hk
  have hb : ∀ {t : Nat} {l : List Nat}, x ∉ l → (insertBefore t x l).filter (fun k => decide (k ≠ x)) = l := by
    intro t l
    induction l with
    | nil => intro _; rfl
    | cons y ys ih =>
      intro hx
      unfold insertBefore
      have hyx : y ≠ x := fun e => hx (by simp [e])
      split
      · rw [List.filter_cons_of_neg (by simp)]; exact hl hx
      · rw [List.filter_cons_of_pos (by simpa using hyx), ih (fun h => hx (List.mem_cons_of_mem _ h))]
  have ha : ∀ {t : Nat} {l : List Nat}, x ∉ l → (insertAfter t x l).filter (fun k => decide (k ≠ x)) = l := by
    intro t l
    induction l with
    | nil => intro _; rfl
    | cons y ys ih =>
      intro hx
      unfold insertAfter
      have hyx : y ≠ x := fun e => hx (by simp [e])
      have hys : x ∉ ys := fun h => hx (List.mem_cons_of_mem _ h)
      split
      · rw [List.filter_cons_of_pos (by simpa using hyx), List.filter_cons_of_neg (by simp), hl hys]
      · rw [List.filter_cons_of_pos (by simpa using hyx), ih hys]
  cases s with
  | first => unfold Slot.ins; simp only; rw [List.filter_cons_of_neg (by simp)]; exact hl hx
  | last => unfold Slot.ins; simp only; rw [List.filter_append, hl hx]; simp
  | before t => exact hb hx
  | after t => exact ha hx

/-- A list with `x` at its sorted place is the other list with `x` put at `sortedSlot`. -/
theorem ins_sorted {ob : List (Nat × Bool)} {v v' : Nat → Vals} {x : Nat} {l l₁ l₂ : List Nat} {s : Slot}
    (hx : x ∉ l) (hnd : (s.ins x l).Nodup) (e : s.ins x l = l₁ ++ x :: l₂) (h1 : ∀ a ∈ l₁, ¬ keyLt ob (v' x) (v' a))
    (h2 : ∀ b ∈ l₂, keyLt ob (v' x) (v' b)) (hv : ∀ a ∈ l, v' a = v a) :
    s.ins x l = (sortedSlot ob v (v' x) l).ins x l := by
  have hf := filter_ins (s := s) hx
  rw [e] at hnd hf
  rw [List.nodup_append, List.nodup_cons] at hnd
  have hx1 : x ∉ l₁ := fun hm => hnd.2.2 x hm x (by simp) rfl
  have hx2 : x ∉ l₂ := hnd.2.1.1
  have hl : ∀ {l : List Nat}, x ∉ l → l.filter (fun k => decide (k ≠ x)) = l := by
    intro l hx
    rw [List.filter_eq_self]
    intro k hk
    simp only [decide_eq_true_eq]
    rintro rfl
    exact hx hk
  rw [List.filter_append, List.filter_cons_of_neg (by simp), hl hx1, hl hx2] at hf
  subst hf
  rw [e]
  have hn1 : ∀ a ∈ l₁, ¬ keyLt ob (v' x) (v a) := fun a ha => by rw [← hv a (by simp [ha])]; exact h1 a ha
  unfold sortedSlot
  cases l₂ with
  | nil =>
    have : (l₁ ++ []).find? (fun a => decide (keyLt ob (v' x) (v a))) = none := by
      rw [List.append_nil, List.find?_eq_none]
      intro a ha
      simpa using hn1 a ha
    rw [this]
    simp [Slot.ins]
  | cons b l₂ =>
    have : (l₁ ++ b :: l₂).find? (fun a => decide (keyLt ob (v' x) (v a))) = some b := by
      rw [List.find?_eq_some_iff_append]
      refine ⟨by simpa using (hv b (by simp)) ▸ h2 b (by simp), l₁, l₂, rfl, ?_⟩
      intro a ha
      simpa using hn1 a ha
    rw [this]
    have hb : b ∉ l₁ := fun hm => hnd.2.2 b hm b (by simp) rfl
    exact (insertBefore_append hb).symm

theorem put_sorted {ob : List (Nat × Bool)} {F : Forest} {v v' : Nat → Vals} {x : Nat} {p : Option Nat} {s : Slot}
    (hx : x ∉ F p) (hnd : (F.put p s x p).Nodup) (hat : (F.put p s x).SortedAt ob v' p x) (hv : ∀ a ∈ F p, v' a = v a) :
    F.put p s x = F.put p (sortedSlot ob v (v' x) (F p)) x := by
  have hp : ∀ s, F.put p s x p = s.ins x (F p) := fun s => by unfold Forest.put; rw [if_pos rfl]
  obtain ⟨l₁, l₂, e, h1, h2⟩ := hat
  rw [hp] at e hnd
  funext q
  by_cases hq : q = p
  · subst hq
    rw [hp, hp]
    exact ins_sorted hx hnd e h1 h2 hv
  · unfold Forest.put
    rw [if_neg hq, if_neg hq]

theorem move_sorted_slot {ob : List (Nat × Bool)} {F : Forest} {v : Nat → Vals} {x : Nat} {p : Option Nat} {s : Slot}
    (hnd : (F.move x p s p).Nodup) (hat : (F.move x p s).SortedAt ob v p x) :
    F.move x p s = F.move x p (sortedSlot ob v (v x) (F.remove x p)) :=
  put_sorted (by simp [Forest.remove]) hnd hat (fun _ _ => rfl)

/-- a table with the forest `F` and the stored data `D` shows the abstract tree `s` -/
structure ShowsSTree (F : Forest) (D : List (Nat × Vals)) (s : STree) : Prop where
  forest : F = s.F
  data : D = s.data

/-- an addition at the sorted place gives the tree asked for -/
theorem ShowsSTree.add {ob : List (Nat × Bool)} {F F' : Forest} {D D' : List (Nat × Vals)} {s : STree} (h : ShowsSTree F D s)
    {p : Option Nat} {sl : Slot} {k : Nat} {v : Vals} (hk : ∀ q, ∀ a ∈ F q, a ∈ D.map Prod.fst) (hx : k ∉ D.map Prod.fst)
    (hF : F' = F.put p sl k) (hD : D' = D ++ [(k, v)]) (hnd : (F' p).Nodup) (hat : F'.SortedAt ob (valsIn D') p k) :
    ShowsSTree F' D' (s.add ob p k v) := by
  obtain ⟨rfl, rfl⟩ := h
  refine ⟨?_, hD⟩
  subst hF
  rw [put_sorted (v := valsIn s.data) (fun hm => hx (hk p k hm)) hnd hat (fun a ha => by rw [hD]; exact valsIn_append_old (hk p a ha))]
  rw [hD, valsIn_append_new hx]
  rfl

end Verif
