/-
Specification of cached ancestors: what an object remembers about the nodes above it, and when the forest still agrees.
-/
import Verif.Spec
import Verif.Height

namespace Verif

/-- A node whose parent has the key `p` remembers the nodes above it, nearest first, each as its key and the key of its parent.  The forest agrees. -/
def Forest.LiveUp (F : Forest) : Option Nat → List (Nat × Option Nat) → Prop
  | _, [] => True
  | p, (k, q) :: l => p = some k ∧ k ∈ F q ∧ F.LiveUp q l

/-- It goes on agreeing as long as the remembered nodes stay where they are. -/
theorem Forest.LiveUp.mono {F G : Forest} {p : Option Nat} {l : List (Nat × Option Nat)} (h : F.LiveUp p l)
    (hk : ∀ e ∈ l, e.1 ∈ F e.2 → e.1 ∈ G e.2) : G.LiveUp p l := by
  induction l generalizing p with
  | nil => trivial
  | cons e l ih =>
    obtain ⟨h1, h2, h3⟩ := h
    exact ⟨h1, hk _ (by simp) h2, ih h3 (fun e he => hk e (by simp [he]))⟩

/-- adding a node -/
theorem Forest.LiveUp.put {F : Forest} {p p' : Option Nat} {l : List (Nat × Option Nat)} (h : F.LiveUp p l) (s : Slot) (x : Nat) :
    (F.put p' s x).LiveUp p l := h.mono (fun _ _ => Forest.subset_put)

/-- moving a node that is not remembered -/
theorem Forest.LiveUp.move {F : Forest} {p p' : Option Nat} {l : List (Nat × Option Nat)} (h : F.LiveUp p l) {x : Nat} (hx : ∀ e ∈ l, e.1 ≠ x) (s : Slot) :
    (F.move x p' s).LiveUp p l := by
  refine h.mono (fun e he hm => Forest.subset_put ?_)
  simp only [Forest.remove, List.mem_filter, decide_eq_true_eq]
  exact ⟨hm, hx e he⟩

/-- removing branches that have no remembered node -/
theorem Forest.LiveUp.prune {F : Forest} {p : Option Nat} {l : List (Nat × Option Nat)} (h : F.LiveUp p l) {D : Nat → Bool}
    (hD : ∀ a d, F.Desc a d → D a = true → D d = true) (hx : ∀ e ∈ l, D e.1 = false) : (F.prune D).LiveUp p l := by
  refine h.mono (fun e he hm => ?_)
  obtain ⟨k, q⟩ := e
  have hk := hx _ he
  cases q with
  | none => exact List.mem_filter.2 ⟨hm, by simpa using hk⟩
  | some q =>
    have hq : D q = false := by
      cases hq : D q with
      | false => rfl
      | true => exact absurd (hD _ _ (.child hm) hq) (by simp [hk])
    simp only [Forest.prune, hq, Bool.false_eq_true, if_false]
    exact List.mem_filter.2 ⟨hm, by simpa using hk⟩

end Verif
