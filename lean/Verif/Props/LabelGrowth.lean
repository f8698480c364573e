/-
C71: the length of the labels of the ltree backend.
-/
import Verif.LT.Growth
import Verif.Props.LTHistory

namespace Verif.LT

variable {cfg : Cfg} {db : DB}

/-- the operations of a history that are no deletions -/
def writes (ops : List Op) : List Op := ops.filter (fun | .delete _ => false | _ => true)

/-- **C71.** Every operation makes a label at most one character longer than the longest one before it; deletions make none longer.  So after a history with `n`
additions and moves the labels have at most `n` characters more than before. -/
theorem C71_lt_history (h : Consistent db) {M : Nat} (hM : 1 ≤ M) (hl : LabelsIn M db) (ops : List Op) :
    LabelsIn (M + (writes ops).length) (runOps cfg db ops) := by
  induction ops generalizing db M with
  | nil => exact hl
  | cons op ops ih =>
    have hc := step_consistent (cfg := cfg) h op
    have key : ∀ N, M ≤ N → LabelsIn N (step cfg db op) → LabelsIn (N + (writes ops).length) (runOps cfg db (op :: ops)) :=
      fun N hN hs => ih hc (by omega) hs
    have h1 : LabelsIn (M + 1) (step cfg db op) := by
      unfold step
      cases e : exec cfg db op with
      | ok db' => exact exec_labels h hM hl op e
      | error _ => exact hl.mono (by omega)
    cases op with
    | delete S =>
      refine key M (Nat.le_refl _) ?_
      exact delete_labels hl
    | _ =>
      refine (key (M + 1) (by omega) h1).mono ?_
      show M + 1 + (writes ops).length ≤ M + ((writes ops).length + 1)
      omega

/-- **C71, at all times**, with a limit of the database: if there is room for one more character per addition or move, no table of the history has a label
over the limit. -/
theorem C71_lt_limit (h : Consistent db) {M L : Nat} (hM : 1 ≤ M) (hl : LabelsIn M db) {ops : List Op} (hL : M + (writes ops).length ≤ L) (n : Nat) :
    LabelsIn L (runOps cfg db (ops.take n)) := by
  refine (C71_lt_history h hM hl (ops.take n)).mono ?_
  have : (writes (ops.take n)).length ≤ (writes ops).length := by
    unfold writes
    exact ((List.take_sublist n ops).filter _).length_le
  omega

/-- three roots: 1 and 2 have the labels "0" and "0A", or the other way round; the label of 3 is "A" and more -/
def swapDB (b : Bool) (u : Label) (s : List Sig) : DB :=
  ⟨[⟨1, [if b then [48, 65] else [48]], []⟩, ⟨2, [if b then [48] else [48, 65]], []⟩, ⟨3, [65 :: u], []⟩], s⟩

/-- the second root goes to the front -/
def swap (b : Bool) : Op := if b then .move 1 2 (some .firstSibling) else .move 2 1 (some .firstSibling)

theorem swap_step (b : Bool) (u : Label) (s : List Sig) : ∃ s', step ⟨[]⟩ (swapDB b u s) (swap b) = swapDB (!b) (u ++ [65]) s' := by
  cases b
  · exact ⟨_, rfl⟩
  · exact ⟨_, rfl⟩

/-- **C71 is tight.**  Three roots suffice: when 1 and 2 change places `n` times, the label of 3, which nobody moves, gets `n` characters longer. -/
theorem C71_lt_grows (n : Nat) : ∃ ops : List Op, ops.length = n ∧ (∀ op ∈ ops, ∃ x t, op = .move x t (some .firstSibling)) ∧
    ∃ u s b, runOps ⟨[]⟩ (swapDB false [65] []) ops = swapDB b u s ∧ (65 :: u).length = n + 2 := by
  suffices ∀ (b : Bool) (u : Label) (s : List Sig), ∃ ops : List Op, ops.length = n ∧ (∀ op ∈ ops, ∃ x t, op = .move x t (some .firstSibling)) ∧
      ∃ u' s' b', runOps ⟨[]⟩ (swapDB b u s) ops = swapDB b' u' s' ∧ u'.length = u.length + n by
    obtain ⟨ops, h1, h2, u, s, b, h3, h4⟩ := this false [65] []
    exact ⟨ops, h1, h2, u, s, b, h3, by simp at h4 ⊢; omega⟩
  induction n with
  | zero => intro b u s; exact ⟨[], rfl, by simp, u, s, b, rfl, rfl⟩
  | succ n ih =>
    intro b u s
    obtain ⟨s1, e1⟩ := swap_step b u s
    obtain ⟨ops, h1, h2, u', s', b', h3, h4⟩ := ih (!b) (u ++ [65]) s1
    refine ⟨swap b :: ops, by simp [h1], ?_, u', s', b', ?_, ?_⟩
    · intro op hop
      rcases List.mem_cons.1 hop with rfl | hop
      · cases b
        · exact ⟨2, 1, rfl⟩
        · exact ⟨1, 2, rfl⟩
      · exact h2 op hop
    · show runOps ⟨[]⟩ (step ⟨[]⟩ (swapDB b u s) (swap b)) ops = _
      rw [e1]; exact h3
    · simp at h4 ⊢; omega

/-- **So every limit is exceeded** (PostgreSQL allows 1000 characters, before version 16 255): on a consistent table of three roots whose labels have at most two
characters, `L` moves lead to a label with more than `L` characters. -/
theorem C71_lt_exceeds (L : Nat) : Consistent (swapDB false [65] []) ∧ LabelsIn 2 (swapDB false [65] []) ∧
    ∃ ops : List Op, ops.length = L ∧ (∀ op ∈ ops, ∃ x t, op = .move x t (some .firstSibling)) ∧
      (runOps ⟨[]⟩ (swapDB false [65] []) ops).rows.length = 3 ∧ ¬ LabelsIn L (runOps ⟨[]⟩ (swapDB false [65] []) ops) := by
  refine ⟨consistent_iff.2 (inv_of_check (by decide)), by unfold LabelsIn; decide, ?_⟩
  obtain ⟨ops, h1, h2, u, s, b, h3, h4⟩ := C71_lt_grows L
  refine ⟨ops, h1, h2, by rw [h3]; rfl, fun h => ?_⟩
  rw [h3] at h
  have := h ⟨3, [65 :: u], []⟩ (by unfold swapDB; simp) (65 :: u) (by simp)
  omega

/-- the table is what the API makes -/
example : (runOps ⟨[]⟩ ⟨[], []⟩ [.addRoot 3 [], .addSibling 3 (some .firstSibling) 2 [], .addSibling 2 (some .firstSibling) 1 []]).rows.map
    (fun r => (r.pk, r.path)) = [(3, [[65, 65]]), (2, [[48, 65]]), (1, [[48]])] := by decide

/-- a case of the theorems -/
example : Consistent exDB ∧ LabelsIn 1 exDB ∧ LabelsIn 1 ⟨[], []⟩ ∧ (writes exOps).length = 9 :=
  ⟨consistent_iff.2 exDB_inv, by unfold LabelsIn; decide, by unfold LabelsIn; simp, rfl⟩

end Verif.LT
