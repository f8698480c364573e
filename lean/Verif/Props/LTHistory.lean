/-
C35, and C41 for LT: whole histories on the ltree backend.
-/
import Verif.LT.History

namespace Verif.LT

variable {cfg : Cfg} {db : DB}

/-- **C35.** After every history of operations on freshly fetched nodes — calls that raise included, with and without
`node_order_by`, whatever the values — paths are unique and every node that is not a root has its parent in the table. -/
theorem C35_history (h : Consistent db) (ops : List Op) : Consistent (runOps cfg db ops) := by
  induction ops generalizing db with
  | nil => exact h
  | cons op ops ih => exact ih (step_consistent h op)

theorem C35_history_empty (ops : List Op) : Consistent (runOps cfg ⟨[], []⟩ ops) := C35_history empty_consistent ops

/-- a history with additions, label shifts, a move between trees, a refused move, an addition below a missing node, and a deletion -/
def exOps : List Op := [.addRoot 1 [], .addRoot 2 [], .addSibling 1 (some .right) 3 [], .addSibling 1 (some .firstSibling) 4 [],
  .addChild 9 5 [], .addChild 3 5 [], .addSibling 1 (some .firstSibling) 6 [], .move 2 5 (some .firstChild), .move 3 2 (some .left), .delete [6]]

example : (runOps ⟨[]⟩ ⟨[], []⟩ exOps).rows.map (fun r => (r.pk, r.path)) =
    [(1, [[65, 65]]), (2, [[65, 48, 65], [65], [65]]), (3, [[65, 48, 65]]), (4, [[48, 65]]), (5, [[65, 48, 65], [65]])] := by decide

/-! ### C41 -/

theorem forest_empty {sigs : List Sig} : forest ⟨[], sigs⟩ = fun _ => [] := by
  funext p
  refine List.eq_nil_iff_forall_not_mem.2 (fun k hk => ?_)
  have := mem_keys empty_consistent hk
  cases this

/-- **C41 for LT, up to the order of siblings** (partial): every history without `node_order_by` gives the nodes and the parents that the
specification `Tree.run` gives, if there are never 702 roots.  The order of siblings can differ: `C36_add_root_fails`,
`C36_add_sibling_fails`. -/
theorem C41_lt_parents_partial (ho : cfg.ordered = false) {ops : List Op}
    (hg : ∀ n, ((Tree.run Tree.empty (ops.take n)).F none).length < 702) :
    AbsNear (runOps cfg ⟨[], []⟩ ops) (Tree.run Tree.empty ops).ids (Tree.run Tree.empty ops).F := by
  suffices ∀ (db : DB) (s : Tree), Consistent db → AbsNear db s.ids s.F → (∀ n, ((s.run (ops.take n)).F none).length < 702) →
      AbsNear (runOps cfg db ops) (s.run ops).ids (s.run ops).F by
    refine this _ _ empty_consistent ⟨?_, by simp [Tree.empty]⟩ hg
    rw [forest_empty]; exact .refl _
  clear hg
  induction ops with
  | nil => intro db s _ ha _; exact ha
  | cons op ops ih =>
    intro db s h ha hg
    exact ih _ _ (step_consistent h op) (step_near ho h op ha (hg 0)) (fun n => hg (n + 1))

/-- **C41 for LT with `node_order_by`, up to the order of siblings** (partial): the nodes and the parents are those of `STree.run`, if no
node ever has 702 children.  The order can differ: `C16_lt_fails`. -/
theorem C41_lt_sorted_parents_partial (ho : cfg.ordered = true) {ops : List Op}
    (hg : ∀ n p, ((STree.run cfg.orderBy STree.empty (ops.take n)).F p).length < 702) :
    AbsNear (runOps cfg ⟨[], []⟩ ops) (STree.run cfg.orderBy STree.empty ops).ids (STree.run cfg.orderBy STree.empty ops).F := by
  suffices ∀ (db : DB) (s : STree), Consistent db → AbsNear db s.ids s.F → (∀ n p, ((s.run cfg.orderBy (ops.take n)).F p).length < 702) →
      AbsNear (runOps cfg db ops) (s.run cfg.orderBy ops).ids (s.run cfg.orderBy ops).F by
    refine this _ _ empty_consistent ⟨?_, by simp [STree.empty, STree.ids]⟩ hg
    rw [forest_empty]; exact .refl _
  clear hg
  induction ops with
  | nil => intro db s _ ha _; exact ha
  | cons op ops ih =>
    intro db s h ha hg
    exact ih _ _ (step_consistent h op) (step_nearS ho h op ha (hg 0)) (fun n => hg (n + 1))

/-- the guards hold for every history of at most 701 operations -/
theorem C41_lt_parents_short (ho : cfg.ordered = false) {ops : List Op} (hl : ops.length ≤ 701) :
    AbsNear (runOps cfg ⟨[], []⟩ ops) (Tree.run Tree.empty ops).ids (Tree.run Tree.empty ops).F := by
  refine C41_lt_parents_partial ho (fun n => ?_)
  have h1 := Tree.run_length Tree.empty (ops.take n) none
  have h2 : (Tree.empty.F none).length = 0 := rfl
  have h4 : (ops.take n).length ≤ ops.length := by rw [List.length_take]; omega
  omega

theorem C41_lt_sorted_parents_short (ho : cfg.ordered = true) {ops : List Op} (hl : ops.length ≤ 701) :
    AbsNear (runOps cfg ⟨[], []⟩ ops) (STree.run cfg.orderBy STree.empty ops).ids (STree.run cfg.orderBy STree.empty ops).F := by
  refine C41_lt_sorted_parents_partial ho (fun n p => ?_)
  have h1 := STree.run_length cfg.orderBy STree.empty (ops.take n) p
  have h2 : (STree.empty.F p).length = 0 := rfl
  have h4 : (ops.take n).length ≤ ops.length := by rw [List.length_take]; omega
  omega

example : exOps.length ≤ 701 := by decide

/-- every operation of the history is carried out exactly -/
def SmoothHistory (cfg : Cfg) : DB → List Op → Prop
  | _, [] => True
  | db, op :: ops => Smooth cfg db op ∧ SmoothHistory cfg (step cfg db op) ops

/-- **C41 for LT** (partial): every smooth history without `node_order_by` gives the forest and the nodes that the specification gives. -/
theorem C41_lt_partial (ho : cfg.ordered = false) {ops : List Op} (hg : SmoothHistory cfg ⟨[], []⟩ ops) :
    Abs (runOps cfg ⟨[], []⟩ ops) (Tree.run Tree.empty ops) := by
  suffices ∀ (db : DB) (s : Tree), Consistent db → Abs db s → SmoothHistory cfg db ops → Abs (runOps cfg db ops) (s.run ops) by
    refine this _ _ empty_consistent ⟨?_, by simp [Tree.empty]⟩ hg
    exact forest_empty
  clear hg
  induction ops with
  | nil => intro db s _ ha _; exact ha
  | cons op ops ih =>
    intro db s h ha hg
    exact ih _ _ (step_consistent h op) (step_exact ho h op ha hg.1) hg.2

/-- a smooth history: roots are appended, a child is added and one more to the left of it -/
example : SmoothHistory ⟨[]⟩ ⟨[], []⟩ [.addRoot 1 [], .addRoot 2 [], .addChild 1 3 [], .addSibling 3 (some .left) 4 [], .move 2 3 (some .lastSibling), .delete [3]] := by
  refine ⟨⟨_, _, rfl, by decide⟩, ⟨_, _, rfl, by decide⟩, trivial, Or.inr ?_, Or.inl rfl, trivial, trivial⟩
  intro p hp r hr q hq _ _ c t e
  have hl : ∀ r ∈ (step ⟨[]⟩ (step ⟨[]⟩ (step ⟨[]⟩ ⟨[], []⟩ (.addRoot 1 [])) (.addRoot 2 [])) (.addChild 1 3 [])).rows, (lastLabel r.path).length = 1 := by decide
  have := congrArg List.length e
  simp [hl r hr, hl q hq] at this

end Verif.LT
