/-
C102: nodes that come and go leave no trace.
-/
import Verif.GuestLemmas
import Verif.Props.NSApi
import Verif.Props.ALApi
import Verif.Props.MPApi
import Verif.Props.LTApi
import Verif.Props.MergeSorted

namespace Verif

/-- guests with the keys 70 to 73 come, move, change, go further down, and one leaves -/
def exGuests (a b : Nat) : List ApiOp :=
  [.tree (.addRoot 70 [some 4]), .tree (.addChild a 71 [some 2]), .load (some b) (.cons (72, [some 3]) (.cons (73, [some 1]) .nil .nil) .nil),
   .tree (.move 70 72 none), .edit 71 [some 9], .tree (.move 71 73 none), .tree (.delete [70]), .tree (.addSibling b none 70 [some 0]), .fixTree none false]

theorem exGuests_only (a b : Nat) : ∀ op ∈ exGuests a b, op.Only [70, 71, 72, 73].contains := by
  intro op h
  simp only [exGuests, List.mem_cons, List.not_mem_nil, or_false] at h
  rcases h with rfl | rfl | rfl | rfl | rfl | rfl | rfl | rfl | rfl <;> simp [ApiOp.Only, Nest.labels]

namespace NS

variable {db : DB}

/-- **C102 for NS**, with and without `node_order_by` -/
theorem C102_ns (cfg : Cfg) (h : Consistent db) {L : List Nat} (hL : ∀ k ∈ L, k ∉ db.rows.map Row.pk) {ops : List ApiOp} (ho : ∀ op ∈ ops, op.Only L.contains) :
    Consistent ((calls cfg).run db (ops ++ [.tree (.delete L)])) ∧
    forest ((calls cfg).run db (ops ++ [.tree (.delete L)])) = forest db ∧
    data ((calls cfg).run db (ops ++ [.tree (.delete L)])).rows = data db.rows := by
  obtain ⟨hc, hs⟩ := C62_ns cfg h ops
  obtain ⟨hc', hs'⟩ := C62_ns cfg h (ops ++ [.tree (.delete L)])
  rw [STree.guests_leave (isForestOn h) (by simpa [data] using hL) ho (isForestOn hc) (hs.forest ▸ .refl _) (by rw [hs.data]; rfl)] at hs'
  exact ⟨hc', hs'.forest, hs'.data⟩

example : Consistent exDB ∧ (∀ k ∈ [70, 71, 72, 73], k ∉ exDB.rows.map Row.pk) ∧ ([70, 71, 72, 73].map fun k => ((calls ⟨[]⟩).run exDB (exGuests 1 2)).rows.any (·.pk == k)) = [true, true, true, true] :=
  ⟨exDB_inv, by decide, by decide +kernel⟩

end NS

namespace AL

variable {cfg : Cfg} {db : DB}

/-- **C102 for AL** -/
theorem C102_al (hord : cfg.ordered = false) (h : Consistent cfg db) {L : List Nat} (hL : ∀ k ∈ L, k ∉ db.rows.map Row.pk) {ops : List ApiOp} (ho : ∀ op ∈ ops, op.Only L.contains) :
    Consistent cfg ((calls cfg).run db (ops ++ [.tree (.delete L)])) ∧
    forest cfg ((calls cfg).run db (ops ++ [.tree (.delete L)])) = forest cfg db ∧
    data ((calls cfg).run db (ops ++ [.tree (.delete L)])).rows = data db.rows := by
  obtain ⟨hc, hs⟩ := C62_al hord h ops
  obtain ⟨hc', hs'⟩ := C62_al hord h (ops ++ [.tree (.delete L)])
  rw [STree.guests_leave (isForestOn (cfg := cfg) h.toWf.ai) (by simpa [data] using hL) ho (isForestOn (cfg := cfg) hc.toWf.ai) (hs.forest ▸ .refl _) (by rw [hs.data]; rfl)] at hs'
  exact ⟨hc', hs'.forest, hs'.data⟩

/-- **C102 for AL, sorted**: the same nodes with the same values below the same parents (their order is computed when they are read, and the
database chooses between equal ones). -/
theorem C102_al_sorted (hord : cfg.ordered = true) (h : Wf cfg db) {L : List Nat} (hL : ∀ k ∈ L, k ∉ db.rows.map Row.pk) {ops : List ApiOp} (ho : ∀ op ∈ ops, op.Only L.contains) :
    Wf cfg ((calls cfg).run db (ops ++ [.tree (.delete L)])) ∧
    (∀ p, (forest cfg ((calls cfg).run db (ops ++ [.tree (.delete L)])) p).Perm (forest cfg db p)) ∧
    data ((calls cfg).run db (ops ++ [.tree (.delete L)])).rows = data db.rows := by
  obtain ⟨hc, hs⟩ := C62_al_sorted hord h ops
  obtain ⟨hc', hs'⟩ := C62_al_sorted hord h (ops ++ [.tree (.delete L)])
  rw [STree.guests_leave (isForestOn (cfg := cfg) h.ai) (by simpa [data] using hL) ho (isForestOn (cfg := cfg) hc.ai) hs.forest (by rw [hs.data]; rfl)] at hs'
  exact ⟨hc', hs'.forest, hs'.data⟩

example : Consistent exPlain exDB ∧ (∀ k ∈ [70, 71, 72, 73], k ∉ exDB.rows.map Row.pk) ∧ ([70, 71, 72, 73].map fun k => ((calls exPlain).run exDB (exGuests 1 2)).rows.any (·.pk == k)) = [true, true, true, true] :=
  ⟨consistent_of_inv rfl exDB_inv, by decide, by decide +kernel⟩

example : Wf exSorted exSDB ∧ (∀ k ∈ [70, 71, 72, 73], k ∉ exSDB.rows.map Row.pk) ∧ ([70, 71, 72, 73].map fun k => ((calls exSorted).run exSDB (exGuests 1 2)).rows.any (·.pk == k)) = [true, true, true, true] :=
  ⟨wf_of_ai exSDB_inv.toAI, by decide, by decide +kernel⟩

end AL

namespace MP

variable {cfg : Cfg} {db : DB} {ord : List Row → List Row}

/-- **C102 for MP** (partial: the moves need the room that they do not check, see `C102_mp_fails`) -/
theorem C102_mp_partial (hok : cfg.Ok) (hord : OrdersBy cfg ord) (h : Consistent cfg db) {L : List Nat} (hL : ∀ k ∈ L, k ∉ db.rows.map Row.pk) {ops : List ApiOp}
    (ho : ∀ op ∈ ops, op.Only L.contains) (hg : (calls cfg ord).Guarded (ApiGuard cfg) db ops) :
    Consistent cfg ((calls cfg ord).run db (ops ++ [.tree (.delete L)])) ∧
    forest cfg ((calls cfg ord).run db (ops ++ [.tree (.delete L)])) = forest cfg db ∧
    data ((calls cfg ord).run db (ops ++ [.tree (.delete L)])).rows = data db.rows := by
  obtain ⟨hc, hs⟩ := C62_mp_partial hok hord h ops hg
  obtain ⟨hc', hs'⟩ := C62_mp_partial hok hord h (ops ++ [.tree (.delete L)]) ((calls cfg ord).guarded_delete (fun _ => trivial) ops db hg)
  rw [Calls.made_delete, STree.guests_leave (isForestOn_data hok h) (by rw [keys_data]; exact hL) (fun op hm => ho op (Calls.mem_made _ _ _ _ hm)) (isForestOn_data hok hc)
    (hs.forest ▸ .refl _) (by rw [hs.data]; rfl)] at hs'
  exact ⟨hc', hs'.forest, hs'.data⟩

/-- guests for a tree without `node_order_by` -/
def exVisit : List ApiOp := [.tree (.addRoot 70 []), .load (some 3) (.cons (71, []) (.cons (72, []) .nil .nil) .nil), .tree (.move 70 4 (some .lastChild)), .edit 70 [], .tree (.addSibling 2 (some .left) 73 [])]

example : exCfg.Ok ∧ OrdersBy exCfg (stableOrder exCfg) ∧ Consistent exCfg exDB ∧ (∀ k ∈ [70, 71, 72, 73], k ∉ exDB.rows.map Row.pk) ∧ (∀ op ∈ exVisit, op.Only [70, 71, 72, 73].contains) ∧
    (calls exCfg (stableOrder exCfg)).Guarded (ApiGuard exCfg) exDB exVisit ∧
    ([70, 71, 72, 73].map fun k => ((calls exCfg (stableOrder exCfg)).run exDB exVisit).rows.any (·.pk == k)) = [true, true, true, true] := by
  refine ⟨exCfg_ok, stableOrder_orders _, exDB_consistent, by decide, ?_, ⟨trivial, trivial, apiGuard_child (pos := .lastChild) rfl rfl (by decide +kernel), trivial, trivial, trivial⟩, by decide +kernel⟩
  intro op h
  simp only [exVisit, List.mem_cons, List.not_mem_nil, or_false] at h
  rcases h with rfl | rfl | rfl | rfl | rfl <;> simp [ApiOp.Only, Nest.labels]

/-- **A guest leaves a trace** (violation): the guest 70 comes after 2, moves before 1, moves below 4 and is deleted; then `numchild` of 1 is -1.
The first move has put the guest below 1 without counting it (see `C12_move_corrupts`), the second one has discounted it. -/
theorem C102_mp_fails : ∃ db : DB, Consistent exCfg db ∧ ∃ ops : List ApiOp, (∀ op ∈ ops, op.Only [70].contains) ∧ 70 ∉ db.rows.map Row.pk ∧
    ¬ Consistent exCfg ((calls exCfg (stableOrder exCfg)).run db (ops ++ [.tree (.delete [70])])) := by
  refine ⟨⟨[⟨1, [49], 1, 0, []⟩, ⟨2, [50], 1, 0, []⟩, ⟨4, [56], 1, 0, []⟩], []⟩, ⟨by decide, by decide, by intro p; cases p <;> decide, by decide, by decide⟩,
    [.tree (.addSibling 2 (some .right) 70 []), .tree (.move 70 1 (some .left)), .tree (.move 70 4 (some .lastChild))], ?_, by decide, ?_⟩
  · intro op h
    simp only [List.mem_cons, List.not_mem_nil, or_false] at h
    rcases h with rfl | rfl | rfl <;> simp [ApiOp.Only]
  · intro h
    exact absurd (h.problems .wrongNumchild) (by decide +kernel)

end MP

namespace LT

variable {db : DB}

/-- **C102 for LT** (partial: up to the order of siblings, see `C102_lt_fails`) -/
theorem C102_lt_partial (cfg : Cfg) (h : Consistent db) {L : List Nat} (hL : ∀ k ∈ L, k ∉ db.rows.map Row.pk) {ops : List ApiOp} (ho : ∀ op ∈ ops, op.Only L.contains) :
    Consistent ((calls cfg).run db (ops ++ [.tree (.delete L)])) ∧
    (∀ p, (forest ((calls cfg).run db (ops ++ [.tree (.delete L)])) p).Perm (forest db p)) ∧
    data ((calls cfg).run db (ops ++ [.tree (.delete L)])).rows = data db.rows := by
  obtain ⟨hc, hs⟩ := C62_lt_partial cfg h ops
  obtain ⟨hc', hs'⟩ := C62_lt_partial cfg h (ops ++ [.tree (.delete L)])
  rw [Calls.made_delete, STree.guests_leave (isForestOn h) (by simpa [data] using hL) (fun op hm => ho op (Calls.mem_made _ _ _ _ hm)) (isForestOn hc) hs.forest (by rw [hs.data]; rfl)] at hs'
  exact ⟨hc', hs'.forest, hs'.data⟩

example : Consistent exDB ∧ (∀ k ∈ [70, 71, 72, 73], k ∉ exDB.rows.map Row.pk) ∧ ([70, 71, 72, 73].map fun k => ((calls ⟨[]⟩).run exDB (exGuests 1 2)).rows.any (·.pk == k)) = [true, true, true, true] :=
  ⟨consistent_iff.2 exDB_inv, by decide, by decide +kernel⟩

/-- **A guest leaves a trace** (violation): the roots are 4, 1, 3; the guest 70 comes to the first place and is deleted; then they are 4, 3, 1. -/
theorem C102_lt_fails : ∃ db : DB, Consistent db ∧ 70 ∉ db.rows.map Row.pk ∧ forest db none = [4, 1, 3] ∧
    forest ((calls ⟨[]⟩).run db ([.tree (.addSibling 1 (some .firstSibling) 70 [])] ++ [.tree (.delete [70])])) none = [4, 3, 1] :=
  ⟨⟨[⟨1, [[65]], []⟩, ⟨3, [[65, 48]], []⟩, ⟨4, [[48]], []⟩], []⟩, consistent_iff.2 (inv_of_check (by decide)), by decide, by decide +kernel, by decide +kernel⟩

end LT

end Verif
